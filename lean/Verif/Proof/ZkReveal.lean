import Verif.Proof.ZkMask
import Verif.Proof.ZkMulSound

/-! # The instances, and the challenge points that are not hiding -/

namespace Verif

open Polynomial

variable {K : Nat}

/-! ## Predecessor -/

theorem mul_hide_le (f : Bytes → List Bool) (hK : 0 < K) (h64 : K < 64) (l m : Nat) (hm : m ≤ 2 ^ 22)
    (p p' vp vp' vn : List (ZInput (BitVec K))) (h : Gates MulGateOk p vp vn) (h' : Gates MulGateOk p' vp' vn) (hp : p.length = l * m)
    (hp' : p'.length = l * m) (thetas betas : List (Poly (BitVec K))) (hth : thetas.length = l) (hb : betas.length = m)
    (r : PolyChallenge K (mulDegree m)) (hr : Avoids m r) (n : Nat) (hn : K * mulDegree m * (6 * l) ≤ n)
    (out : Bytes × ZkShared (Poly (BitVec K))) :
    tapeCount (mulPredecessor f l m p vp thetas betas r.poly) n out ≤ tapeCount (mulPredecessor f l m p' vp' thetas betas r.poly) n out := by
  obtain ⟨md, d, emd, hd40, hd, hmon, hirr, hpts, -, hdd⟩ := mulModulus_spec hK m hm
  obtain rfl : d = mulDegree m := hdd
  have hlen := h.length
  have hlen' := h'.length
  have hs : ∀ {p vp : List (ZInput (BitVec K))}, Gates MulGateOk p vp vn → p.length = l * m → ∀ q < l * m, ∀ i < 6,
      (p.getD q ⟨0, 0, 0, 0, 0, 0⟩).val i = (vp.getD q ⟨0, 0, 0, 0, 0, 0⟩).val i + (vn.getD q ⟨0, 0, 0, 0, 0, 0⟩).val i := by
    intro p vp h hp q hq i hi
    have hg := (h.get q ⟨0, 0, 0, 0, 0, 0⟩ (by omega)).1
    generalize p.getD q ⟨0, 0, 0, 0, 0, 0⟩ = x at hg ⊢
    generalize vp.getD q ⟨0, 0, 0, 0, 0, 0⟩ = y at hg ⊢
    generalize vn.getD q ⟨0, 0, 0, 0, 0, 0⟩ = z at hg ⊢
    subst hg
    match i, hi with
    | 0, _ => rfl
    | 1, _ => rfl
    | 2, _ => rfl
    | 3, _ => rfl
    | 4, _ => rfl
    | 5, _ => rfl
  have hg : ∀ {p vp : List (ZInput (BitVec K))}, Gates MulGateOk p vp vn → p.length = l * m → ∀ q < l * m,
      mulExpr (BitVec K) ((List.range 6).map (p.getD q ⟨0, 0, 0, 0, 0, 0⟩).val) = 0 := by
    intro p vp h hp q hq
    have hg := (h.get q ⟨0, 0, 0, 0, 0, 0⟩ (by omega)).2
    generalize p.getD q ⟨0, 0, 0, 0, 0, 0⟩ = x at hg ⊢
    show x.a0 * x.b0 + x.a0 * x.b1 + x.a1 * x.b0 + x.r - x.s = 0
    rw [hg, sub_self]
  obtain ⟨Ls, eL, hle⟩ := poly_hide_le hK h64 (mulEnv (idealPrg f) K md) hd (by omega) hmon hirr (fun _ => rfl) (fun _ => rfl)
    mulCirc_lawful ZInput.val ⟨0, 0, 0, 0, 0, 0⟩ l m hpts p p' vp vp' vn hp hp' (by omega) (by omega) (by omega)
    (fun _ _ x _ i hi => mul_wire _ md x i hi) (hs h hp) (hs h' hp') (hg h hp) (hg h' hp') thetas betas hth hb r hr n hn out
  have e : ∀ p vp : List (ZInput (BitVec K)), mulPredecessor f l m p vp thetas betas r.poly = (fun t => do
      let (sd, pf, _) ← (mulEnv (idealPrg f) K md).prove l m p thetas Ls t
      let v ← (mulEnv (idealPrg f) K md).verifyPi l m vp betas r.poly Ls (mulPoints K (m + 1)) pf
      pure (sd, v)) := by
    intro p vp
    funext t
    unfold mulPredecessor
    simp only [emd, eL, bind, Except.bind]
  rw [e, e]
  exact hle

theorem gates_sized {dot : Nat} {p vp vn : List (DInput K)} (h : Gates DotGateOk p vp vn) (hs : ∀ g ∈ p, g.Sized dot) :
    Gates (DotGateOkAt dot) p vp vn := by
  obtain ⟨gs, hg, rfl, rfl, rfl⟩ := h
  refine ⟨gs, fun g hm => ?_, rfl, rfl, rfl⟩
  have h1 := hg g hm
  have h2 := hs g.1 (List.mem_map.2 ⟨g, hm, rfl⟩)
  obtain ⟨n, a, b, c⟩ := h1.1
  obtain rfl : n = dot := by rw [← a.1, h2.1]
  exact ⟨h1, a, b, c⟩

theorem sized_all {dot : Nat} {p vp vn : List (DInput K)} (h : Gates (DotGateOkAt dot) p vp vn) : ∀ inputs ∈ [p, vp, vn], ∀ x ∈ inputs, x.Sized dot := by
  obtain ⟨gs, hg, rfl, rfl, rfl⟩ := h
  intro inputs hi x hx
  simp only [List.mem_cons, List.not_mem_nil, or_false] at hi
  rcases hi with rfl | rfl | rfl
  all_goals
    obtain ⟨g, hgm, rfl⟩ := List.mem_map.1 hx
  · exact (hg g hgm).2.1
  · exact (hg g hgm).2.2.1
  · exact (hg g hgm).2.2.2

theorem dot_hide_le (f : Bytes → List Bool) (hK : 0 < K) (h64 : K < 64) (dot l m : Nat) (hm : m ≤ 2 ^ 22)
    (p p' vp vp' vn : List (DInput K)) (h : Gates (DotGateOkAt dot) p vp vn) (h' : Gates (DotGateOkAt dot) p' vp' vn) (hp : p.length = l * m)
    (hp' : p'.length = l * m) (thetas betas : List (Poly (BitVec K))) (hth : thetas.length = l) (hb : betas.length = m)
    (r : PolyChallenge K (mulDegree m)) (hr : Avoids m r) (n : Nat) (hn : K * mulDegree m * ((4 * dot + 2) * l) ≤ n)
    (out : Bytes × ZkShared (Poly (BitVec K))) :
    tapeCount (dotPredecessor f dot l m p vp thetas betas r.poly) n out ≤
      tapeCount (dotPredecessor f dot l m p' vp' thetas betas r.poly) n out := by
  obtain ⟨md, d, emd, hd40, hd, hmon, hirr, hpts, -, hdd⟩ := mulModulus_spec hK m hm
  obtain rfl : d = mulDegree m := hdd
  have hlen := h.length
  have hlen' := h'.length
  have hs : ∀ {p vp : List (DInput K)}, Gates (DotGateOkAt dot) p vp vn → p.length = l * m → ∀ q < l * m, ∀ i < 4 * dot + 2,
      (p.getD q (DInput.new K dot)).val i = (vp.getD q (DInput.new K dot)).val i + (vn.getD q (DInput.new K dot)).val i := by
    intro p vp h hp q hq i hi
    have hg := h.get q (DInput.new K dot) (by omega)
    exact DInput.val_add hg.2.1 hg.2.2.1 hg.2.2.2 hg.1.2.1 i hi
  have hg : ∀ {p vp : List (DInput K)}, Gates (DotGateOkAt dot) p vp vn → p.length = l * m → ∀ q < l * m,
      dotExpr dot (BitVec K) ((List.range (4 * dot + 2)).map (p.getD q (DInput.new K dot)).val) = 0 := by
    intro p vp h hp q hq
    have hg := h.get q (DInput.new K dot) (by omega)
    have e1 := DInput.dotExpr_eq hg.2.1
    have e2 := hg.1.2.2
    refine Eq.trans e1 ?_
    linear_combination e2
  have hsz := sized_all h
  have hsz' := sized_all h'
  obtain ⟨Ls, eL, hle⟩ := poly_hide_le hK h64 (dotEnv (idealPrg f) K md dot) hd (by omega) hmon hirr (fun _ => rfl) (fun _ => rfl)
    (dotCirc_lawful dot) DInput.val (DInput.new K dot) l m hpts p p' vp vp' vn hp hp' (by omega) (by omega) (by omega)
    (fun inputs hi x hx i hw => by
      refine dot_wire _ md dot x ?_ i hw
      simp only [List.mem_cons, List.not_mem_nil, or_false] at hi
      rcases hi with rfl | rfl | rfl | rfl | rfl
      · exact hsz _ (by simp) x hx
      · exact hsz' _ (by simp) x hx
      · exact hsz _ (by simp) x hx
      · exact hsz' _ (by simp) x hx
      · exact hsz _ (by simp) x hx)
    (hs h hp) (hs h' hp') (hg h hp) (hg h' hp') thetas betas hth hb r hr n hn out
  have e : ∀ p vp : List (DInput K), dotPredecessor f dot l m p vp thetas betas r.poly = (fun t => do
      let (sd, pf, _) ← (dotEnv (idealPrg f) K md dot).prove l m p thetas Ls t
      let v ← (dotEnv (idealPrg f) K md dot).verifyPi l m vp betas r.poly Ls (mulPoints K (m + 1)) pf
      pure (sd, v)) := by
    intro p vp
    funext t
    unfold dotPredecessor
    simp only [emd, eL, bind, Except.bind]
  rw [e, e]
  exact hle

/-! ## Successor -/

theorem mask_messages {T I : Type} [PolyT T] (circ : ZkCirc) (wire : I → Nat → Except Err T) (rnd : List Bool → T × List Bool)
    (red : T → Except Err T) {e : Nat} {mk : List (BitVec K) → T} (hd : ∀ f, (envOf circ wire rnd red f).Draws K e mk) (l m : Nat)
    (inputs : List I) (thetas : List T) (Ls : List (Poly T)) (rng : List Bool)
    (hok : ∀ f, ∃ sd pf s, (envOf circ wire rnd red f).prove l m inputs thetas Ls rng = .ok (sd, pf, s))
    {X Y : T → Prop} (hX : ∀ ws : List (BitVec K), ws.length = e → X (mk ws)) (hX' : ∀ x y, red x = .ok y → X y) (hXz : X PolyT.zero)
    (hsub : ∀ x, X x → ∀ y, Y y → ∃! ws : List (BitVec K), ws.length = e ∧ PolyT.sub x (mk ws) = y) :
    ∃ sd, ∀ pf : ZkPf T, pf.w.length = circ.wires * l → pf.a.length = 2 * m + 1 → (∀ y ∈ pf.w, Y y) → (∀ y ∈ pf.a, Y y) →
      ∃! t : List Bool, t.length = K * e * (circ.wires * l + (2 * m + 1)) ∧ (do
        let (sd, pf, _) ← (envOf circ wire rnd red fun _ => t).prove l m inputs thetas Ls rng
        pure (sd, pf)) = .ok (sd, pf) := by
  obtain ⟨sd, pf0, s, h0⟩ := hok fun _ => []
  refine ⟨sd, fun pf hw ha hYw hYa => ?_⟩
  obtain ⟨t, ⟨t1, t2⟩, t3⟩ := prove_mask circ wire rnd red hd l m inputs thetas Ls rng _ sd pf0 s h0 hX hX' hXz hsub pf hw ha hYw hYa
  have hiff : ∀ t : List Bool, (do
        let (sd, pf, _) ← (envOf circ wire rnd red fun _ => t).prove l m inputs thetas Ls rng
        pure (sd, pf)) = .ok (sd, pf) ↔ (envOf circ wire rnd red fun _ => t).prove l m inputs thetas Ls rng = .ok (sd, pf, s) := by
    intro t
    obtain ⟨sd', pf', s', e'⟩ := hok fun _ => t
    have hs : s' = s := by
      obtain ⟨-, a, -⟩ := ZkEnv.prove_parts _ h0
      obtain ⟨-, b, -⟩ := ZkEnv.prove_parts _ e'
      rw [a, b]
      have := envOf_randoms circ wire rnd red (fun _ => t) (fun _ => []) (circ.wires * l) rng
      exact congrArg (fun r : List T × List Bool => (idealPrg fun _ => []).genSeed r.2 |>.2) this
    rw [e', hs]
    simp only [bind, Except.bind, pure, Except.pure, Except.ok.injEq]
    constructor
    · intro h; cases h; rfl
    · intro h; cases h; rfl
  refine ⟨t, ⟨t1, (hiff t).2 t2⟩, ?_⟩
  rintro t' ⟨a, b⟩
  exact t3 t' ⟨a, (hiff t').1 b⟩

theorem and_mask (l m : Nat) (hm : m < 2 ^ 64) (p : List (ZInput Bool)) (hp : p.length = l * m) (thetas : List GF2p64)
    (hth : thetas.length = l) (rng : List Bool) : ∃ sd, ∀ pf : ZkPf GF2p64, pf.w.length = 6 * l → pf.a.length = 2 * m + 1 →
      ∃! t : List Bool, t.length = 64 * (6 * l + (2 * m + 1)) ∧ andMessages (fun _ => t) l m p thetas rng = .ok (sd, pf) := by
  obtain ⟨Ls, eL, hL, hLag⟩ := and_lagrange m hm
  obtain ⟨sd, h⟩ := mask_messages (K := 64) (e := 1) (mk := fun ws => GF2p64.new (ws.headD 0)) mulCirc (fun (x : ZInput Bool) i => do let b ← x.get i; pure (GF2p64.lift b))
    (fun s => (GF2p64.new (tapeVal 64 s), s.drop 64)) (fun x => .ok x) (fun f => and_draws f) l m p thetas Ls rng
    (fun f => by
      have g1 := and_gates (idealPrg f) p
      rw [hp] at g1
      obtain ⟨sd, pf0, s, w, e, -⟩ := (andEnv (idealPrg f)).prove_sem (RingHom.id F64) (and_redOk _) mulCirc_lawful l m p thetas Ls rng hth hL
        (fun L hmem => by
          obtain ⟨j, hj, rfl⟩ := List.mem_iff_getElem.1 hmem
          have := (hLag j hj).1
          have hxs : ((andPoints (m + 1)).map fun x => RingHom.id F64 (sem x)).length = m + 1 := by simp [andPoints_length]
          omega) (andV p) g1
      exact ⟨sd, pf0, s, e⟩)
    (X := fun _ => True) (Y := fun _ => True) (fun _ _ => trivial) (fun _ _ _ => trivial) trivial (fun x _ y _ => gf_mask x y)
  refine ⟨sd, fun pf hw ha => ?_⟩
  obtain ⟨t, ⟨t1, t2⟩, t3⟩ := h pf hw ha (fun _ _ => trivial) (fun _ _ => trivial)
  have hiff : ∀ t : List Bool, andMessages (fun _ => t) l m p thetas rng = (do
        let (sd, pf, _) ← (andEnv (idealPrg fun _ => t)).prove l m p thetas Ls rng
        pure (sd, pf)) := by
    intro t
    unfold andMessages
    simp only [eL, bind, Except.bind]
  refine ⟨t, ⟨by rw [t1]; rfl, (hiff t).trans t2⟩, ?_⟩
  rintro t' ⟨a, b⟩
  exact t3 t' ⟨by rw [a]; rfl, (hiff t').symm.trans b⟩

theorem poly_mask_messages {I : Type} (hK : 0 < K) (h64 : K < 64) (circ : ZkCirc) (wire : I → Nat → Except Err (Poly (BitVec K)))
    {md : Poly (BitVec K)} {d : Nat} (hd : d < 64) (hd0 : 0 < d) (hm : Poly.MonicRep d md)
    (hirr : Irreducible (md.sem.map (bvMod2 hK)))
    {cR : (A : Type) → [CommRing A] → List A → A} (hc : circ.Lawful cR) (val : I → Nat → BitVec K) (d0 : I)
    (l m : Nat) (hmd : m + 1 ≤ 2 ^ d) (p : List I) (hp : p.length = l * m)
    (hw : ∀ x ∈ p, ∀ i < circ.wires, wire x i = .ok (Poly.lift (val x i)))
    (thetas : List (Poly (BitVec K))) (hth : thetas.length = l) (rng : List Bool) :
    ∃ Ls, Poly.lagrangePolys (mulPoints K (m + 1)) md = .ok Ls ∧ ∃ sd, ∀ pf : ZkPf (Poly (BitVec K)),
      pf.w.length = circ.wires * l → pf.a.length = 2 * m + 1 → (∀ y ∈ pf.w, y.coeffs.length = d) → (∀ y ∈ pf.a, y.coeffs.length = d) →
      ∃! t : List Bool, t.length = K * d * (circ.wires * l + (2 * m + 1)) ∧ (do
        let (sd, pf, _) ← (envOf circ wire (fun s => Poly.random (G := idealPrg fun _ => []) K (md.degree - 1) s) (fun x => x.rem md)
          fun _ => t).prove l m p thetas Ls rng
        pure (sd, pf)) = .ok (sd, pf) := by
  obtain ⟨Ls, eL, hL, hLag⟩ := Poly.lagrangePolys_spec hK h64 md hd hm hirr _ (Poly.mulPoints_ok hK d (m + 1) hmd)
  have hpl : (mulPoints K (m + 1)).length = m + 1 := by simp [mulPoints]
  rw [hpl] at hL
  refine ⟨Ls, eL, ?_⟩
  have hdeg : md.degree = d := by
    have := Poly.nontrivial_bitVec hK
    rw [Poly.degree_eq (R := BitVec K), (hm.monic hK).2]
  refine mask_messages (K := K) (e := d) (mk := fun ws => ⟨ws⟩) circ wire _ _ ?_ l m p thetas Ls rng ?_
    (X := fun x => x.coeffs.length ≤ d) (Y := fun y => y.coeffs.length = d) ?_ ?_ ?_ ?_
  · intro f t
    have := poly_draws (K := K) (fun _ => []) (md.degree - 1) t
    rw [hdeg, Nat.sub_add_cancel hd0] at this
    refine Eq.trans ?_ this
    show Poly.random (G := idealPrg fun _ => []) K (md.degree - 1) t = _
    rw [hdeg]
  · intro f
    set E := envOf circ wire (fun s => Poly.random (G := idealPrg fun _ => []) K (md.degree - 1) s) (fun x => x.rem md) f with hE
    have g1 := lift_gates E val d0 p hw
    rw [hp] at g1
    obtain ⟨sd, pf0, s, w, e, -⟩ := E.prove_sem (AdjoinRoot.mk md.sem) (mul_redOk hK E hm fun _ => rfl) hc l m p thetas Ls rng hth hL
      (fun L hmem => by
        obtain ⟨j, hj, rfl⟩ := List.mem_iff_getElem.1 hmem
        have := (hLag j hj).1
        have hxs : ((mulPoints K (m + 1)).map fun x => AdjoinRoot.mk md.sem x.sem).length = m + 1 := by simp [hpl]
        omega) _ g1
    exact ⟨sd, pf0, s, e⟩
  · intro ws hws
    exact hws.le
  · intro x y h
    obtain ⟨r, e, hl, -⟩ := Poly.rem_spec hK x md hm
    rw [e] at h
    cases h
    have h1 := degree_shrink_self r (BitVec K)
    have h2 : r.shrink.sem.degree < d := by
      rw [Poly.sem_shrink]
      exact lt_of_lt_of_le (semL_degree_lt r.coeffs) (by exact_mod_cast hl)
    rw [h1, Poly.degree_eq (R := BitVec K)]
    by_cases h0 : r.shrink.sem = 0
    · rw [h0, natDegree_zero]; omega
    · rw [degree_eq_natDegree h0] at h2
      have : r.shrink.sem.natDegree < d := by exact_mod_cast h2
      omega
  · show (Poly.zero : Poly (BitVec K)).coeffs.length ≤ d
    have : (Poly.zero : Poly (BitVec K)).coeffs.length ≤ 1 := by simp [Poly.zero]
    omega
  · intro x hx y hy
    exact poly_sub_mask d x y hx hy

theorem mul_mask (hK : 0 < K) (h64 : K < 64) (l m : Nat) (hm : m ≤ 2 ^ 22) (p : List (ZInput (BitVec K))) (hp : p.length = l * m)
    (thetas : List (Poly (BitVec K))) (hth : thetas.length = l) (rng : List Bool) : ∃ sd, ∀ pf : ZkPf (Poly (BitVec K)),
      pf.w.length = 6 * l → pf.a.length = 2 * m + 1 → (∀ y ∈ pf.w, y.coeffs.length = mulDegree m) →
      (∀ y ∈ pf.a, y.coeffs.length = mulDegree m) → ∃! t : List Bool, t.length = K * mulDegree m * (6 * l + (2 * m + 1)) ∧
        mulMessages (fun _ => t) l m p thetas rng = .ok (sd, pf) := by
  obtain ⟨md, d, emd, hd40, hd, hmon, hirr, hpts, -, hdd⟩ := mulModulus_spec hK m hm
  obtain rfl : d = mulDegree m := hdd
  obtain ⟨Ls, eL, sd, h⟩ := poly_mask_messages hK h64 mulCirc (fun (x : ZInput (BitVec K)) i => do let b ← x.get i; pure (Poly.lift b)) hd (by omega) hmon hirr
    mulCirc_lawful ZInput.val ⟨0, 0, 0, 0, 0, 0⟩ l m hpts p hp (fun x _ i hi => mul_wire (idealPrg fun _ => []) md x i hi) thetas hth rng
  refine ⟨sd, fun pf hw ha hYw hYa => ?_⟩
  obtain ⟨t, ⟨t1, t2⟩, t3⟩ := h pf hw ha hYw hYa
  have hiff : ∀ t : List Bool, mulMessages (fun _ => t) l m p thetas rng = (do
        let (sd, pf, _) ← (mulEnv (idealPrg fun _ => t) K md).prove l m p thetas Ls rng
        pure (sd, pf)) := by
    intro t
    unfold mulMessages
    simp only [emd, eL, bind, Except.bind]
  refine ⟨t, ⟨t1, (hiff t).trans t2⟩, ?_⟩
  rintro t' ⟨a, b⟩
  exact t3 t' ⟨a, (hiff t').symm.trans b⟩

theorem dot_mask (hK : 0 < K) (h64 : K < 64) (dot l m : Nat) (hm : m ≤ 2 ^ 22) (p : List (DInput K)) (hp : p.length = l * m)
    (hs : ∀ g ∈ p, g.Sized dot) (thetas : List (Poly (BitVec K))) (hth : thetas.length = l) (rng : List Bool) :
    ∃ sd, ∀ pf : ZkPf (Poly (BitVec K)), pf.w.length = (4 * dot + 2) * l → pf.a.length = 2 * m + 1 →
      (∀ y ∈ pf.w, y.coeffs.length = mulDegree m) → (∀ y ∈ pf.a, y.coeffs.length = mulDegree m) →
      ∃! t : List Bool, t.length = K * mulDegree m * ((4 * dot + 2) * l + (2 * m + 1)) ∧
        dotMessages (fun _ => t) dot l m p thetas rng = .ok (sd, pf) := by
  obtain ⟨md, d, emd, hd40, hd, hmon, hirr, hpts, -, hdd⟩ := mulModulus_spec hK m hm
  obtain rfl : d = mulDegree m := hdd
  obtain ⟨Ls, eL, sd, h⟩ := poly_mask_messages hK h64 (dotCirc dot) (fun (x : DInput K) i => do let b ← x.get i; pure (Poly.lift b)) hd (by omega) hmon hirr
    (dotCirc_lawful dot) DInput.val (DInput.new K dot) l m hpts p hp
    (fun x hx i hi => dot_wire (idealPrg fun _ => []) md dot x (hs x hx) i hi) thetas hth rng
  refine ⟨sd, fun pf hw ha hYw hYa => ?_⟩
  obtain ⟨t, ⟨t1, t2⟩, t3⟩ := h pf hw ha hYw hYa
  have hiff : ∀ t : List Bool, dotMessages (fun _ => t) dot l m p thetas rng = (do
        let (sd, pf, _) ← (dotEnv (idealPrg fun _ => t) K md dot).prove l m p thetas Ls rng
        pure (sd, pf)) := by
    intro t
    unfold dotMessages
    simp only [emd, eL, bind, Except.bind]
  refine ⟨t, ⟨t1, (hiff t).trans t2⟩, ?_⟩
  rintro t' ⟨a, b⟩
  exact t3 t' ⟨a, (hiff t').symm.trans b⟩

/-! ## Points that reveal a gate -/

theorem toBitsMin_getElem? (k i : Nat) : (toBitsMin K k)[i]? = if i < (toBitsMin K k).length then some (ofBit K (k.testBit i)) else none := by
  induction k using Nat.strong_induction_on generalizing i with
  | _ k ih =>
    rw [toBitsMin]
    by_cases h : k > 0
    · rw [dif_pos h]
      cases i with
      | zero =>
        rw [List.getElem?_cons_zero, if_pos (by simp), Nat.testBit_zero]
        congr 2
      | succ i =>
        rw [List.getElem?_cons_succ, ih (k / 2) (by omega) i, Nat.testBit_succ]
        simp
    · rw [dif_neg h]; simp

theorem toBitsMin_top (k i : Nat) (h : (toBitsMin K k).length ≤ i) : k.testBit i = false := by
  induction k using Nat.strong_induction_on generalizing i with
  | _ k ih =>
    rw [toBitsMin] at h
    by_cases hk : k > 0
    · rw [dif_pos hk] at h
      cases i with
      | zero => simp at h
      | succ i =>
        rw [Nat.testBit_succ]
        exact ih (k / 2) (by omega) i (by simpa using h)
    · have : k = 0 := by omega
      subst this
      simp

theorem pointAt_sem (d k : Nat) (hk : k < 2 ^ d) : (pointAt K d k).poly.sem = Poly.sem ⟨toBitsMin K k⟩ := by
  refine Polynomial.ext fun i => ?_
  simp only [Poly.sem, PolyChallenge.poly, semL_coeff, toBitsMin_getElem?]
  have hlen := Poly.toBitsMin_length (K := K) k d hk
  by_cases hi : i < d
  · rw [List.getElem?_eq_getElem (by simpa using hi), List.getElem_ofFn]
    by_cases h : i < (toBitsMin K k).length
    · rw [if_pos h]
      simp only [sem_bitVec, pointAt, ofBit]
    · rw [if_neg h]
      simp only [sem_bitVec, pointAt]
      rw [toBitsMin_top (K := K) k i (by omega)]
      rfl
  · rw [List.getElem?_eq_none (by simp; omega), if_neg (by omega)]

theorem wireIdx_get {G : Prg} {T I : Type} (E : ZkEnv G T I) (l j i : Nat) (hj : j < l) (hi : i < E.circ.wires) :
    (E.wireIdx l)[j * E.circ.wires + i]? = some (j, i) := by
  unfold ZkEnv.wireIdx
  induction l with
  | zero => omega
  | succ l ih =>
    have hlen : ((List.range l).flatMap fun j => (List.range E.circ.wires).map fun i => (j, i)).length = l * E.circ.wires := by
      rw [List.length_flatMap]
      simp
    rw [List.range_succ, List.flatMap_append]
    by_cases h : j < l
    · rw [List.getElem?_append_left]
      · exact ih h
      · rw [hlen]
        calc j * E.circ.wires + i < (j + 1) * E.circ.wires := by rw [Nat.add_mul]; omega
          _ ≤ _ := Nat.mul_le_mul_right _ h
    · obtain rfl : j = l := by omega
      rw [List.getElem?_append_right (by rw [hlen]; omega), hlen]
      simp [hi]

theorem poly_reveal {G : Prg} {I : Type} (hK : 0 < K) (h64 : K < 64) (E : ZkEnv G (Poly (BitVec K)) I)
    {md : Poly (BitVec K)} {d : Nat} (hd : d < 64) (hd0 : 0 < d) (hm : Poly.MonicRep d md)
    (hirr : Irreducible (md.sem.map (bvMod2 hK))) (hE : ∀ x, E.red x = x.rem md) (val : I → Nat → BitVec K) (d0 : I)
    (l m : Nat) (hmd : m + 1 ≤ 2 ^ d) (vp : List I)
    (hw : ∀ x ∈ vp, ∀ i < E.circ.wires, E.wire x i = .ok (Poly.lift (val x i)))
    (betas : List (Poly (BitVec K))) (k : Nat) (hk : 1 ≤ k) (hk' : k ≤ m) (Ls : List (Poly (Poly (BitVec K))))
    (eL : Poly.lagrangePolys (mulPoints K (m + 1)) md = .ok Ls) (pf : ZkPf (Poly (BitVec K))) (v : ZkShared (Poly (BitVec K)))
    (h : E.verifyPi l m vp betas (pointAt K d k).poly Ls (mulPoints K (m + 1)) pf = .ok v) (j i : Nat) (hj : j < l) (hi : i < E.circ.wires) :
    v.f[j * E.circ.wires + i]? = some (Poly.lift (val (vp.getD (j * m + (k - 1)) d0) i)) := by
  obtain ⟨Ls', eL', hL, hLag⟩ := Poly.lagrangePolys_spec hK h64 md hd hm hirr _ (Poly.mulPoints_ok hK d (m + 1) hmd)
  obtain rfl : Ls' = Ls := Except.ok.inj (eL'.symm.trans eL)
  have hpl : (mulPoints K (m + 1)).length = m + 1 := by simp [mulPoints]
  rw [hpl] at hL
  have hr := mul_redOk hK E hm hE
  have h0 := h
  unfold ZkEnv.verifyPi at h
  split at h
  case isFalse => cases h
  rename_i hc
  split at h
  · cases h
  rename_i hc2
  push Not at hc2
  have g2 := lift_gates E val d0 vp hw
  rw [← hc.2.2.1, Nat.mul_comm] at g2
  obtain ⟨v', F, e1, hf, hF, -⟩ := E.verifyPi_sem (AdjoinRoot.mk md.sem) hr l m vp betas (pointAt K d k).poly Ls' (mulPoints K (m + 1)) pf
    hc.1.symm hL hpl hc2.1 hc2.2 _ g2
  obtain rfl : v' = v := Except.ok.inj (e1.symm.trans h0)
  rw [hf, List.getElem?_map, wireIdx_get E l j i hj hi]
  simp only [Option.map_some, Option.some.injEq]
  have hred : RedTo d (F j i) := by
    refine E.verifyPi_red (Red := RedTo d) (fun x y hxy => ?_) e1 _ ?_
    · obtain ⟨y', e, -, h'⟩ := hr.red x
      rw [hxy] at e
      cases e
      exact h'
    · rw [hf]
      exact List.mem_map.2 ⟨(j, i), List.mem_of_getElem? (wireIdx_get E l j i hj hi), rfl⟩
  refine redTo_inj hK hm _ _ hred ?_ ?_
  · refine ⟨?_, ?_⟩
    · rw [Poly.sem_lift]
      exact lt_of_le_of_lt degree_C_le (by exact_mod_cast hd0)
    · rw [Poly.degree_eq (R := BitVec K), Poly.sem_lift, natDegree_C]
      rfl
  · have := hF j hj i hi
    have hs : AdjoinRoot.mk md.sem (sem (pointAt K d k).poly) = ((mulPoints K (m + 1)).map fun x => AdjoinRoot.mk md.sem x.sem)[(k - 1) + 1]'(by
        rw [List.length_map, hpl]; omega) := by
      simp only [List.getElem_map, mulPoints, List.getElem_range]
      rw [Nat.sub_add_cancel hk]
      exact congrArg _ (pointAt_sem d k (by omega))
    have hxs : ((mulPoints K (m + 1)).map fun x => AdjoinRoot.mk md.sem x.sem).length = m + 1 := by rw [List.length_map, hpl]
    rw [hs, ZkEnv.wireA_eval _ _ _ _ _ hxs hL hLag _ _ _ _ _ (by omega)] at this
    exact this

/-! ## Counting the points that are not hiding -/

theorem card_not_avoids (hK : 0 < K) (m d : Nat) :
    Nat.card {r : PolyPoint K d // ¬ Avoids m r.1} ≤ m * 2 ^ ((K - 1) * d) := by
  have hcard : Nat.card (Fin m × (Fin d → BitVec (K - 1))) = m * 2 ^ ((K - 1) * d) := by
    rw [Nat.card_prod, natCard_challenge, Nat.card_eq_fintype_card, Fintype.card_fin]
  rw [← hcard]
  have hbad : ∀ r : {r : PolyPoint K d // ¬ Avoids m r.1}, ∃ k : Fin m, ∀ i : Fin d, (r.1.1 i).getLsbD 0 = (k.1 + 1).testBit i := by
    rintro ⟨r, hr⟩
    unfold Avoids at hr
    push Not at hr
    obtain ⟨k, h1, h2, h3⟩ := hr
    refine ⟨⟨k - 1, by omega⟩, fun i => ?_⟩
    rw [h3 i]
    simp only
    rw [Nat.sub_add_cancel h1]
  choose κ hκ using hbad
  refine Nat.card_le_card_of_injective (fun r => (κ r, fun i => (r.1.1 i).extractLsb' 1 (K - 1))) ?_
  intro r r' h
  have h := Prod.mk.inj h
  apply Subtype.ext
  apply Subtype.ext
  funext i
  have h1 := congrFun h.2 i
  apply BitVec.eq_of_getLsbD_eq
  intro q hq
  cases q with
  | zero => rw [hκ r i, hκ r' i, h.1]
  | succ q =>
    have := congrArg (fun x => x.getLsbD q) h1
    simp only [BitVec.getLsbD_extractLsb'] at this
    rw [Nat.add_comm]
    have hq' : q < K - 1 := by omega
    simpa [hq'] using this

theorem not_avoids_rare (hK : 0 < K) (m : Nat) (hm : m ≤ 2 ^ 22) :
    2 ^ 40 * Nat.card {r : PolyPoint K (mulDegree m) // ¬ Avoids m r.1} ≤ Nat.card (PolyPoint K (mulDegree m)) := by
  obtain ⟨md, d, emd, hd40, hd, hmon, hirr, hpts, hdm, hdd⟩ := mulModulus_spec hK m hm
  obtain rfl : d = mulDegree m := hdd
  set d := mulDegree m
  have h1 := card_not_avoids hK m d
  have h2 := natCard_point (K := K) (d := d) (by omega)
  have hK2 : 2 ≤ 2 ^ K := by
    calc 2 = 2 ^ 1 := rfl
      _ ≤ 2 ^ K := Nat.pow_le_pow_right (by omega) hK
  have h3 : 2 ^ (K * d) = 2 ^ d * 2 ^ ((K - 1) * d) := by
    rw [← pow_add]
    congr 1
    obtain ⟨k, rfl⟩ : ∃ k, K = k + 1 := ⟨K - 1, by omega⟩
    rw [Nat.add_sub_cancel]; ring
  have h4 : 2 ^ (K * d) ≤ 2 * Nat.card (PolyPoint K d) := by
    have : 2 ^ K * 2 ^ (K * d) ≤ 2 ^ K * (2 * Nat.card (PolyPoint K d)) := by
      calc 2 ^ K * 2 ^ (K * d) ≤ (2 * (2 ^ K - 1)) * 2 ^ (K * d) := Nat.mul_le_mul_right _ (by omega)
        _ = 2 * ((2 ^ K - 1) * 2 ^ (K * d)) := by ring
        _ = 2 ^ K * (2 * Nat.card (PolyPoint K d)) := by rw [← h2]; ring
    exact Nat.le_of_mul_le_mul_left this (by positivity)
  have h5 : 2 * (2 ^ 40 * Nat.card {r : PolyPoint K d // ¬ Avoids m r.1}) ≤ 2 * Nat.card (PolyPoint K d) := by
    calc 2 * (2 ^ 40 * Nat.card {r : PolyPoint K d // ¬ Avoids m r.1}) ≤ 2 * (2 ^ 40 * (m * 2 ^ ((K - 1) * d))) :=
          Nat.mul_le_mul_left _ (Nat.mul_le_mul_left _ h1)
      _ = (2 ^ 40 * (2 * m)) * 2 ^ ((K - 1) * d) := by ring
      _ ≤ 2 ^ d * 2 ^ ((K - 1) * d) := Nat.mul_le_mul_right _ hdm
      _ = 2 ^ (K * d) := h3.symm
      _ ≤ _ := h4
  exact Nat.le_of_mul_le_mul_left h5 (by omega)

end Verif
