import Verif.Proof.LagrangeMod
import Verif.Proof.ZkAnd
import Verif.Spec.Dzkp

/-! # The proofs for multiplications and dot products: reductions, and completeness up to representation -/

namespace Verif

open Polynomial

variable {K : Nat}

/-- What the reduction modulo a polynomial of degree `d` returns: degree below `d`, no superfluous coefficients. -/
def RedTo (d : Nat) (p : Poly (BitVec K)) : Prop := p.sem.degree < d ∧ p.coeffs.length = p.degree + 1

theorem mk_eq_zero_of_degree_lt (hK : 0 < K) {m : Poly (BitVec K)} {d : Nat} (hm : Poly.MonicRep d m) (p : (BitVec K)[X])
    (h : p.degree < d) : AdjoinRoot.mk m.sem p = 0 ↔ p = 0 := by
  have := Poly.nontrivial_bitVec hK
  have hmon := hm.monic hK
  constructor
  · intro h0
    rw [AdjoinRoot.mk_eq_zero] at h0
    have h1 : p %ₘ m.sem = p :=
      (modByMonic_eq_self_iff hmon.1).2 (by rw [degree_eq_natDegree hmon.1.ne_zero, hmon.2]; exact h)
    rw [← h1]
    exact (modByMonic_eq_zero_iff_dvd hmon.1).2 h0
  · rintro rfl; exact map_zero _

theorem degree_shrink_self {T : Type} [PolyT T] (p : Poly T) (R : Type) [CommRing R] [LawfulPolyT T R] :
    p.shrink.coeffs.length = p.shrink.degree + 1 := by
  rw [Poly.length_shrink, Poly.degree_eq (R := R), Poly.degree_eq (R := R), Poly.sem_shrink]

theorem mul_redOk {G : Prg} {I : Type} (hK : 0 < K) (E : ZkEnv G (Poly (BitVec K)) I) {m : Poly (BitVec K)} {d : Nat}
    (hm : Poly.MonicRep d m) (hE : ∀ x, E.red x = x.rem m) : E.RedOk (AdjoinRoot.mk m.sem) (RedTo d) where
  red x := by
    have := Poly.nontrivial_bitVec hK
    have hmon := hm.monic hK
    obtain ⟨r, e, hl, hs⟩ := Poly.rem_spec hK x m hm
    refine ⟨r.shrink, by rw [hE, e], ?_, ?_, degree_shrink_self r (BitVec K)⟩
    · show AdjoinRoot.mk m.sem r.shrink.sem = AdjoinRoot.mk m.sem x.sem
      rw [Poly.sem_shrink, hs, AdjoinRoot.mk_eq_mk, modByMonic_eq_sub_mul_div]
      exact ⟨- (x.sem /ₘ m.sem), by ring⟩
    · rw [Poly.sem_shrink]
      exact lt_of_lt_of_le (semL_degree_lt r.coeffs) (by exact_mod_cast hl)
  zero x y hx hy := by
    rw [isZero_iff, sem_add, ← map_add]
    exact (mk_eq_zero_of_degree_lt hK hm _ (lt_of_le_of_lt (degree_add_le _ _) (max_lt hx.1 hy.1))).symm

theorem poly_eq_of_sem {p q : Poly (BitVec K)} (hl : p.coeffs.length = q.coeffs.length) (h : p.sem = q.sem) : p = q := by
  apply Poly.ext
  apply List.ext_getElem hl
  intro i h1 h2
  have := congrArg (fun r => coeff r i) h
  simp only [Poly.sem, semL_coeff, List.getElem?_eq_getElem h1, List.getElem?_eq_getElem h2, sem_bitVec] at this
  exact this

theorem degree_add_one_of_last {p : Poly (BitVec K)} {x : BitVec K} (h : p.coeffs.getLast? = some x) (hx : x ≠ 0) :
    p.coeffs.length = p.degree + 1 := by
  obtain ⟨init, hi⟩ : ∃ init, p.coeffs = init ++ [x] := by
    obtain ⟨ys, hys⟩ := List.getLast?_eq_some_iff.1 h
    exact ⟨ys, hys⟩
  have : p = ⟨init ++ [x]⟩ := Poly.ext hi
  rw [this]
  rw [Poly.degree_of_last init x hx]
  simp

theorem last_of_degree {p : Poly (BitVec K)} (h : p.coeffs.length = p.degree + 1) (h1 : 1 < p.coeffs.length) :
    ∃ x, p.coeffs.getLast? = some x ∧ x ≠ 0 := by
  have hne : p.coeffs ≠ [] := by
    intro h0; rw [h0] at h1; simp at h1
  refine ⟨p.coeffs.getLast hne, List.getLast?_eq_some_getLast hne, ?_⟩
  have hd : p.degree = p.sem.natDegree := Poly.degree_eq p
  have hp0 : p.sem ≠ 0 := by
    intro h0; rw [h0, natDegree_zero] at hd; omega
  have hc := leadingCoeff_ne_zero.2 hp0
  rw [Polynomial.leadingCoeff, ← hd, Poly.sem, semL_coeff, show p.degree = p.coeffs.length - 1 by omega,
    ← List.getLast?_eq_getElem?, List.getLast?_eq_some_getLast hne] at hc
  exact hc

theorem getLast?_zipPad (xs ys : List (BitVec K)) (hx : xs ≠ []) (hy : ys ≠ []) :
    (Poly.zipPad PolyT.add xs ys).getLast? =
      if xs.length < ys.length then ys.getLast?
      else if ys.length < xs.length then xs.getLast?
      else some (xs.getLast hx + ys.getLast hy) := by
  induction ys generalizing xs with
  | nil => exact absurd rfl hy
  | cons y ys ih =>
    cases xs with
    | nil => exact absurd rfl hx
    | cons x xs =>
      simp only [Poly.zipPad]
      cases ys with
      | nil =>
        cases xs with
        | nil => simp [Poly.zipPad]; rfl
        | cons x' xs => simp [Poly.zipPad]
      | cons y' ys =>
        cases xs with
        | nil =>
          have hz : ∀ zs : List (BitVec K), Poly.zipPad PolyT.add [] zs = zs := by
            intro zs
            induction zs with
            | nil => rfl
            | cons z zs ih' =>
              simp only [Poly.zipPad, ih']
              congr 1
              show 0 + z = z
              simp
          rw [hz]
          simp
        | cons x' xs =>
          have := ih (x' :: xs) (by simp) (by simp)
          rw [List.getLast?_cons_of_ne_nil, this]
          · simp only [List.length_cons, Nat.add_lt_add_iff_right, List.getLast?_cons_cons, List.getLast_cons_cons]
          · intro h
            have := congrArg List.length h
            rw [length_zipPad] at this
            simp at this

/-- The last comparison of `combine_verifications`, for reduced values: it succeeds exactly when the leading coefficients
do not cancel. -/
theorem compare_iff {d : Nat} {y p q : Poly (BitVec K)} (hy : RedTo d y) (hp : RedTo d p) (hq : RedTo d q)
    (h : y.sem = p.sem + q.sem) : y ≠ p.add q ↔ LeadCancels p q := by
  have hpl : p.coeffs ≠ [] := by intro h0; have := hp.2; rw [h0] at this; simp at this
  have hql : q.coeffs ≠ [] := by intro h0; have := hq.2; rw [h0] at this; simp at this
  have hs : y.sem = (p.add q).sem := by rw [h, Poly.sem_add]
  have hdeg : y.degree = (p.add q).degree := by
    rw [Poly.degree_eq (R := BitVec K), Poly.degree_eq (R := BitVec K), hs]
  have hlast := getLast?_zipPad p.coeffs q.coeffs hpl hql
  have hlen : (p.add q).coeffs.length = max p.coeffs.length q.coeffs.length := length_zipPad _ _ _
  have key : y = p.add q ↔ (p.add q).coeffs.length = (p.add q).degree + 1 := by
    constructor
    · intro e; rw [← e]; exact hy.2
    · intro e; exact poly_eq_of_sem (by rw [hy.2, e, hdeg]) hs
  rw [ne_eq, key]
  have hp1 : 0 < p.coeffs.length := List.length_pos_iff.2 hpl
  have hq1 : 0 < q.coeffs.length := List.length_pos_iff.2 hql
  by_cases hlt : p.coeffs.length < q.coeffs.length
  · rw [if_pos hlt] at hlast
    obtain ⟨x, hx, hx0⟩ := last_of_degree hq.2 (by omega)
    have hl' : (p.add q).coeffs.getLast? = some x := hlast.trans hx
    refine iff_of_false (not_not.2 (degree_add_one_of_last hl' hx0)) fun hc => ?_
    exact absurd hc.1 (by omega)
  · rw [if_neg hlt] at hlast
    by_cases hgt : q.coeffs.length < p.coeffs.length
    · rw [if_pos hgt] at hlast
      obtain ⟨x, hx, hx0⟩ := last_of_degree hp.2 (by omega)
      have hl' : (p.add q).coeffs.getLast? = some x := hlast.trans hx
      refine iff_of_false (not_not.2 (degree_add_one_of_last hl' hx0)) fun hc => ?_
      exact absurd hc.1 (by omega)
    · rw [if_neg hgt] at hlast
      have hl' : (p.add q).coeffs.getLast? = some (p.coeffs.getLast hpl + q.coeffs.getLast hql) := hlast
      by_cases h1 : p.coeffs.length = 1
      · refine iff_of_false (not_not.2 ?_) fun hc => absurd hc.2.1 (by omega)
        rw [hlen, ← hdeg]
        have : y.degree = 0 := by
          rw [Poly.degree_eq (R := BitVec K), hs]
          have := semL_degree_lt (p.add q).coeffs
          rw [hlen] at this
          have h2 : ((p.add q).sem).degree < (1 : Nat) := by
            refine lt_of_lt_of_le this ?_
            exact_mod_cast (by omega : max p.coeffs.length q.coeffs.length ≤ 1)
          by_cases h0 : (p.add q).sem = 0
          · rw [h0]; rfl
          · rw [degree_eq_natDegree h0] at h2
            have : ((p.add q).sem).natDegree < 1 := by exact_mod_cast h2
            omega
        omega
      · by_cases hz : p.coeffs.getLast hpl + q.coeffs.getLast hql = 0
        · refine iff_of_true ?_ ⟨by omega, by omega, fun a b ha hb => ?_⟩
          · intro hc
            obtain ⟨x, hx, hx0⟩ := last_of_degree hc (by omega)
            rw [hl'] at hx
            exact hx0 ((Option.some.inj hx).symm.trans hz)
          · rw [List.getLast?_eq_some_getLast hpl] at ha
            rw [List.getLast?_eq_some_getLast hql] at hb
            rw [← Option.some.inj ha, ← Option.some.inj hb]; exact hz
        · refine iff_of_false (not_not.2 (degree_add_one_of_last hl' hz)) fun hc => ?_
          exact hz (hc.2.2 _ _ (List.getLast?_eq_some_getLast hpl) (List.getLast?_eq_some_getLast hql))

/-! ## Completeness, generically in the circuit -/

/-- The values of the wires of the gates, as constant polynomials. -/
def liftV {I : Type} (val : I → Nat → BitVec K) (d0 : I) (inputs : List I) (q i : Nat) : Poly (BitVec K) :=
  Poly.lift (val (inputs.getD q d0) i)

theorem lift_gates {G : Prg} {I : Type} (E : ZkEnv G (Poly (BitVec K)) I) (val : I → Nat → BitVec K) (d0 : I)
    (inputs : List I) (h : ∀ x ∈ inputs, ∀ i < E.circ.wires, E.wire x i = .ok (Poly.lift (val x i))) :
    E.Gates inputs.length inputs (liftV val d0 inputs) := by
  refine ⟨rfl, fun q hq => ⟨inputs[q], List.getElem?_eq_getElem hq, fun i hi => ?_⟩⟩
  rw [h _ (List.getElem_mem _) i hi, liftV, List.getD_eq_getElem?_getD, List.getElem?_eq_getElem hq]
  rfl

/-- The constant polynomials in the quotient. -/
noncomputable def constA (m : Poly (BitVec K)) : BitVec K →+* Poly.QR m.sem := (AdjoinRoot.mk m.sem).comp C

theorem sem_liftV {I : Type} (m : Poly (BitVec K)) (val : I → Nat → BitVec K) (d0 : I) (inputs : List I) (q i : Nat) :
    AdjoinRoot.mk m.sem (sem (liftV val d0 inputs q i)) = constA m (val (inputs.getD q d0) i) := by
  show AdjoinRoot.mk m.sem ((Poly.lift _).sem) = _
  rw [Poly.sem_lift]
  rfl

theorem poly_complete {G : Prg} {I : Type} (hK : 0 < K) (h64 : K < 64) (E : ZkEnv G (Poly (BitVec K)) I)
    {md : Poly (BitVec K)} {d : Nat} (hd : d < 64) (hm : Poly.MonicRep d md)
    (hirr : Irreducible (md.sem.map (bvMod2 hK))) (hE : ∀ x, E.red x = x.rem md)
    {cR : (A : Type) → [CommRing A] → List A → A} (hc : E.circ.Lawful cR) (val : I → Nat → BitVec K) (d0 : I)
    (l m : Nat) (hmd : m + 1 ≤ 2 ^ d) (p vp vn : List I) (hp : p.length = l * m) (hvp : vp.length = l * m)
    (hvn : vn.length = l * m)
    (hw : ∀ inputs ∈ [p, vp, vn], ∀ x ∈ inputs, ∀ i < E.circ.wires, E.wire x i = .ok (Poly.lift (val x i)))
    (hsplit : ∀ q < l * m, ∀ i < E.circ.wires, val (p.getD q d0) i = val (vp.getD q d0) i + val (vn.getD q d0) i)
    (hgate : ∀ q < l * m, cR (BitVec K) ((List.range E.circ.wires).map (val (p.getD q d0))) = 0)
    (thetas : List (Poly (BitVec K))) (hth : thetas.length = l) (rng : G.S) :
    ∃ Ls sd pf rng', Poly.lagrangePolys (mulPoints K (m + 1)) md = .ok Ls ∧ Ls.length = m + 1 ∧
      E.prove l m p thetas Ls rng = .ok (sd, pf, rng') ∧
      ∀ betas r, betas.length = m → ∃ v1 v2,
        E.verifyPi l m vp betas r Ls (mulPoints K (m + 1)) pf = .ok v1 ∧
        E.verifyPi l m vn betas r Ls (mulPoints K (m + 1)) (E.fromSeed sd l m) = .ok v2 ∧
        RedTo d v1.pr ∧ RedTo d v2.pr ∧
        (LeadCancels v1.pr v2.pr → E.combine l thetas v1 v2 = .error .dzkpVerify) ∧
        (¬ LeadCancels v1.pr v2.pr → E.combine l thetas v1 v2 = .ok ()) := by
  obtain ⟨Ls, eL, hL, hLag⟩ := Poly.lagrangePolys_spec hK h64 md hd hm hirr _ (Poly.mulPoints_ok hK d (m + 1) hmd)
  have hpl : (mulPoints K (m + 1)).length = m + 1 := by simp [mulPoints]
  rw [hpl] at hL
  have g1 := lift_gates E val d0 p (hw p (by simp))
  have g2 := lift_gates E val d0 vp (hw vp (by simp))
  have g3 := lift_gates E val d0 vn (hw vn (by simp))
  rw [hp] at g1
  rw [hvp] at g2
  rw [hvn] at g3
  obtain ⟨sd, pf, rng', e, hrest⟩ := E.complete (AdjoinRoot.mk md.sem) (mul_redOk hK E hm hE) hc l m p vp vn thetas Ls
    (mulPoints K (m + 1)) rng hth hL hpl hLag _ _ _ g1 g2 g3
    (by
      intro q hq i hi
      rw [sem_liftV, sem_liftV, sem_liftV, hsplit q hq i hi, map_add])
    (by
      intro q hq
      have h1 := hc.map (constA md) ((List.range E.circ.wires).map (val (p.getD q d0))) (by simp)
      rw [hgate q hq, map_zero, List.map_map] at h1
      rw [← h1]
      congr 1
      apply List.map_congr_left
      intro i _
      exact sem_liftV md val d0 p q i)
  refine ⟨Ls, sd, pf, rng', eL, hL, e, fun betas r hb => ?_⟩
  obtain ⟨v1, v2, y, e1, e2, r1, r2, ry, hy, hcomb⟩ := hrest betas r hb
  refine ⟨v1, v2, e1, e2, r1, r2, ?_⟩
  have hsem : y.sem = v1.pr.sem + v2.pr.sem := by
    have h0 : AdjoinRoot.mk md.sem (y.sem - (v1.pr.sem + v2.pr.sem)) = 0 := by
      rw [map_sub, map_add]
      exact sub_eq_zero.2 hy
    have hdeg : (y.sem - (v1.pr.sem + v2.pr.sem)).degree < d :=
      lt_of_le_of_lt (degree_sub_le _ _) (max_lt ry.1 (lt_of_le_of_lt (degree_add_le _ _) (max_lt r1.1 r2.1)))
    exact sub_eq_zero.1 ((mk_eq_zero_of_degree_lt hK hm _ hdeg).1 h0)
  have hiff : y ≠ PolyT.add v1.pr v2.pr ↔ LeadCancels v1.pr v2.pr := compare_iff ry r1 r2 hsem
  refine ⟨fun h => ?_, fun h => ?_⟩
  · rw [hcomb, if_pos (hiff.2 h)]
  · rw [hcomb, if_neg (fun h' => h (hiff.1 h'))]; rfl

/-! ## Multiplications -/

/-- The value of a wire, 0 for the indices that do not exist. -/
def ZInput.val (x : ZInput (BitVec K)) (i : Nat) : BitVec K := match x.get i with
  | .ok b => b
  | .error _ => 0

theorem mul_wire (G : Prg) (md : Poly (BitVec K)) (x : ZInput (BitVec K)) (i : Nat) (h : i < 6) :
    (mulEnv G K md).wire x i = .ok (Poly.lift (x.val i)) := by
  match i, h with
  | 0, _ => rfl
  | 1, _ => rfl
  | 2, _ => rfl
  | 3, _ => rfl
  | 4, _ => rfl
  | 5, _ => rfl

theorem mulModulus_spec (hK : 0 < K) (m : Nat) (hm : m ≤ 2 ^ 22) :
    ∃ md d, mulModulus K m = .ok md ∧ 40 ≤ d ∧ d < 64 ∧ Poly.MonicRep d md ∧ Irreducible (md.sem.map (bvMod2 hK)) ∧
      m + 1 ≤ 2 ^ d ∧ 2 ^ 40 * (2 * m) ≤ 2 ^ d ∧ d = ceilLog2 (2 * m) + 40 := by
  have hle : ceilLog2 (2 * m) ≤ 23 ∧ 2 * m ≤ 2 ^ ceilLog2 (2 * m) := by
    obtain ⟨-, h2, h3⟩ := ceilLog2Loop_spec (2 * m - 1) 0
    rw [Nat.sub_zero] at h2 h3
    change 2 * m - 1 < 2 ^ ceilLog2 (2 * m) at h2
    change 0 < 2 * m - 1 → 2 ^ ceilLog2 (2 * m) ≤ 2 * (2 * m - 1) at h3
    refine ⟨?_, by omega⟩
    by_contra hlt
    have h5 : 2 ^ 24 ≤ 2 ^ ceilLog2 (2 * m) := Nat.pow_le_pow_right (by omega) (by omega)
    by_cases hx : 0 < 2 * m - 1
    · have := h3 hx
      omega
    · have hm0 : m = 0 := by omega
      subst hm0
      have : ceilLog2 (2 * 0) = 0 := by decide +kernel
      omega
  obtain ⟨md, e, h1, h2⟩ := Poly.irreduciblePoly_spec hK (ceilLog2 (2 * m) + 40) (by omega) (by omega)
  refine ⟨md, _, e, by omega, by omega, h1, h2, ?_, ?_, rfl⟩
  · calc m + 1 ≤ 2 ^ 40 := by norm_num; omega
      _ ≤ _ := Nat.pow_le_pow_right (by norm_num) (by omega)
  · rw [Nat.add_comm, pow_add]
    exact Nat.mul_le_mul_left _ hle.2

theorem mul_complete (G : Prg) (hK : 0 < K) (h64 : K < 64) (l m : Nat) (hm : m ≤ 2 ^ 22) (p vp vn : List (ZInput (BitVec K)))
    (h : Gates MulGateOk p vp vn) (hp : p.length = l * m) (thetas : List (Poly (BitVec K))) (hth : thetas.length = l)
    (rng : G.S) :
    ∃ md Ls sd pf rng', mulModulus K m = .ok md ∧ Poly.lagrangePolys (mulPoints K (m + 1)) md = .ok Ls ∧
      (mulEnv G K md).prove l m p thetas Ls rng = .ok (sd, pf, rng') ∧
      ∀ betas r, betas.length = m → ∃ v1 v2,
        (mulEnv G K md).verifyPi l m vp betas r Ls (mulPoints K (m + 1)) pf = .ok v1 ∧
        (mulEnv G K md).verifyPi l m vn betas r Ls (mulPoints K (m + 1)) ((mulEnv G K md).fromSeed sd l m) = .ok v2 ∧
        (LeadCancels v1.pr v2.pr → (mulEnv G K md).combine l thetas v1 v2 = .error .dzkpVerify) ∧
        (¬ LeadCancels v1.pr v2.pr → (mulEnv G K md).combine l thetas v1 v2 = .ok ()) := by
  obtain ⟨md, d, emd, -, hd, hmon, hirr, hpts, -, -⟩ := mulModulus_spec hK m hm
  have hlen := h.length
  obtain ⟨Ls, sd, pf, rng', eL, -, e, hrest⟩ := poly_complete hK h64 (mulEnv G K md) hd hmon hirr (fun _ => rfl)
    mulCirc_lawful ZInput.val ⟨0, 0, 0, 0, 0, 0⟩ l m hpts p vp vn hp (by omega) (by omega)
    (fun _ _ x _ i hi => mul_wire G md x i hi)
    (fun q hq i hi => by
      have hg := (h.get q ⟨0, 0, 0, 0, 0, 0⟩ (by omega)).1
      have hi : i < 6 := hi
      generalize p.getD q ⟨0, 0, 0, 0, 0, 0⟩ = x at hg ⊢
      generalize vp.getD q ⟨0, 0, 0, 0, 0, 0⟩ = y at hg ⊢
      generalize vn.getD q ⟨0, 0, 0, 0, 0, 0⟩ = z at hg ⊢
      subst hg
      match i, hi with
      | 0, _ => rfl
      | 1, _ => rfl
      | 2, _ => rfl
      | 3, _ => rfl
      | 4, _ => rfl
      | 5, _ => rfl)
    (fun q hq => by
      have hg := (h.get q ⟨0, 0, 0, 0, 0, 0⟩ (by omega)).2
      generalize p.getD q ⟨0, 0, 0, 0, 0, 0⟩ = x at hg ⊢
      show x.a0 * x.b0 + x.a0 * x.b1 + x.a1 * x.b0 + x.r - x.s = 0
      rw [hg, sub_self])
    thetas hth rng
  refine ⟨md, Ls, sd, pf, rng', emd, eL, e, fun betas r hb => ?_⟩
  obtain ⟨v1, v2, e1, e2, -, -, h1, h2⟩ := hrest betas r hb
  exact ⟨v1, v2, e1, e2, h1, h2⟩

/-! ## Dot products -/

/-- The value of a wire, 0 for the indices that do not exist. -/
def DInput.val (x : DInput K) (i : Nat) : BitVec K := match x.get i with
  | .ok b => b
  | .error _ => 0

theorem DInput.get_ok {dot : Nat} {x : DInput K} (h : x.Sized dot) (i : Nat) (hi : i < 4 * dot + 2) :
    x.get i = .ok (x.val i) := by
  obtain ⟨h0, h1, h2, h3⟩ := h
  have : ∃ v, x.get i = .ok v := by
    unfold DInput.get
    simp only [h0]
    split
    · exact ⟨_, idx_lt (by omega)⟩
    split
    · exact ⟨_, idx_lt (by omega)⟩
    split
    · exact ⟨_, idx_lt (by omega)⟩
    split
    · exact ⟨_, idx_lt (by omega)⟩
    split
    · exact ⟨_, rfl⟩
    split
    · exact ⟨_, rfl⟩
    · omega
  obtain ⟨v, hv⟩ := this
  unfold DInput.val
  rw [hv]

theorem getD_idx {l : List (BitVec K)} {i : Nat} (h : i < l.length) :
    (match idx l i with | .ok b => b | .error _ => 0) = l.getD i 0 := by
  rw [idx_lt h, List.getD_eq_getElem?_getD, List.getElem?_eq_getElem h]; rfl

theorem DInput.val_eq {dot : Nat} {x : DInput K} (h : x.Sized dot) :
    (∀ i < dot, x.val i = x.a0.getD i 0) ∧ (∀ i < dot, x.val (dot + i) = x.a1.getD i 0) ∧
    (∀ i < dot, x.val (2 * dot + i) = x.b0.getD i 0) ∧ (∀ i < dot, x.val (3 * dot + i) = x.b1.getD i 0) ∧
    x.val (4 * dot) = x.r ∧ x.val (4 * dot + 1) = x.s := by
  obtain ⟨h0, h1, h2, h3⟩ := h
  refine ⟨fun i hi => ?_, fun i hi => ?_, fun i hi => ?_, fun i hi => ?_, ?_, ?_⟩
  all_goals unfold DInput.val DInput.get; simp only [h0]
  · rw [if_pos hi]; exact getD_idx (by omega)
  · rw [if_neg (by omega), if_pos (by omega), show dot + i - dot = i by omega]; exact getD_idx (by omega)
  · rw [if_neg (by omega), if_neg (by omega), if_pos (by omega), show 2 * dot + i - 2 * dot = i by omega]
    exact getD_idx (by omega)
  · rw [if_neg (by omega), if_neg (by omega), if_neg (by omega), if_pos (by omega),
      show 3 * dot + i - 3 * dot = i by omega]
    exact getD_idx (by omega)
  · rw [if_neg (by omega), if_neg (by omega), if_neg (by omega), if_neg (by omega), if_pos trivial]
  · rw [if_neg (by omega), if_neg (by omega), if_neg (by omega), if_neg (by omega), if_neg (by omega), if_pos trivial]

theorem getD_zipWith_add (a b : List (BitVec K)) (h : a.length = b.length) (i : Nat) :
    (List.zipWith (· + ·) a b).getD i 0 = a.getD i 0 + b.getD i 0 := by
  simp only [List.getD_eq_getElem?_getD, List.getElem?_zipWith]
  by_cases hi : i < a.length
  · rw [List.getElem?_eq_getElem hi, List.getElem?_eq_getElem (by omega)]; rfl
  · rw [List.getElem?_eq_none (by omega), List.getElem?_eq_none (by omega)]
    exact (add_zero (0 : BitVec K)).symm

theorem DInput.val_add {dot : Nat} {x y z : DInput K} (hx : x.Sized dot) (hy : y.Sized dot) (hz : z.Sized dot)
    (h : x = ⟨List.zipWith (· + ·) y.a0 z.a0, List.zipWith (· + ·) y.a1 z.a1, List.zipWith (· + ·) y.b0 z.b0,
      List.zipWith (· + ·) y.b1 z.b1, y.r + z.r, y.s + z.s⟩) (i : Nat) (hi : i < 4 * dot + 2) :
    x.val i = y.val i + z.val i := by
  obtain ⟨x0, x1, x2, x3, x4, x5⟩ := DInput.val_eq hx
  obtain ⟨y0, y1, y2, y3, y4, y5⟩ := DInput.val_eq hy
  obtain ⟨z0, z1, z2, z3, z4, z5⟩ := DInput.val_eq hz
  obtain ⟨hy0, hy1, hy2, hy3⟩ := hy
  obtain ⟨hz0, hz1, hz2, hz3⟩ := hz
  rcases Nat.lt_or_ge i dot with c | c
  · rw [x0 i c, y0 i c, z0 i c, h]; exact getD_zipWith_add _ _ (by omega) _
  rcases Nat.lt_or_ge i (2 * dot) with c' | c'
  · obtain ⟨k, rfl⟩ := Nat.exists_eq_add_of_le c
    rw [x1 k (by omega), y1 k (by omega), z1 k (by omega), h]; exact getD_zipWith_add _ _ (by omega) _
  rcases Nat.lt_or_ge i (3 * dot) with c'' | c''
  · obtain ⟨k, rfl⟩ := Nat.exists_eq_add_of_le c'
    rw [x2 k (by omega), y2 k (by omega), z2 k (by omega), h]; exact getD_zipWith_add _ _ (by omega) _
  rcases Nat.lt_or_ge i (4 * dot) with c3 | c3
  · obtain ⟨k, rfl⟩ := Nat.exists_eq_add_of_le c''
    rw [x3 k (by omega), y3 k (by omega), z3 k (by omega), h]; exact getD_zipWith_add _ _ (by omega) _
  rcases (by omega : i = 4 * dot ∨ i = 4 * dot + 1) with rfl | rfl
  · rw [x4, y4, z4, h]
  · rw [x5, y5, z5, h]

theorem sum_zipWith_mul (a b : List (BitVec K)) (n : Nat) (ha : a.length = n) (hb : b.length = n) :
    (List.zipWith (· * ·) a b).sum = ((List.range n).map fun i => a.getD i 0 * b.getD i 0).sum := by
  congr 1
  apply List.ext_getElem
  · simp [ha, hb]
  · intro i h1 h2
    simp only [List.length_zipWith, ha, hb, Nat.min_self] at h1
    simp only [List.getElem_zipWith, List.getElem_map, List.getElem_range, List.getD_eq_getElem?_getD]
    rw [List.getElem?_eq_getElem (by omega), List.getElem?_eq_getElem (by omega)]
    rfl

theorem DInput.dotExpr_eq {dot : Nat} {x : DInput K} (h : x.Sized dot) :
    dotExpr dot (BitVec K) ((List.range (4 * dot + 2)).map x.val) =
      x.r - x.s + ((List.zipWith (· * ·) x.a0 x.b0).sum + (List.zipWith (· * ·) x.a0 x.b1).sum +
        (List.zipWith (· * ·) x.a1 x.b0).sum) := by
  have hg : ∀ i < 4 * dot + 2, ((List.range (4 * dot + 2)).map x.val).getD i 0 = x.val i := by
    intro i hi
    rw [List.getD_eq_getElem?_getD, List.getElem?_map, List.getElem?_range hi]; rfl
  obtain ⟨x0, x1, x2, x3, x4, x5⟩ := DInput.val_eq h
  obtain ⟨h0, h1, h2, h3⟩ := h
  unfold dotExpr
  rw [hg _ (by omega), hg _ (by omega), x4, x5, sum_zipWith_mul _ _ dot h0 h2, sum_zipWith_mul _ _ dot h0 h3,
    sum_zipWith_mul _ _ dot h1 h2, ← List.sum_map_add, ← List.sum_map_add]
  congr 2
  apply List.map_congr_left
  intro i hi
  have hi' := List.mem_range.1 hi
  rw [hg _ (by omega), hg _ (by omega), hg _ (by omega), hg _ (by omega), x0 i hi', x1 i hi', x2 i hi', x3 i hi']

theorem dot_wire (G : Prg) (md : Poly (BitVec K)) (dot : Nat) (x : DInput K) (h : x.Sized dot) (i : Nat)
    (hi : i < 4 * dot + 2) : (dotEnv G K md dot).wire x i = .ok (Poly.lift (x.val i)) := by
  show (do let b ← x.get i; pure (Poly.lift b) : Except Err _) = _
  rw [DInput.get_ok h i hi]; rfl

/-- The gate and its views are consistent and correct, and have the given size. -/
def DotGateOkAt (dot : Nat) (p vp vn : DInput K) : Prop :=
  DotGateOk p vp vn ∧ p.Sized dot ∧ vp.Sized dot ∧ vn.Sized dot

theorem dot_complete (G : Prg) (hK : 0 < K) (h64 : K < 64) (dot l m : Nat) (hm : m ≤ 2 ^ 22) (p vp vn : List (DInput K))
    (h : Gates (DotGateOkAt dot) p vp vn) (hp : p.length = l * m) (thetas : List (Poly (BitVec K)))
    (hth : thetas.length = l) (rng : G.S) :
    ∃ md Ls sd pf rng', mulModulus K m = .ok md ∧ Poly.lagrangePolys (mulPoints K (m + 1)) md = .ok Ls ∧
      (dotEnv G K md dot).prove l m p thetas Ls rng = .ok (sd, pf, rng') ∧
      ∀ betas r, betas.length = m → ∃ v1 v2,
        (dotEnv G K md dot).verifyPi l m vp betas r Ls (mulPoints K (m + 1)) pf = .ok v1 ∧
        (dotEnv G K md dot).verifyPi l m vn betas r Ls (mulPoints K (m + 1)) ((dotEnv G K md dot).fromSeed sd l m) =
          .ok v2 ∧
        (LeadCancels v1.pr v2.pr → (dotEnv G K md dot).combine l thetas v1 v2 = .error .dzkpVerify) ∧
        (¬ LeadCancels v1.pr v2.pr → (dotEnv G K md dot).combine l thetas v1 v2 = .ok ()) := by
  obtain ⟨md, d, emd, -, hd, hmon, hirr, hpts, -, -⟩ := mulModulus_spec hK m hm
  have hlen := h.length
  have hsz : ∀ inputs ∈ [p, vp, vn], ∀ x ∈ inputs, x.Sized dot := by
    obtain ⟨gs, hg, rfl, rfl, rfl⟩ := h
    intro inputs hi x hx
    simp only [List.mem_cons, List.not_mem_nil, or_false] at hi
    rcases hi with rfl | rfl | rfl
    all_goals
      obtain ⟨g, hgm, rfl⟩ := List.mem_map.1 hx
    · exact (hg g hgm).2.1
    · exact (hg g hgm).2.2.1
    · exact (hg g hgm).2.2.2
  obtain ⟨Ls, sd, pf, rng', eL, -, e, hrest⟩ := poly_complete hK h64 (dotEnv G K md dot) hd hmon hirr (fun _ => rfl)
    (dotCirc_lawful dot) DInput.val (DInput.new K dot) l m hpts p vp vn hp (by omega) (by omega)
    (fun inputs hi x hx i hw => dot_wire G md dot x (hsz inputs hi x hx) i hw)
    (fun q hq i hi => by
      have hg := h.get q (DInput.new K dot) (by omega)
      exact DInput.val_add hg.2.1 hg.2.2.1 hg.2.2.2 hg.1.2.1 i hi)
    (fun q hq => by
      have hg := h.get q (DInput.new K dot) (by omega)
      have e1 := DInput.dotExpr_eq hg.2.1
      have e2 := hg.1.2.2
      refine Eq.trans e1 ?_
      linear_combination e2)
    thetas hth rng
  refine ⟨md, Ls, sd, pf, rng', emd, eL, e, fun betas r hb => ?_⟩
  obtain ⟨v1, v2, e1, e2, -, -, h1, h2⟩ := hrest betas r hb
  exact ⟨v1, v2, e1, e2, h1, h2⟩

/-! ## The padding of `set_parameters` -/

theorem sum_zipWith_mul_resize (a b : List (BitVec K)) (n k : Nat) (ha : a.length = n) (hb : b.length = n) (hk : n ≤ k) :
    (List.zipWith (· * ·) (resize a k 0) (resize b k 0)).sum = (List.zipWith (· * ·) a b).sum := by
  rw [resize_of_le _ _ _ (by omega), resize_of_le _ _ _ (by omega), List.zipWith_append (by omega), List.sum_append, ha, hb,
    List.zipWith_replicate]
  simp

theorem zipWith_add_resize (a b : List (BitVec K)) (n k : Nat) (ha : a.length = n) (hb : b.length = n) (hk : n ≤ k) :
    resize (List.zipWith (· + ·) a b) k 0 = List.zipWith (· + ·) (resize a k 0) (resize b k 0) := by
  rw [resize_of_le _ _ _ (by simp; omega), resize_of_le _ _ _ (by omega), resize_of_le _ _ _ (by omega),
    List.zipWith_append (by omega), List.length_zipWith, ha, hb, List.zipWith_replicate]
  simp

theorem DotGateOk.pad {p vp vn : DInput K} (h : DotGateOk p vp vn) {n dot : Nat} (hn : p.Sized n) (hd : n ≤ dot) :
    DotGateOkAt dot (p.pad dot) (vp.pad dot) (vn.pad dot) := by
  obtain ⟨⟨n', hp, hvp, hvn⟩, he, hc⟩ := h
  obtain rfl : n' = n := by rw [← hp.1, hn.1]
  have hsz : ∀ x : DInput K, (x.pad dot).Sized dot := fun x =>
    ⟨Poly.length_resize _ _ _, Poly.length_resize _ _ _, Poly.length_resize _ _ _, Poly.length_resize _ _ _⟩
  refine ⟨⟨⟨dot, hsz _, hsz _, hsz _⟩, ?_, ?_⟩, hsz _, hsz _, hsz _⟩
  · obtain ⟨v0, v1, v2, v3⟩ := hvp
    obtain ⟨w0, w1, w2, w3⟩ := hvn
    rw [he]
    simp only [DInput.pad]
    rw [zipWith_add_resize _ _ _ _ v0 w0 hd, zipWith_add_resize _ _ _ _ v1 w1 hd, zipWith_add_resize _ _ _ _ v2 w2 hd,
      zipWith_add_resize _ _ _ _ v3 w3 hd]
  · obtain ⟨v0, v1, v2, v3⟩ := hp
    simp only [DInput.pad]
    rw [sum_zipWith_mul_resize _ _ _ _ v0 v2 hd, sum_zipWith_mul_resize _ _ _ _ v0 v3 hd,
      sum_zipWith_mul_resize _ _ _ _ v1 v2 hd]
    exact hc

theorem dotGate_new (dot : Nat) : DotGateOkAt dot (DInput.new K dot) (DInput.new K dot) (DInput.new K dot) := by
  have hs : (DInput.new K dot).Sized dot := by simp [DInput.Sized, DInput.new]
  refine ⟨⟨⟨dot, hs, hs, hs⟩, ?_, ?_⟩, hs, hs, hs⟩
  · simp only [DInput.new, List.zipWith_replicate, Nat.min_self]
    simp
  · simp only [DInput.new, List.zipWith_replicate, Nat.min_self]
    simp

theorem padFirst_get (dot n : Nat) (l : List (DInput K)) (k : Nat) :
    (padFirst dot n l)[k]? = if k < n then (l[k]?).map (DInput.pad dot) else l[k]? := by
  unfold padFirst
  by_cases hk : k < n
  · rw [if_pos hk]
    by_cases hl : k < l.length
    · rw [List.getElem?_append_left (by simp; omega), List.getElem?_map, List.getElem?_take_of_lt hk]
    · rw [List.getElem?_eq_none (by simp; omega), List.getElem?_eq_none (by omega)]; rfl
  · rw [if_neg hk]
    by_cases hl : n ≤ l.length
    · rw [List.getElem?_append_right (by simp; omega), List.getElem?_drop]
      congr 1
      simp; omega
    · rw [List.getElem?_eq_none (by simp; omega), List.getElem?_eq_none (by omega)]

theorem gates_of_get {I : Type} {ok : I → I → I → Prop} (p vp vn : List I) (h1 : vp.length = p.length)
    (h2 : vn.length = p.length)
    (h : ∀ (k : Nat) x y z, p[k]? = some x → vp[k]? = some y → vn[k]? = some z → ok x y z) : Gates ok p vp vn := by
  refine ⟨p.zip (vp.zip vn), ?_, ?_, ?_, ?_⟩
  · intro g hg
    obtain ⟨k, hk, rfl⟩ := List.mem_iff_getElem.1 hg
    simp only [List.length_zip, h1, h2, Nat.min_self] at hk
    simp only [List.getElem_zip]
    exact h k _ _ _ (List.getElem?_eq_getElem (by omega)) (List.getElem?_eq_getElem (by omega))
      (List.getElem?_eq_getElem (by omega))
  · rw [show (fun g : I × I × I => g.1) = Prod.fst from rfl, List.map_fst_zip]; simp [h1, h2]
  · rw [show (fun g : I × I × I => g.2.1) = (fun g => g.1) ∘ Prod.snd from rfl, ← List.map_map,
      List.map_snd_zip (by simp [h1, h2])]
    rw [show (fun g : I × I => g.1) = Prod.fst from rfl, List.map_fst_zip]; simp [h1, h2]
  · rw [show (fun g : I × I × I => g.2.2) = (fun g => g.2) ∘ Prod.snd from rfl, ← List.map_map,
      List.map_snd_zip (by simp [h1, h2])]
    rw [show (fun g : I × I => g.2) = Prod.snd from rfl, List.map_snd_zip]; simp [h1, h2]

theorem Gates.get? {I : Type} {ok : I → I → I → Prop} {p vp vn : List I} (h : Gates ok p vp vn) {k : Nat} {x y z : I}
    (hx : p[k]? = some x) (hy : vp[k]? = some y) (hz : vn[k]? = some z) : ok x y z := by
  obtain ⟨gs, hg, rfl, rfl, rfl⟩ := h
  simp only [List.getElem?_map, Option.map_eq_some_iff] at hx hy hz
  obtain ⟨a, ha, rfl⟩ := hx
  obtain ⟨b, hb, rfl⟩ := hy
  obtain ⟨c, hc, rfl⟩ := hz
  rw [ha] at hb hc
  obtain rfl := Option.some.inj hb
  obtain rfl := Option.some.inj hc
  exact hg _ (List.mem_of_getElem? ha)

/-- After the padding all gates have the size of the largest one, and are still consistent and correct. -/
theorem dot_padded (z : DProof K) (vp vn : List (DInput K)) (h : Gates DotGateOk z.proof vp vn) (hs : z.SizesOk) (n : Nat)
    (hn : z.proof.length ≤ n) :
    Gates (DotGateOkAt z.dotSize) (padFirst z.dotSize z.maxDot (resize z.proof n (DInput.new K z.dotSize)))
      (padFirst z.dotSize z.maxDot (resize vp n (DInput.new K z.dotSize)))
      (padFirst z.dotSize z.maxDot (resize vn n (DInput.new K z.dotSize))) := by
  have hlen := h.length
  have hpl : ∀ l : List (DInput K), (padFirst z.dotSize z.maxDot l).length = l.length := by
    intro l; unfold padFirst; simp; omega
  refine gates_of_get _ _ _ (by simp only [hpl, Poly.length_resize]) (by simp only [hpl, Poly.length_resize]) ?_
  intro k x y w hx hy hw
  rw [padFirst_get] at hx hy hw
  rw [resize_of_le _ _ _ hn] at hx
  rw [resize_of_le _ _ _ (by omega)] at hy hw
  by_cases hk : k < z.proof.length
  · rw [List.getElem?_append_left hk] at hx
    rw [List.getElem?_append_left (by omega)] at hy hw
    obtain ⟨m0, hm0, hle, hfull⟩ := hs k z.proof[k] (List.getElem?_eq_getElem hk)
    by_cases hmd : k < z.maxDot
    · rw [if_pos hmd, Option.map_eq_some_iff] at hx hy hw
      obtain ⟨a, ha, rfl⟩ := hx
      obtain ⟨b, hb, rfl⟩ := hy
      obtain ⟨c, hc, rfl⟩ := hw
      obtain rfl : z.proof[k] = a := by rw [List.getElem?_eq_getElem hk] at ha; exact Option.some.inj ha
      exact (h.get? ha hb hc).pad hm0 hle
    · rw [if_neg hmd] at hx hy hw
      obtain rfl : z.proof[k] = x := by rw [List.getElem?_eq_getElem hk] at hx; exact Option.some.inj hx
      have hg := h.get? hx hy hw
      have := hfull (by omega)
      subst this
      obtain ⟨m1, p1, p2, p3⟩ := hg.1
      obtain rfl : m1 = z.dotSize := by rw [← p1.1, hm0.1]
      exact ⟨hg, p1, p2, p3⟩
  · rw [List.getElem?_append_right (by omega)] at hx
    rw [List.getElem?_append_right (by omega)] at hy hw
    have key : ∀ (j c : Nat) (u : DInput K), (if k < z.maxDot then
        ((List.replicate c (DInput.new K z.dotSize))[j]?).map (DInput.pad z.dotSize)
        else (List.replicate c (DInput.new K z.dotSize))[j]?) = some u → u = DInput.new K z.dotSize := by
      intro j c u hu
      have hpad : (DInput.new K z.dotSize).pad z.dotSize = DInput.new K z.dotSize := by
        simp only [DInput.pad, DInput.new]
        congr 1 <;> (rw [resize_of_le _ _ _ (by simp)]; simp)
      split at hu
      · rw [Option.map_eq_some_iff] at hu
        obtain ⟨a, ha, rfl⟩ := hu
        rw [List.eq_of_mem_replicate (List.mem_of_getElem? ha), hpad]
      · exact List.eq_of_mem_replicate (List.mem_of_getElem? hu)
    rw [key _ _ _ hx, key _ _ _ hy, key _ _ _ hw]
    exact dotGate_new _

/-! ## Rings of 64 bits and more -/

theorem modInverseInner_wide (h : 64 ≤ K) (p m : Poly (BitVec K)) (n : Nat) : p.modInverseInner m n = .error .panic := by
  induction n with
  | zero =>
    simp only [Poly.modInverseInner, Poly.toU64, if_neg (show ¬ K < 64 by omega)]
    rfl
  | succ n ih =>
    simp only [Poly.modInverseInner, ih]
    rfl

theorem lagrangePolys_wide (h : 64 ≤ K) (md : Poly (BitVec K)) (m : Nat) (hm : 0 < m) :
    Poly.lagrangePolys (mulPoints K (m + 1)) md = .error .panic := by
  obtain ⟨m, rfl⟩ : ∃ k, m = k + 1 := ⟨m - 1, by omega⟩
  obtain ⟨x, y, rest, hx⟩ : ∃ x y rest, mulPoints K (m + 1 + 1) = x :: y :: rest := by
    unfold mulPoints
    rw [List.range_succ_eq_map, List.range_succ_eq_map]
    simp only [List.map_cons]
    exact ⟨_, _, _, rfl⟩
  rw [hx]
  unfold Poly.lagrangePolys
  rw [List.zipIdx_cons, List.mapM_cons]
  have : Poly.lagrangeLoop md x 0 0 Poly.one (x :: y :: rest) = .error .panic := by
    rw [Poly.lagrangeLoop, if_neg (by simp), Poly.lagrangeLoop, if_pos (by simp)]
    rw [show (x.sub y).modInverse md = .error .panic from modInverseInner_wide h _ _ _]
    rfl
  simp only [this, bind, Except.bind]

theorem setParameters_panics {α : Type} (z : ZProof α) (d : ZInput α) (l m : Nat) (e : Err)
    (h : z.setParameters d l m = .error e) : e = .panic := by
  unfold ZProof.setParameters at h
  split at h
  · cases h
  · cases h; rfl

theorem dsetParameters_panics (z : DProof K) (l m : Nat) (e : Err) (h : z.setParameters l m = .error e) : e = .panic := by
  unfold DProof.setParameters at h
  split at h
  · cases h
  · cases h; rfl

theorem mulModulus_panics (m : Nat) (e : Err) (h : mulModulus K m = .error e) : e = .panic := by
  unfold mulModulus irreduciblePoly irreducibleInner at h
  simp only [bind, Except.bind, pure, Except.pure] at h
  split at h
  · rename_i he
    split at he
    · split at he
      · cases he
      · cases he; cases h; rfl
    · cases he; cases h; rfl
  · cases h

theorem ceilSqrt_spec (n : Nat) : n ≤ ceilSqrt n * ceilSqrt n ∧ ∀ k, n ≤ k * k → ceilSqrt n ≤ k := by
  unfold ceilSqrt
  have h1 := Nat.sqrt_le n
  have h2 := Nat.lt_succ_sqrt n
  split
  · rename_i h
    exact ⟨by omega, fun k hk => by rw [← Nat.sqrt_eq k]; exact Nat.sqrt_le_sqrt hk⟩
  · rename_i h
    refine ⟨Nat.le_of_lt h2, fun k hk => ?_⟩
    by_contra hlt
    have : k ≤ Nat.sqrt n := by omega
    have := Nat.mul_le_mul this this
    omega

theorem ceilDiv_spec (n k : Nat) (hk : 0 < k) : n ≤ k * ceilDiv n k ∧ ∀ c, n ≤ k * c → ceilDiv n k ≤ c := by
  unfold ceilDiv
  constructor
  · have := Nat.div_add_mod (n + k - 1) k
    have := Nat.mod_lt (n + k - 1) hk
    omega
  · intro c hc
    rw [Nat.div_le_iff_le_mul_add_pred hk]
    omega

end Verif
