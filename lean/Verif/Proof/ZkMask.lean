import Verif.Proof.ZkHideInst

/-! # The proof sent to the successor is uniformly distributed -/

namespace Verif

open Polynomial

variable {K : Nat}

theorem groups_add (e n k : Nat) (t : List Bool) : groups K e (n + k) t = groups K e n t ++ groups K e k (t.drop (K * e * n)) := by
  induction n generalizing t with
  | zero => simp [groups]
  | succ n ih =>
    rw [show n + 1 + k = (n + k) + 1 by omega, groups, ih, groups, List.cons_append, List.drop_drop, Nat.mul_succ, Nat.add_comm (K * e * n)]

/-- Exactly one tape masks the given elements to the given result. -/
theorem mask_unique {T : Type} [PolyT T] {X Y : T → Prop} {e : Nat} {mk : List (BitVec K) → T}
    (h : ∀ x, X x → ∀ y, Y y → ∃! ws : List (BitVec K), ws.length = e ∧ PolyT.sub x (mk ws) = y) (N : Nat) (xs ys : List T)
    (hx : xs.length = N) (hy : ys.length = N) (hX : ∀ x ∈ xs, X x) (hY : ∀ y ∈ ys, Y y) :
    ∃! t : List Bool, t.length = K * e * N ∧ List.zipWith PolyT.sub xs ((groups K e N t).map mk) = ys := by
  have key : ∀ k (hk : k < N), ∃! ws : List (BitVec K), ws.length = e ∧ PolyT.sub (xs[k]'(by omega)) (mk ws) = ys[k]'(by omega) :=
    fun k hk => h _ (hX _ (List.getElem_mem _)) _ (hY _ (List.getElem_mem _))
  choose g hg hu using key
  simp only at hg hu
  set gs : List (List (BitVec K)) := List.ofFn fun k : Fin N => g k.1 k.2 with hgs
  have hl : gs.length = N := by simp [hgs]
  have hge : ∀ x ∈ gs, x.length = e := by
    intro x hx
    obtain ⟨k, hk⟩ := List.mem_ofFn.1 hx
    rw [← hk]
    exact (hg k.1 k.2).1
  have hgk : ∀ k (hk : k < N), gs[k]'(by omega) = g k hk := fun k hk => by simp [hgs]
  refine ⟨gtape gs, ⟨by rw [gtape_length hge, hl], ?_⟩, ?_⟩
  · have := groups_gtape hge []
    rw [List.append_nil, hl] at this
    rw [this]
    apply List.ext_getElem
    · simp [hx, hy, hl]
    · intro k h1 h2
      rw [List.getElem_zipWith, List.getElem_map, hgk k (by omega)]
      exact (hg k (by omega)).2
  · rintro t ⟨ht, hz⟩
    have e1 := gtape_groups e N t (by rw [ht])
    rw [List.drop_of_length_le (by rw [ht]), List.append_nil] at e1
    rw [← e1]
    congr 1
    apply List.ext_getElem
    · rw [groups_length, hl]
    · intro k h1 h2
      rw [hgk k (by omega)]
      refine hu k (by omega) _ ⟨groups_mem (List.getElem_mem _), ?_⟩
      have := congrArg (fun l => l[k]?) hz
      simp only [List.getElem?_zipWith, List.getElem?_map] at this
      rw [List.getElem?_eq_getElem (l := xs) (by omega), List.getElem?_eq_getElem h1, List.getElem?_eq_getElem (l := ys) (by omega)] at this
      simpa using this

/-- A proof system over the ideal generator; only the generator depends on the tapes of the seeds. -/
def envOf {T I : Type} (circ : ZkCirc) (wire : I → Nat → Except Err T) (rnd : List Bool → T × List Bool) (red : T → Except Err T)
    (f : Bytes → List Bool) : ZkEnv (idealPrg f) T I := ⟨circ, wire, rnd, red⟩

theorem envOf_wirePolys {T I : Type} [PolyT T] (circ : ZkCirc) (wire : I → Nat → Except Err T) (rnd : List Bool → T × List Bool)
    (red : T → Except Err T) (f f' : Bytes → List Bool) (l m : Nat) (w : List T) (inputs : List I) (Ls : List (Poly T)) :
    (envOf circ wire rnd red f).wirePolys l m w inputs Ls = (envOf circ wire rnd red f').wirePolys l m w inputs Ls := rfl

theorem envOf_randoms {T I : Type} (circ : ZkCirc) (wire : I → Nat → Except Err T) (rnd : List Bool → T × List Bool)
    (red : T → Except Err T) (f f' : Bytes → List Bool) (n : Nat) (t : List Bool) :
    (envOf circ wire rnd red f).randoms n t = (envOf circ wire rnd red f').randoms n t := by
  induction n generalizing t with
  | zero => rfl
  | succ n ih =>
    simp only [ZkEnv.randoms]
    have := ih (rnd t).2
    refine Prod.ext ?_ ?_
    · exact congrArg (fun r : List T × List Bool => (rnd t).1 :: r.1) this
    · have h2 := congrArg (Prod.snd (α := List T) (β := List Bool)) this
      exact h2

theorem mapM_red {T : Type} {red : T → Except Err T} {Red : T → Prop} (hred : ∀ x y, red x = .ok y → Red y) (xs ys : List T)
    (h : xs.mapM red = .ok ys) : ∀ y ∈ ys, Red y := by
  induction xs generalizing ys with
  | nil => cases h; intro y hy; cases hy
  | cons x xs ih =>
    rw [List.mapM_cons] at h
    cases h1 : red x with
    | error e => simp [h1, bind, Except.bind] at h
    | ok z =>
      cases h2 : xs.mapM red with
      | error e => simp [h1, h2, bind, Except.bind] at h
      | ok zs =>
        simp only [h1, h2, bind, Except.bind, pure, Except.pure, Except.ok.injEq] at h
        subst h
        intro y hy
        rcases List.mem_cons.1 hy with rfl | hy
        · exact hred _ _ h1
        · exact ih zs h2 y hy

theorem prove_mask {T I : Type} [PolyT T] (circ : ZkCirc) (wire : I → Nat → Except Err T) (rnd : List Bool → T × List Bool)
    (red : T → Except Err T) {e : Nat} {mk : List (BitVec K) → T} (hd : ∀ f, (envOf circ wire rnd red f).Draws K e mk) (l m : Nat)
    (inputs : List I) (thetas : List T) (Ls : List (Poly T)) (rng : List Bool) (f0 : Bytes → List Bool) (sd : Bytes) (pf0 : ZkPf T)
    (s : List Bool) (h0 : (envOf circ wire rnd red f0).prove l m inputs thetas Ls rng = .ok (sd, pf0, s))
    {X Y : T → Prop} (hX : ∀ ws : List (BitVec K), ws.length = e → X (mk ws)) (hX' : ∀ x y, red x = .ok y → X y) (hXz : X PolyT.zero)
    (hsub : ∀ x, X x → ∀ y, Y y → ∃! ws : List (BitVec K), ws.length = e ∧ PolyT.sub x (mk ws) = y)
    (pf : ZkPf T) (hw : pf.w.length = circ.wires * l) (ha : pf.a.length = 2 * m + 1) (hYw : ∀ y ∈ pf.w, Y y) (hYa : ∀ y ∈ pf.a, Y y) :
    ∃! t : List Bool, t.length = K * e * (circ.wires * l + (2 * m + 1)) ∧
      (envOf circ wire rnd red (fun _ => t)).prove l m inputs thetas Ls rng = .ok (sd, pf, s) := by
  unfold ZkEnv.prove at h0
  split at h0
  case isFalse => cases h0
  rename_i hc
  set E := envOf circ wire rnd red f0 with hE
  cases h1 : E.wirePolys l m (E.randoms (E.circ.wires * l) rng).1 inputs Ls with
  | error e => simp [h1, bind, Except.bind] at h0
  | ok F =>
    cases h2 : zkG E.circ Poly.mulT thetas F with
    | error e => simp [h1, h2, bind, Except.bind] at h0
    | ok g =>
      cases h3 : g.coeffs.mapM E.red with
      | error e => simp [h1, h2, h3, bind, Except.bind] at h0
      | ok gc =>
        simp only [h1, h2, h3, bind, Except.bind, pure, Except.pure, Except.ok.injEq, Prod.mk.injEq] at h0
        have hsd := h0.1
        have hs : ((idealPrg f0).genSeed (E.randoms (E.circ.wires * l) rng).2).2 = s := congrArg (Prod.snd (α := ZkPf T) (β := List Bool)) h0.2
        set w := (E.randoms (E.circ.wires * l) rng).1 with hwd
        set gcr := resize gc (2 * m + 1) PolyT.zero with hgcr
        have hwl : w.length = circ.wires * l := ZkEnv.randoms_length _ _ _
        have hgl : gcr.length = 2 * m + 1 := by rw [hgcr]; unfold resize; simp; omega
        have hrun : ∀ t : List Bool, t.length = K * e * (circ.wires * l + (2 * m + 1)) →
            (envOf circ wire rnd red (fun _ => t)).prove l m inputs thetas Ls rng =
              .ok (sd, ⟨List.zipWith PolyT.sub w ((groups K e (circ.wires * l) t).map mk),
                List.zipWith PolyT.sub gcr ((groups K e (2 * m + 1) (t.drop (K * e * (circ.wires * l)))).map mk)⟩, s) := by
          intro t ht
          unfold ZkEnv.prove
          rw [if_pos hc]
          have r0 := envOf_randoms circ wire rnd red (fun _ => t) f0 (circ.wires * l) rng
          have e1 : (envOf circ wire rnd red (fun _ => t)).wirePolys l m
              ((envOf circ wire rnd red (fun _ => t)).randoms (circ.wires * l) rng).1 inputs Ls = .ok F := by
            rw [envOf_wirePolys circ wire rnd red (fun _ => t) f0]
            refine Eq.trans ?_ h1
            congr 1
            exact congrArg Prod.fst r0
          have e2 : ((idealPrg (fun _ => t)).genSeed ((envOf circ wire rnd red (fun _ => t)).randoms (circ.wires * l) rng).2) = (sd, s) := by
            rw [← hsd, ← hs]
            exact congrArg (fun r : List T × List Bool => (idealPrg f0).genSeed r.2) r0
          have e3 := ZkEnv.randoms_eq (hd fun _ => t) (circ.wires * l) ((idealPrg (fun _ => t)).ofSeed sd)
          have e4 := ZkEnv.randoms_eq (hd fun _ => t) (2 * m + 1) (t.drop (K * e * (circ.wires * l)))
          have e5 : (envOf circ wire rnd red (fun _ => t)).circ = circ := rfl
          have e6 : (envOf circ wire rnd red (fun _ => t)).red = E.red := rfl
          have e7 : ((envOf circ wire rnd red (fun _ => t)).randoms (circ.wires * l) rng).1 = w := congrArg Prod.fst r0
          simp only [e5, e6]
          simp only [bind, Except.bind]
          rw [e1]
          simp only
          have h2' : zkG circ Poly.mulT thetas F = .ok g := h2
          rw [h2']
          simp only
          rw [h3]
          simp only [pure, Except.pure]
          rw [e2, e7]
          simp only
          rw [e3]
          simp only
          congr 2
          refine Prod.ext ?_ rfl
          simp only
          congr 2
          exact congrArg Prod.fst e4
        have hu := mask_unique (K := K) (mk := mk) hsub (circ.wires * l + (2 * m + 1)) (w ++ gcr) (pf.w ++ pf.a)
          (by simp [hwl, hgl]) (by simp [hw, ha])
          (by
            intro x hx
            rcases List.mem_append.1 hx with hx | hx
            · rw [hwd, ZkEnv.randoms_eq (hd f0)] at hx
              obtain ⟨ws, hws, rfl⟩ := List.mem_map.1 hx
              exact hX ws (groups_mem hws)
            · rw [hgcr, resize] at hx
              rcases List.mem_append.1 hx with hx | hx
              · exact mapM_red hX' _ _ h3 _ (List.mem_of_mem_take hx)
              · rw [List.eq_of_mem_replicate hx]; exact hXz)
          (by
            intro y hy
            rcases List.mem_append.1 hy with hy | hy
            · exact hYw y hy
            · exact hYa y hy)
        have hiff : ∀ t : List Bool, t.length = K * e * (circ.wires * l + (2 * m + 1)) →
            ((envOf circ wire rnd red (fun _ => t)).prove l m inputs thetas Ls rng = .ok (sd, pf, s) ↔
              List.zipWith PolyT.sub (w ++ gcr) ((groups K e (circ.wires * l + (2 * m + 1)) t).map mk) = pf.w ++ pf.a) := by
          intro t ht
          rw [hrun t ht, groups_add e (circ.wires * l) (2 * m + 1), List.map_append, List.zipWith_append (by simp [hwl, groups_length])]
          constructor
          · intro h
            have h' := congrArg (fun x : Bytes × ZkPf T × List Bool => x.2.1) (Except.ok.inj h)
            simp only at h'
            rw [← h']
          · intro h
            obtain ⟨ha, hb⟩ := List.append_inj h (by simp [hwl, groups_length, hw])
            rw [ha, hb]
        obtain ⟨t, ⟨t1, t2⟩, hun⟩ := hu
        refine ⟨t, ⟨t1, (hiff t t1).2 t2⟩, ?_⟩
        rintro t' ⟨t1', t2'⟩
        exact hun t' ⟨t1', (hiff t' t1').1 t2'⟩

/-! ## The masks -/

theorem gf_mask (x : GF2p64) (y : GF2p64) : ∃! ws : List (BitVec 64), ws.length = 1 ∧ PolyT.sub x (GF2p64.new (ws.headD 0)) = y := by
  refine ⟨[x.val ^^^ y.val], ⟨rfl, ?_⟩, ?_⟩
  · apply GF2p64.ext
    show x.val ^^^ (x.val ^^^ y.val) = y.val
    rw [← BitVec.xor_assoc, BitVec.xor_self, BitVec.zero_xor]
  · rintro ws ⟨hl, h⟩
    obtain ⟨w, rfl⟩ := List.length_eq_one_iff.1 hl
    have h' : x.val ^^^ w = y.val := congrArg GF2p64.val h
    rw [← h', ← BitVec.xor_assoc, BitVec.xor_self, BitVec.zero_xor]

theorem zipPad_mask (d : Nat) (x y : List (BitVec K)) (hx : x.length ≤ d) (hy : y.length = d) :
    ∃! ws : List (BitVec K), ws.length = d ∧ Poly.zipPad PolyT.sub x ws = y := by
  induction d generalizing x y with
  | zero =>
    have hx : x = [] := List.length_eq_zero_iff.1 (by omega)
    have hy := List.length_eq_zero_iff.1 hy
    subst hx hy
    refine ⟨[], ⟨rfl, rfl⟩, ?_⟩
    rintro ws ⟨h, -⟩
    exact List.length_eq_zero_iff.1 h
  | succ d ih =>
    cases y with
    | nil => simp at hy
    | cons y ys =>
      have hyl : ys.length = d := by simpa using hy
      cases x with
      | nil =>
        obtain ⟨ws, ⟨h1, h2⟩, h3⟩ := ih [] ys (by simp) hyl
        refine ⟨(0 - y) :: ws, ⟨by simp [h1], ?_⟩, ?_⟩
        · simp only [Poly.zipPad, h2]
          congr 1
          show (0 : BitVec K) - (0 - y) = y
          ring
        · rintro (_ | ⟨w, ws'⟩) ⟨a, b⟩
          · simp at a
          · simp only [Poly.zipPad, List.cons.injEq] at b
            have hw : (0 : BitVec K) - w = y := b.1
            rw [h3 ws' ⟨by simpa using a, b.2⟩, ← hw]
            congr 1
            ring
      | cons x xs =>
        obtain ⟨ws, ⟨h1, h2⟩, h3⟩ := ih xs ys (by simpa using hx) hyl
        refine ⟨(x - y) :: ws, ⟨by simp [h1], ?_⟩, ?_⟩
        · simp only [Poly.zipPad, h2]
          congr 1
          show x - (x - y) = y
          ring
        · rintro (_ | ⟨w, ws'⟩) ⟨a, b⟩
          · simp at a
          · simp only [Poly.zipPad, List.cons.injEq] at b
            have hw : x - w = y := b.1
            rw [h3 ws' ⟨by simpa using a, b.2⟩, ← hw]
            congr 1
            ring

theorem poly_sub_mask (d : Nat) (x y : Poly (BitVec K)) (hx : x.coeffs.length ≤ d) (hy : y.coeffs.length = d) :
    ∃! ws : List (BitVec K), ws.length = d ∧ PolyT.sub x ⟨ws⟩ = y := by
  obtain ⟨ws, ⟨h1, h2⟩, h3⟩ := zipPad_mask d x.coeffs y.coeffs hx hy
  refine ⟨ws, ⟨h1, Poly.ext h2⟩, ?_⟩
  rintro ws' ⟨a, b⟩
  exact h3 ws' ⟨a, congrArg Poly.coeffs b⟩

end Verif
