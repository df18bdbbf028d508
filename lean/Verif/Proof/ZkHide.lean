import Verif.Proof.ZkComplete
import Verif.Proof.ZkAnd

/-! # The distributed zero-knowledge proofs hide the gates, generically -/

namespace Verif

open Polynomial

namespace ZkEnv

section

variable {G : Prg} {T I R A : Type} [PolyT T] [CommRing R] [LawfulPolyT T R] [CommRing A]

theorem prove_parts (E : ZkEnv G T I) {l m : Nat} {inputs : List I} {thetas : List T} {Ls : List (Poly T)} {rng rng' : G.S} {sd : Bytes}
    {pf : ZkPf T} (h : E.prove l m inputs thetas Ls rng = .ok (sd, pf, rng')) :
    sd = (G.genSeed (E.randoms (E.circ.wires * l) rng).2).1 ∧ rng' = (G.genSeed (E.randoms (E.circ.wires * l) rng).2).2 ∧
      pf.w = List.zipWith PolyT.sub (E.randoms (E.circ.wires * l) rng).1 (E.fromSeed sd l m).w := by
  unfold prove at h
  split at h
  · cases h1 : E.wirePolys l m (E.randoms (E.circ.wires * l) rng).1 inputs Ls with
    | error e => simp [h1, bind, Except.bind] at h
    | ok F =>
      cases h2 : zkG E.circ Poly.mulT thetas F with
      | error e => simp [h1, h2, bind, Except.bind] at h
      | ok g =>
        cases h3 : g.coeffs.mapM E.red with
        | error e => simp [h1, h2, h3, bind, Except.bind] at h
        | ok gc =>
          simp only [h1, h2, h3, bind, Except.bind, pure, Except.pure, Except.ok.injEq, Prod.mk.injEq] at h
          obtain ⟨rfl, rfl, rfl⟩ := h
          exact ⟨rfl, rfl, rfl⟩
  · cases h

theorem getD_zipWith_sub (ψ : R →+* A) (xs ys : List T) (h : xs.length = ys.length) (q : Nat) :
    ψ (sem ((List.zipWith PolyT.sub xs ys).getD q PolyT.zero)) =
      ψ (sem (xs.getD q PolyT.zero)) - ψ (sem (ys.getD q PolyT.zero)) := by
  by_cases hq : q < xs.length
  · simp only [List.getD_eq_getElem?_getD, List.getElem?_zipWith]
    rw [List.getElem?_eq_getElem hq, List.getElem?_eq_getElem (by omega)]
    simp [sem_sub]
  · simp only [List.getD_eq_getElem?_getD, List.getElem?_zipWith]
    rw [List.getElem?_eq_none (by omega), List.getElem?_eq_none (by omega)]
    simp [sem_zero]

/-- The value of a wire polynomial is that of its mask, scaled, plus what the gates contribute. -/
theorem wireA_mask (ψ : R →+* A) (L0 : Poly T) (Ls : List (Poly T)) (l m : Nat) (w : Nat → A) (V : Nat → Nat → A) (j i : Nat) (x : A) :
    (wireA ψ (L0 :: Ls) l m w V j i).eval x = ((L0.sem : R[X]).map ψ).eval x * w (i * l + j) +
      (wireA ψ (L0 :: Ls) l m (fun _ => 0) V j i).eval x := by
  unfold wireA interp
  simp only [List.map_cons, List.zip_cons_cons, List.sum_cons, eval_add, eval_mul, eval_C, map_zero, mul_zero, zero_add]

theorem wireA_gates (ψ : R →+* A) (Ls : List (Poly T)) (l m : Nat) (V V' : Nat → Nat → A) (j i : Nat) (x : A) :
    (wireA ψ Ls l m (fun _ => 0) V j i).eval x = (wireA ψ Ls l m (fun _ => 0) V' j i).eval x +
      (wireA ψ Ls l m (fun _ => 0) (fun q i => V q i - V' q i) j i).eval x := by
  rw [← eval_add]
  congr 1
  exact (wireA_add ψ Ls l m _ _ _ _ _ _ j i (by simp) fun k _ => by ring).symm

/-- What the two verifiers compute from an honest proof of correct gates. -/
theorem honest (E : ZkEnv G T I) (ψ : R →+* A) {Red : T → Prop} (hr : E.RedOk ψ Red)
    {cR : (A : Type) → [CommRing A] → List A → A} (hc : E.circ.Lawful cR) (l m : Nat)
    (inputs inputsP inputsN : List I) (thetas : List T) (Ls : List (Poly T)) (coords : List T) (rng : G.S)
    (hth : thetas.length = l) (hL : Ls.length = m + 1) (hco : coords.length = m + 1)
    (hLag : ∀ j (hj : j < Ls.length), IsLagrange (coords.map fun x => ψ (sem x)) j ((Ls[j].sem : R[X]).map ψ))
    (V Vp Vn : Nat → Nat → T) (hV : E.Gates (l * m) inputs V) (hVp : E.Gates (l * m) inputsP Vp)
    (hVn : E.Gates (l * m) inputsN Vn)
    (hsplit : ∀ q < l * m, ∀ i < E.circ.wires, ψ (sem (Vp q i)) + ψ (sem (Vn q i)) = ψ (sem (V q i)))
    (hgate : ∀ q < l * m, cR A ((List.range E.circ.wires).map fun i => ψ (sem (V q i))) = 0) :
    ∃ sd pf rng', E.prove l m inputs thetas Ls rng = .ok (sd, pf, rng') ∧
      ∀ betas r, betas.length = m → ∃ vp vn, ∃ F1 F2 : Nat → Nat → T,
        E.verifyPi l m inputsP betas r Ls coords pf = .ok vp ∧
        E.verifyPi l m inputsN betas r Ls coords (E.fromSeed sd l m) = .ok vn ∧
        vp.f = (E.wireIdx l).map (fun ji => F1 ji.1 ji.2) ∧ vn.f = (E.wireIdx l).map (fun ji => F2 ji.1 ji.2) ∧
        (∀ j < l, ∀ i < E.circ.wires, ψ (sem (F1 j i)) =
          (wireA ψ Ls l m (fun q => ψ (sem (pf.w.getD q PolyT.zero))) (fun q i => ψ (sem (Vp q i))) j i).eval (ψ (sem r))) ∧
        (∀ j < l, ∀ i < E.circ.wires, ψ (sem (F2 j i)) =
          (wireA ψ Ls l m (fun q => ψ (sem ((E.fromSeed sd l m).w.getD q PolyT.zero))) (fun q i => ψ (sem (Vn q i))) j i).eval
            (ψ (sem r))) ∧
        ψ (sem vp.b) + ψ (sem vn.b) = 0 ∧
        ψ (sem vp.pr) + ψ (sem vn.pr) = rowSum cR E.circ.wires l (fun j => ψ (sem (thetas.getD j PolyT.zero)))
          (fun j i => ψ (sem (F1 j i)) + ψ (sem (F2 j i))) ∧ Red vp.pr ∧ Red vp.b := by
  have hxs : (coords.map fun x => ψ (sem x)).length = m + 1 := by simp [hco]
  obtain ⟨sd, pf, rng', w, e, l1, l2, l3, l4, hw, ha⟩ := E.prove_sem ψ hr hc l m inputs thetas Ls rng hth hL
    (fun L hm => by
      obtain ⟨j, hj, rfl⟩ := List.mem_iff_getElem.1 hm
      have := (hLag j hj).1
      omega) V hV
  refine ⟨sd, pf, rng', e, fun betas r hb => ?_⟩
  obtain ⟨vp, F1, e1, f1, hF1, hpr1, hb1, r1, s1⟩ := E.verifyPi_sem ψ hr l m inputsP betas r Ls coords pf hb hL hco l1 l2
    Vp hVp
  obtain ⟨vn, F2, e2, f2, hF2, hpr2, hb2, r2, s2⟩ := E.verifyPi_sem ψ hr l m inputsN betas r Ls coords
    (E.fromSeed sd l m) hb hL hco l3 l4 Vn hVn
  have hwire : ∀ j < l, ∀ i < E.circ.wires, ψ (sem (F1 j i)) + ψ (sem (F2 j i)) =
      (wireA ψ Ls l m w (fun q i => ψ (sem (V q i))) j i).eval (ψ (sem r)) := by
    intro j hj i hi
    rw [hF1 j hj i hi, hF2 j hj i hi, ← eval_add]
    rw [wireA_add ψ Ls l m _ _ w _ _ (fun q i => ψ (sem (V q i))) j i (hw _)
      (fun k hk => hsplit _ (flat_lt' hj hk) i hi)]
  refine ⟨vp, vn, F1, F2, e1, e2, f1, f2, hF1, hF2, ?_, ?_, r1, s1⟩
  · have hzero : ∀ k (hk : k < m), (polyA ψ pf.a + polyA ψ (E.fromSeed sd l m).a).eval (ψ (sem (coords[k + 1]'(by omega)))) = 0 := by
      intro k hk
      rw [ha, rowSum_eval hc]
      apply List.sum_eq_zero
      intro x hx
      obtain ⟨j, hj, rfl⟩ := List.mem_map.1 hx
      have hz := hgate _ (flat_lt' (List.mem_range.1 hj) hk)
      have : (List.range E.circ.wires).map (fun i => (wireA ψ Ls l m w (fun q i => ψ (sem (V q i))) j i).eval (ψ (sem (coords[k + 1]'(by omega))))) =
          (List.range E.circ.wires).map fun i => ψ (sem (V (j * m + k) i)) := by
        apply List.map_congr_left
        intro i _
        have := wireA_eval ψ Ls l m _ hxs hL hLag w (fun q i => ψ (sem (V q i))) j i k hk
        rw [List.getElem_map] at this
        exact this
      rw [this, hz, mul_zero]
    rw [hb1, hb2, zip_drop_sum betas coords m hb hco, zip_drop_sum betas coords m hb hco, ← Finset.sum_add_distrib]
    apply Finset.sum_eq_zero
    intro k _
    have := hzero k.1 k.2
    rw [eval_add] at this
    linear_combination ψ (sem (betas[k.1]'(by omega))) * this
  · rw [hpr1, hpr2, ← eval_add, ha, rowSum_eval hc]
    exact (rowSum_congr hwire).symm

theorem verifyPi_red (E : ZkEnv G T I) {Red : T → Prop} (hred : ∀ x y, E.red x = .ok y → Red y) {l m : Nat} {inputs : List I}
    {betas : List T} {r : T} {Ls : List (Poly T)} {coords : List T} {pf : ZkPf T} {v : ZkShared T}
    (h : E.verifyPi l m inputs betas r Ls coords pf = .ok v) : ∀ x ∈ v.f, Red x := by
  have key : ∀ (ps : List (Poly T)) (ys : List T), ps.mapM (fun p => E.red (p.evaluate r)) = .ok ys → ∀ y ∈ ys, Red y := by
    intro ps
    induction ps with
    | nil => intro ys h y hy; cases h; cases hy
    | cons p ps ih =>
      intro ys h y hy
      rw [List.mapM_cons] at h
      cases h1 : E.red (p.evaluate r) with
      | error e => simp [h1, bind, Except.bind] at h
      | ok z =>
        cases h2 : ps.mapM (fun p => E.red (p.evaluate r)) with
        | error e => simp [h1, h2, bind, Except.bind] at h
        | ok zs =>
          simp only [h1, h2, bind, Except.bind, pure, Except.pure, Except.ok.injEq] at h
          subst h
          rcases List.mem_cons.1 hy with rfl | hy
          · exact hred _ _ h1
          · exact ih zs h2 y hy
  unfold verifyPi at h
  split at h
  · split at h
    · cases h
    · cases h1 : E.wirePolys l m pf.w inputs Ls with
      | error e => simp [h1, bind, Except.bind] at h
      | ok fp =>
        cases h2 : fp.mapM (fun p => E.red (p.evaluate r)) with
        | error e => simp [h1, h2, bind, Except.bind] at h
        | ok f =>
          cases h3 : E.red (horner r PolyT.zero PolyT.one pf.a) with
          | error e => simp [h1, h2, h3, bind, Except.bind] at h
          | ok pr =>
            cases h4 : E.red (betaSum pf.a PolyT.zero (betas.zip (coords.drop 1))) with
            | error e => simp only [h1, h2, h3, h4, bind, Except.bind] at h; cases h
            | ok b =>
              simp only [h1, h2, h3, h4, bind, Except.bind, pure, Except.pure, Except.ok.injEq] at h
              subst h
              exact key _ _ h2
  · cases h

/-- By how much the random value of wire `i` of row `j` has to change, so that the wire polynomial keeps its value at `x`
when the gates change from `V` to `V'`; `u` is the inverse of the value of the first Lagrange polynomial. -/
noncomputable def maskShift (ψ : R →+* A) (Ls : List (Poly T)) (l m : Nat) (V V' : Nat → Nat → A) (x u : A) (j i : Nat) : A :=
  u * (wireA ψ Ls l m (fun _ => 0) (fun q i => V q i - V' q i) j i).eval x

/-- Two provers with different gates, the same in the view of their predecessor, and random values that differ by the
right amounts, send the predecessor the same seed and make the successor compute the same. -/
theorem hide (E : ZkEnv G T I) (ψ : R →+* A) {Red : T → Prop} (hr : E.RedOk ψ Red)
    (hred : ∀ x y, E.red x = .ok y → Red y) (hinj : ∀ x y, Red x → Red y → ψ (sem x) = ψ (sem y) → x = y)
    {cR : (A : Type) → [CommRing A] → List A → A} (hc : E.circ.Lawful cR) (l m : Nat)
    (p p' vp vp' vn : List I) (thetas : List T) (L0 : Poly T) (Ls : List (Poly T)) (coords : List T) (rng rng' : G.S)
    (hth : thetas.length = l) (hL : Ls.length = m) (hco : coords.length = m + 1)
    (hLag : ∀ j (hj : j < (L0 :: Ls).length), IsLagrange (coords.map fun x => ψ (sem x)) j (((L0 :: Ls)[j].sem : R[X]).map ψ))
    (V V' Vp Vp' Vn : Nat → Nat → T) (hV : E.Gates (l * m) p V) (hV' : E.Gates (l * m) p' V')
    (hVp : E.Gates (l * m) vp Vp) (hVp' : E.Gates (l * m) vp' Vp') (hVn : E.Gates (l * m) vn Vn)
    (hsplit : ∀ q < l * m, ∀ i < E.circ.wires, ψ (sem (Vp q i)) + ψ (sem (Vn q i)) = ψ (sem (V q i)))
    (hsplit' : ∀ q < l * m, ∀ i < E.circ.wires, ψ (sem (Vp' q i)) + ψ (sem (Vn q i)) = ψ (sem (V' q i)))
    (hgate : ∀ q < l * m, cR A ((List.range E.circ.wires).map fun i => ψ (sem (V q i))) = 0)
    (hgate' : ∀ q < l * m, cR A ((List.range E.circ.wires).map fun i => ψ (sem (V' q i))) = 0)
    (betas : List T) (r : T) (hb : betas.length = m) (u : A) (hu : ((L0.sem : R[X]).map ψ).eval (ψ (sem r)) * u = 1)
    (hst : (E.randoms (E.circ.wires * l) rng').2 = (E.randoms (E.circ.wires * l) rng).2)
    (hsh : ∀ j < l, ∀ i < E.circ.wires, ψ (sem ((E.randoms (E.circ.wires * l) rng').1.getD (i * l + j) PolyT.zero)) =
      ψ (sem ((E.randoms (E.circ.wires * l) rng).1.getD (i * l + j) PolyT.zero)) +
        maskShift ψ (L0 :: Ls) l m (fun q i => ψ (sem (Vp q i))) (fun q i => ψ (sem (Vp' q i))) (ψ (sem r)) u j i) :
    ∃ sd pf pf' s v, E.prove l m p thetas (L0 :: Ls) rng = .ok (sd, pf, s) ∧
      E.prove l m p' thetas (L0 :: Ls) rng' = .ok (sd, pf', s) ∧
      E.verifyPi l m vp betas r (L0 :: Ls) coords pf = .ok v ∧ E.verifyPi l m vp' betas r (L0 :: Ls) coords pf' = .ok v := by
  obtain ⟨sd, pf, s, e, h⟩ := E.honest ψ hr hc l m p vp vn thetas (L0 :: Ls) coords rng hth (by simp [hL]) hco hLag V Vp Vn hV hVp hVn
    hsplit hgate
  obtain ⟨sd', pf', s', e', h'⟩ := E.honest ψ hr hc l m p' vp' vn thetas (L0 :: Ls) coords rng' hth (by simp [hL]) hco hLag V' Vp' Vn hV' hVp'
    hVn hsplit' hgate'
  obtain ⟨hs1, hs2, hs3⟩ := E.prove_parts e
  obtain ⟨hs1', hs2', hs3'⟩ := E.prove_parts e'
  have hsd : sd' = sd := by rw [hs1, hs1', hst]
  have hss : s' = s := by rw [hs2, hs2', hst]
  subst hsd hss
  obtain ⟨v, vN, F1, F2, a1, a2, a3, a4, a5, a6, a7, a8, a9, a10⟩ := h betas r hb
  obtain ⟨v', vN', F1', F2', b1, b2, b3, b4, b5, b6, b7, b8, b9, b10⟩ := h' betas r hb
  obtain rfl : vN' = vN := Except.ok.inj (b2.symm.trans a2)
  have hF : ∀ j < l, ∀ i < E.circ.wires, ψ (sem (F1' j i)) = ψ (sem (F1 j i)) := by
    intro j hj i hi
    rw [a5 j hj i hi, b5 j hj i hi, wireA_mask, wireA_mask (w := fun q => ψ (sem (pf.w.getD q PolyT.zero)))]
    rw [hs3, hs3', getD_zipWith_sub ψ _ _ (by simp [fromSeed, randoms_length]), getD_zipWith_sub ψ _ _ (by simp [fromSeed, randoms_length]),
      hsh j hj i hi, maskShift, wireA_gates ψ (L0 :: Ls) l m (fun q i => ψ (sem (Vp q i))) (fun q i => ψ (sem (Vp' q i)))]
    linear_combination ((wireA ψ (L0 :: Ls) l m (fun _ => 0) (fun q i => ψ (sem (Vp q i)) - ψ (sem (Vp' q i))) j i).eval (ψ (sem r))) * hu
  have hF2 : ∀ j < l, ∀ i < E.circ.wires, ψ (sem (F2' j i)) = ψ (sem (F2 j i)) := fun j hj i hi => by
    rw [a6 j hj i hi, b6 j hj i hi]
  have r1 := E.verifyPi_red hred a1
  have r2 := E.verifyPi_red hred b1
  refine ⟨sd', pf, pf', s', v, e, e', a1, ?_⟩
  rw [b1]
  congr 1
  apply ZkShared.ext
  · rw [a3, b3]
    apply List.map_congr_left
    intro ji hji
    obtain ⟨hj, hi⟩ := E.mem_wireIdx hji
    refine hinj _ _ (r2 _ ?_) (r1 _ ?_) (hF _ hj _ hi)
    · rw [b3]; exact List.mem_map.2 ⟨ji, hji, rfl⟩
    · rw [a3]; exact List.mem_map.2 ⟨ji, hji, rfl⟩
  · refine hinj _ _ b9 a9 ?_
    have : rowSum cR E.circ.wires l (fun j => ψ (sem (thetas.getD j PolyT.zero))) (fun j i => ψ (sem (F1' j i)) + ψ (sem (F2' j i))) =
        rowSum cR E.circ.wires l (fun j => ψ (sem (thetas.getD j PolyT.zero))) (fun j i => ψ (sem (F1 j i)) + ψ (sem (F2 j i))) :=
      rowSum_congr fun j hj i hi => by rw [hF j hj i hi, hF2 j hj i hi]
    rw [this, ← a8] at b8
    exact add_right_cancel b8
  · refine hinj _ _ b10 a10 ?_
    rw [← b7] at a7
    exact (add_right_cancel a7).symm

end

end ZkEnv

/-- The first Lagrange polynomial is a unit at every point that is, modulo the kernel of `π`, none of the other points. -/
theorem lagrange_unit {A F : Type} [CommRing A] [Field F] (π : A →+* F) (hπ : ∀ x, π x ≠ 0 → IsUnit x) (xs : List A) (L : A[X])
    (hL : IsLagrange xs 0 L) (hnd : (xs.map π).Nodup) (hne : xs ≠ []) (r : A)
    (hr : ∀ k (hk : k + 1 < xs.length), π r ≠ π xs[k + 1]) : ∃ u, L.eval r * u = 1 := by
  classical
  have hlen : 0 < xs.length := List.length_pos_iff.2 hne
  have hunit : IsUnit (L.eval r) := by
    apply hπ
    intro h0
    have hq : ∀ x, (L.map π).eval (π x) = π (L.eval x) := fun x => by rw [eval_map, eval₂_hom]
    have hne0 : L.map π ≠ 0 := by
      intro hz
      have := hq xs[0]
      rw [hz, eval_zero, hL.2 0 hlen, if_pos rfl, map_one] at this
      exact zero_ne_one this
    have hroots : ((π r) :: (xs.drop 1).map π).toFinset.val ≤ (L.map π).roots := by
      rw [Multiset.le_iff_subset (Finset.nodup _)]
      intro y hy
      rw [Finset.mem_val, List.mem_toFinset, List.mem_cons] at hy
      rw [mem_roots hne0, IsRoot]
      rcases hy with rfl | hy
      · rw [hq, h0]
      · obtain ⟨x, hx, rfl⟩ := List.mem_map.1 hy
        obtain ⟨k, hk, rfl⟩ := List.mem_iff_getElem.1 hx
        rw [hq, List.getElem_drop, hL.2 (1 + k) (by simp at hk; omega), if_neg (by omega), map_zero]
    have hnd' : ((π r) :: (xs.drop 1).map π).Nodup := by
      rw [List.nodup_cons]
      refine ⟨fun hm => ?_, ?_⟩
      · obtain ⟨x, hx, he⟩ := List.mem_map.1 hm
        obtain ⟨k, hk, rfl⟩ := List.mem_iff_getElem.1 hx
        rw [List.getElem_drop] at he
        have := hr k (by simp at hk; omega)
        apply this
        rw [← he]
        congr 2
        omega
      · rw [List.map_drop]
        exact hnd.sublist (List.drop_sublist _ _)
    have hcard := Multiset.card_le_card hroots
    rw [Finset.card_val, List.toFinset_card_of_nodup hnd', List.length_cons, List.length_map, List.length_drop] at hcard
    have h1 := card_roots' (L.map π)
    have h2 : (L.map π).natDegree ≤ L.natDegree := natDegree_map_le
    have h3 := hL.1
    omega
  obtain ⟨u, hu⟩ := hunit
  exact ⟨↑u⁻¹, by rw [← hu]; exact u.mul_inv⟩

end Verif
