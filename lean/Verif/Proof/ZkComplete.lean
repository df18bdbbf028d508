import Verif.Proof.ZkProof

/-! # Completeness and soundness of the distributed zero-knowledge proofs, generically -/

namespace Verif

open Polynomial

namespace ZkEnv

section

variable {G : Prg} {T I R A : Type} [PolyT T] [CommRing R] [LawfulPolyT T R] [CommRing A]

theorem wireA_add (ψ : R →+* A) (Ls : List (Poly T)) (l m : Nat) (w1 w2 w : Nat → A) (V1 V2 V : Nat → Nat → A) (j i : Nat)
    (hw : w1 (i * l + j) + w2 (i * l + j) = w (i * l + j))
    (hV : ∀ k < m, V1 (j * m + k) i + V2 (j * m + k) i = V (j * m + k) i) :
    wireA ψ Ls l m w1 V1 j i + wireA ψ Ls l m w2 V2 j i = wireA ψ Ls l m w V j i := by
  unfold wireA
  rw [← interp_add _ _ _ (by simp)]
  congr 1
  rw [List.zipWith_cons_cons, List.zipWith_map, List.zipWith_self, hw]
  congr 1
  apply List.map_congr_left
  intro k hk
  exact hV k (List.mem_range.1 hk)

theorem wireA_eval (ψ : R →+* A) (Ls : List (Poly T)) (l m : Nat) (xs : List A) (hx : xs.length = m + 1)
    (hL : Ls.length = m + 1) (hLag : ∀ j (hj : j < Ls.length), IsLagrange xs j ((Ls[j].sem : R[X]).map ψ))
    (w : Nat → A) (V : Nat → Nat → A) (j i k : Nat) (hk : k < m) :
    (wireA ψ Ls l m w V j i).eval (xs[k + 1]'(by omega)) = V (j * m + k) i := by
  unfold wireA
  rw [interp_eval xs _ _ (by simp [hL, hx]) (by simp [hx]) (fun j hj => by
    rw [List.getElem_map]; exact hLag j (by simpa using hj)) (k + 1) (by omega)]
  simp

theorem wireA_natDegree (ψ : R →+* A) (Ls : List (Poly T)) (l m : Nat) (xs : List A) (hx : xs.length = m + 1)
    (hLag : ∀ j (hj : j < Ls.length), IsLagrange xs j ((Ls[j].sem : R[X]).map ψ))
    (w : Nat → A) (V : Nat → Nat → A) (j i : Nat) : (wireA ψ Ls l m w V j i).natDegree ≤ m := by
  refine interp_natDegree _ _ _ fun L hL => ?_
  obtain ⟨L, hm, rfl⟩ := List.mem_map.1 hL
  obtain ⟨j, hj, rfl⟩ := List.mem_iff_getElem.1 hm
  have := (hLag j hj).1
  omega

theorem rowSum_eval {circ : ZkCirc} {cR : (A : Type) → [CommRing A] → List A → A} (hc : circ.Lawful cR) (l : Nat)
    (th : Nat → A) (W : Nat → Nat → A[X]) (x : A) :
    (rowSum cR circ.wires l (fun j => C (th j)) W).eval x =
      rowSum cR circ.wires l th (fun j i => (W j i).eval x) := by
  unfold rowSum
  rw [← Polynomial.coe_evalRingHom, map_list_sum, List.map_map]
  congr 1
  apply List.map_congr_left
  intro j _
  simp only [Function.comp_def, map_mul]
  rw [← hc.map (evalRingHom x) _ (by simp), List.map_map]
  simp [Function.comp_def]

theorem rowSum_natDegree {circ : ZkCirc} {cR : (A : Type) → [CommRing A] → List A → A} (hc : circ.Lawful cR) (l m : Nat)
    (th : Nat → A) (W : Nat → Nat → A[X]) (hW : ∀ j i, (W j i).natDegree ≤ m) :
    (rowSum cR circ.wires l (fun j => C (th j)) W).natDegree ≤ 2 * m := by
  refine natDegree_list_sum_le' _ _ fun p hp => ?_
  obtain ⟨j, _, rfl⟩ := List.mem_map.1 hp
  refine natDegree_mul_le.trans ?_
  rw [natDegree_C, zero_add]
  refine hc.deg _ m (by simp) fun p hp => ?_
  obtain ⟨i, _, rfl⟩ := List.mem_map.1 hp
  exact hW j i

theorem rowSum_congr {B : Type} [CommRing B] {cR : (A : Type) → [CommRing A] → List A → A} {wires l : Nat}
    {th : Nat → B} {F F' : Nat → Nat → B} (h : ∀ j < l, ∀ i < wires, F j i = F' j i) :
    rowSum cR wires l th F = rowSum cR wires l th F' := by
  unfold rowSum
  congr 1
  apply List.map_congr_left
  intro j hj
  have : (List.range wires).map (F j) = (List.range wires).map (F' j) := by
    apply List.map_congr_left
    intro i hi
    exact h j (List.mem_range.1 hj) i (List.mem_range.1 hi)
  rw [this]

theorem zip_drop_sum {X : Type} (betas coords : List X) (m : Nat) (hb : betas.length = m) (hco : coords.length = m + 1)
    (f : X × X → A) :
    ((betas.zip (coords.drop 1)).map f).sum =
      ∑ k : Fin m, f (betas[k.1]'(by omega), coords[k.1 + 1]'(by omega)) := by
  rw [← List.sum_ofFn]
  congr 1
  apply List.ext_getElem
  · simp [hb, hco]
  · intro k h1 h2
    simp [Nat.add_comm]

/-- An honestly computed proof makes both verifiers succeed, and the last check compares two representations of the same
element, as soon as in every column the errors of the gates, weighted with the thetas, add up to zero. -/
theorem complete_cols [DecidableEq T] (E : ZkEnv G T I) (ψ : R →+* A) {Red : T → Prop} (hr : E.RedOk ψ Red)
    {cR : (A : Type) → [CommRing A] → List A → A} (hc : E.circ.Lawful cR) (l m : Nat)
    (inputs inputsP inputsN : List I) (thetas : List T) (Ls : List (Poly T)) (coords : List T) (rng : G.S)
    (hth : thetas.length = l) (hL : Ls.length = m + 1) (hco : coords.length = m + 1)
    (hLag : ∀ j (hj : j < Ls.length), IsLagrange (coords.map fun x => ψ (sem x)) j ((Ls[j].sem : R[X]).map ψ))
    (V Vp Vn : Nat → Nat → T) (hV : E.Gates (l * m) inputs V) (hVp : E.Gates (l * m) inputsP Vp)
    (hVn : E.Gates (l * m) inputsN Vn)
    (hsplit : ∀ q < l * m, ∀ i < E.circ.wires, ψ (sem (Vp q i)) + ψ (sem (Vn q i)) = ψ (sem (V q i)))
    (hcol : ∀ k < m, rowSum cR E.circ.wires l (fun j => ψ (sem (thetas.getD j PolyT.zero)))
      (fun j i => ψ (sem (V (j * m + k) i))) = 0) :
    ∃ sd pf rng', E.prove l m inputs thetas Ls rng = .ok (sd, pf, rng') ∧
      ∀ betas r, betas.length = m → ∃ vp vn y,
        E.verifyPi l m inputsP betas r Ls coords pf = .ok vp ∧
        E.verifyPi l m inputsN betas r Ls coords (E.fromSeed sd l m) = .ok vn ∧
        Red vp.pr ∧ Red vn.pr ∧ Red y ∧ ψ (sem y) = ψ (sem vp.pr) + ψ (sem vn.pr) ∧
        E.combine l thetas vp vn = if y ≠ PolyT.add vp.pr vn.pr then .error .dzkpVerify else pure () := by
  have hxs : (coords.map fun x => ψ (sem x)).length = m + 1 := by simp [hco]
  obtain ⟨sd, pf, rng', w, e, l1, l2, l3, l4, hw, ha⟩ := E.prove_sem ψ hr hc l m inputs thetas Ls rng hth hL
    (fun L hm => by
      obtain ⟨j, hj, rfl⟩ := List.mem_iff_getElem.1 hm
      have := (hLag j hj).1
      omega) V hV
  refine ⟨sd, pf, rng', e, fun betas r hb => ?_⟩
  obtain ⟨vp, F1, e1, f1, hF1, hpr1, hb1, r1, s1⟩ := E.verifyPi_sem ψ hr l m inputsP betas r Ls coords pf hb hL hco l1 l2
    Vp hVp
  obtain ⟨vn, F2, e2, f2, hF2, hpr2, hb2, r2, s2⟩ := E.verifyPi_sem ψ hr l m inputsN betas r Ls coords
    (E.fromSeed sd l m) hb hL hco l3 l4 Vn hVn
  obtain ⟨g, hg, ec⟩ := E.combine_sem ψ hc l thetas hth vp vn F1 F2 f1 f2
  obtain ⟨y, ey, hy, ry⟩ := hr.red g
  -- the wire polynomials add up
  have hwire : ∀ j < l, ∀ i < E.circ.wires, ψ (sem (F1 j i)) + ψ (sem (F2 j i)) =
      (wireA ψ Ls l m w (fun q i => ψ (sem (V q i))) j i).eval (ψ (sem r)) := by
    intro j hj i hi
    rw [hF1 j hj i hi, hF2 j hj i hi, ← eval_add]
    rw [wireA_add ψ Ls l m _ _ w _ _ (fun q i => ψ (sem (V q i))) j i (hw _)
      (fun k hk => hsplit _ (flat_lt' hj hk) i hi)]
  have hgpr : ψ (sem g) = ψ (sem vp.pr) + ψ (sem vn.pr) := by
    rw [hpr1, hpr2, ← eval_add, ha, rowSum_eval hc, hg]
    exact rowSum_congr hwire
  have hzero : ∀ k (hk : k < m), (polyA ψ pf.a + polyA ψ (E.fromSeed sd l m).a).eval (ψ (sem (coords[k + 1]'(by omega)))) = 0 := by
    intro k hk
    rw [ha, rowSum_eval hc, ← hcol k hk]
    apply rowSum_congr
    intro j _ i _
    have := wireA_eval ψ Ls l m _ hxs hL hLag w (fun q i => ψ (sem (V q i))) j i k hk
    rw [List.getElem_map] at this
    exact this
  have hbz : PolyT.isZero (PolyT.add vp.b vn.b) = true := by
    rw [hr.zero _ _ s1 s2, hb1, hb2, zip_drop_sum betas coords m hb hco, zip_drop_sum betas coords m hb hco,
      ← Finset.sum_add_distrib]
    apply Finset.sum_eq_zero
    intro k _
    have := hzero k.1 k.2
    rw [eval_add] at this
    linear_combination ψ (sem (betas[k.1]'(by omega))) * this
  refine ⟨vp, vn, y, e1, e2, r1, r2, ry, by rw [hy, hgpr], ?_⟩
  rw [ec, if_neg (by simp [hbz]), ey]
  rfl

/-- Completeness: an honest proof of satisfied gates makes both verifiers succeed, and the last check compares two
representations of the same element. -/
theorem complete [DecidableEq T] (E : ZkEnv G T I) (ψ : R →+* A) {Red : T → Prop} (hr : E.RedOk ψ Red)
    {cR : (A : Type) → [CommRing A] → List A → A} (hc : E.circ.Lawful cR) (l m : Nat)
    (inputs inputsP inputsN : List I) (thetas : List T) (Ls : List (Poly T)) (coords : List T) (rng : G.S)
    (hth : thetas.length = l) (hL : Ls.length = m + 1) (hco : coords.length = m + 1)
    (hLag : ∀ j (hj : j < Ls.length), IsLagrange (coords.map fun x => ψ (sem x)) j ((Ls[j].sem : R[X]).map ψ))
    (V Vp Vn : Nat → Nat → T) (hV : E.Gates (l * m) inputs V) (hVp : E.Gates (l * m) inputsP Vp)
    (hVn : E.Gates (l * m) inputsN Vn)
    (hsplit : ∀ q < l * m, ∀ i < E.circ.wires, ψ (sem (Vp q i)) + ψ (sem (Vn q i)) = ψ (sem (V q i)))
    (hgate : ∀ q < l * m, cR A ((List.range E.circ.wires).map fun i => ψ (sem (V q i))) = 0) :
    ∃ sd pf rng', E.prove l m inputs thetas Ls rng = .ok (sd, pf, rng') ∧
      ∀ betas r, betas.length = m → ∃ vp vn y,
        E.verifyPi l m inputsP betas r Ls coords pf = .ok vp ∧
        E.verifyPi l m inputsN betas r Ls coords (E.fromSeed sd l m) = .ok vn ∧
        Red vp.pr ∧ Red vn.pr ∧ Red y ∧ ψ (sem y) = ψ (sem vp.pr) + ψ (sem vn.pr) ∧
        E.combine l thetas vp vn = if y ≠ PolyT.add vp.pr vn.pr then .error .dzkpVerify else pure () := by
  refine E.complete_cols ψ hr hc l m inputs inputsP inputsN thetas Ls coords rng hth hL hco hLag V Vp Vn hV hVp hVn hsplit
    fun k hk => ?_
  apply List.sum_eq_zero
  intro x hx
  obtain ⟨j, hj, rfl⟩ := List.mem_map.1 hx
  rw [hgate _ (flat_lt' (List.mem_range.1 hj) hk), mul_zero]

/-- What the two verifiers' equations say when they accept, for arbitrary gates and an arbitrary proof. -/
theorem accept_eqs [DecidableEq T] (E : ZkEnv G T I) (ψ : R →+* A) {Red : T → Prop} (hr : E.RedOk ψ Red)
    {cR : (A : Type) → [CommRing A] → List A → A} (hc : E.circ.Lawful cR) (l m : Nat)
    (inputsP inputsN : List I) (thetas : List T) (Ls : List (Poly T)) (coords : List T)
    (hth : thetas.length = l) (hL : Ls.length = m + 1) (hco : coords.length = m + 1)
    (Vp Vn : Nat → Nat → T) (hVp : E.Gates (l * m) inputsP Vp) (hVn : E.Gates (l * m) inputsN Vn) (pf1 pf2 : ZkPf T)
    (betas : List T) (r : T) (hb : betas.length = m) (v1 v2 : ZkShared T)
    (h1 : E.verifyPi l m inputsP betas r Ls coords pf1 = .ok v1)
    (h2 : E.verifyPi l m inputsN betas r Ls coords pf2 = .ok v2) (hok : E.combine l thetas v1 v2 = .ok ()) :
    (∑ k : Fin m, (polyA ψ pf1.a + polyA ψ pf2.a).eval (ψ (sem (coords[k.1 + 1]'(by omega)))) *
      ψ (sem (betas[k.1]'(by omega)))) = 0 ∧
    (rowSum cR E.circ.wires l (fun j => C (ψ (sem (thetas.getD j PolyT.zero))))
      (wireA ψ Ls l m (fun q => ψ (sem (pf1.w.getD q PolyT.zero)) + ψ (sem (pf2.w.getD q PolyT.zero)))
        (fun q i => ψ (sem (Vp q i)) + ψ (sem (Vn q i))))).eval (ψ (sem r)) =
      (polyA ψ pf1.a + polyA ψ pf2.a).eval (ψ (sem r)) ∧
    pf1.a.length = 2 * m + 1 ∧ pf2.a.length = 2 * m + 1 := by
  have hlen : ∀ (inp : List I) (pf : ZkPf T) (v : ZkShared T), E.verifyPi l m inp betas r Ls coords pf = .ok v →
      pf.w.length = E.circ.wires * l ∧ pf.a.length = 2 * m + 1 := by
    intro inp pf v h
    unfold verifyPi at h
    by_cases hcnd : m = betas.length ∧ m + 1 = Ls.length ∧ m * l = inp.length ∧ m + 1 = coords.length
    · rw [if_pos hcnd] at h
      by_cases hc2 : pf.w.length ≠ E.circ.wires * l ∨ pf.a.length ≠ 2 * m + 1
      · rw [if_pos hc2] at h; cases h
      · push Not at hc2; exact hc2
    · rw [if_neg hcnd] at h; cases h
  obtain ⟨vp, F1, e1, f1, hF1, hpr1, hb1, r1, s1⟩ := E.verifyPi_sem ψ hr l m inputsP betas r Ls coords pf1 hb hL hco
    (hlen _ _ _ h1).1 (hlen _ _ _ h1).2 Vp hVp
  obtain ⟨vn, F2, e2, f2, hF2, hpr2, hb2, r2, s2⟩ := E.verifyPi_sem ψ hr l m inputsN betas r Ls coords pf2 hb hL hco
    (hlen _ _ _ h2).1 (hlen _ _ _ h2).2 Vn hVn
  obtain rfl : vp = v1 := by rw [e1] at h1; exact Except.ok.inj h1
  obtain rfl : vn = v2 := by rw [e2] at h2; exact Except.ok.inj h2
  obtain ⟨g, hg, ec⟩ := E.combine_sem ψ hc l thetas hth vp vn F1 F2 f1 f2
  obtain ⟨y, ey, hy, ry⟩ := hr.red g
  rw [ec] at hok
  by_cases hbz : PolyT.isZero (PolyT.add vp.b vn.b) = false
  · rw [if_pos hbz] at hok; cases hok
  rw [if_neg hbz, ey] at hok
  have hyeq : y = PolyT.add vp.pr vn.pr := by
    by_contra hne
    have : (if y ≠ PolyT.add vp.pr vn.pr then (.error .dzkpVerify : Except Err Unit) else pure ()) = .ok () := hok
    rw [if_pos hne] at this; cases this
  refine ⟨?_, ?_, (hlen _ _ _ h1).2, (hlen _ _ _ h2).2⟩
  · have : PolyT.isZero (PolyT.add vp.b vn.b) = true := by simpa using hbz
    rw [hr.zero _ _ s1 s2, hb1, hb2, zip_drop_sum betas coords m hb hco, zip_drop_sum betas coords m hb hco,
      ← Finset.sum_add_distrib] at this
    rw [← this]
    apply Finset.sum_congr rfl
    intro k _
    rw [eval_add]; ring
  · rw [rowSum_eval hc, eval_add, ← hpr1, ← hpr2]
    have e3 : ψ (sem vp.pr) + ψ (sem vn.pr) = ψ (sem g) := by rw [← hy, hyeq, sem_add, map_add]
    rw [e3, hg]
    apply rowSum_congr
    intro j hj i hi
    rw [hF1 j hj i hi, hF2 j hj i hi, ← eval_add]
    congr 1
    exact (wireA_add ψ Ls l m _ _ _ _ _ _ j i rfl (fun k hk => rfl)).symm

end

end ZkEnv

end Verif
