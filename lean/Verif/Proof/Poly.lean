import Verif.Model.Poly
import Verif.Proof.Ring
import Mathlib.Algebra.Polynomial.Div
import Mathlib.Algebra.Polynomial.Eval.Degree
import Mathlib.Data.BitVec
import Mathlib.Tactic.LinearCombination
import Mathlib.Tactic.NoncommRing

/-! # What the coefficient vectors mean: `Poly<T>` as a Mathlib polynomial -/

namespace Verif

open Polynomial

/-- The operations of the coefficient type `T` are those of the commutative ring `R`, through `sem`; different
representations of the same element are allowed. -/
class LawfulPolyT (T : Type) [PolyT T] (R : outParam Type) [CommRing R] where
  sem : T → R
  sem_zero : sem PolyT.zero = 0
  sem_one : sem PolyT.one = 1
  sem_add : ∀ x y, sem (PolyT.add x y) = sem x + sem y
  sem_sub : ∀ x y, sem (PolyT.sub x y) = sem x - sem y
  sem_mul : ∀ x y, sem (PolyT.mul x y) = sem x * sem y
  sem_neg : ∀ x, sem (PolyT.neg x) = - sem x
  isZero_iff : ∀ x, PolyT.isZero x = true ↔ sem x = 0

export LawfulPolyT (sem sem_zero sem_one sem_add sem_sub sem_mul sem_neg isZero_iff)

instance (K : Nat) : LawfulPolyT (BitVec K) (BitVec K) where
  sem x := x
  sem_zero := rfl
  sem_one := rfl
  sem_add _ _ := rfl
  sem_sub _ _ := rfl
  sem_mul _ _ := rfl
  sem_neg _ := rfl
  isZero_iff x := by simp [PolyT.isZero]

theorem sem_bitVec {K : Nat} (x : BitVec K) : sem x = x := rfl

section

variable {T R : Type} [PolyT T] [CommRing R] [LawfulPolyT T R]

/-- The polynomial denoted by a coefficient vector. -/
noncomputable def semL : List T → R[X]
  | [] => 0
  | c :: cs => C (sem c) + X * semL cs

theorem semL_append (xs ys : List T) : semL (xs ++ ys) = semL xs + X ^ xs.length * (semL ys : R[X]) := by
  induction xs with
  | nil => simp [semL]
  | cons x xs ih => simp only [List.cons_append, semL, ih, List.length_cons]; ring

theorem semL_replicate_zero (n : Nat) : (semL (List.replicate n (PolyT.zero : T)) : R[X]) = 0 := by
  induction n with
  | zero => rfl
  | succ n ih => simp [List.replicate_succ, semL, ih, sem_zero]

theorem semL_coeff (xs : List T) (n : Nat) :
    (semL xs : R[X]).coeff n = match xs[n]? with | some c => sem c | none => 0 := by
  induction xs generalizing n with
  | nil => simp [semL]
  | cons x xs ih =>
    cases n with
    | zero => simp [semL]
    | succ n => simp [semL, coeff_X_mul, ih, coeff_C]

theorem semL_degree_lt (xs : List T) : (semL xs : R[X]).degree < xs.length := by
  rw [degree_lt_iff_coeff_zero]
  intro m hm
  rw [semL_coeff, List.getElem?_eq_none hm]

theorem semL_eq_zero_iff (xs : List T) : (semL xs : R[X]) = 0 ↔ ∀ x ∈ xs, sem x = (0 : R) := by
  constructor
  · intro h x hx
    obtain ⟨n, hn, rfl⟩ := List.mem_iff_getElem.1 hx
    have := congrArg (fun p => coeff p n) h
    simpa [semL_coeff, List.getElem?_eq_getElem hn] using this
  · intro h
    ext n
    rw [semL_coeff, coeff_zero]
    cases hx : xs[n]? with
    | none => rfl
    | some c => exact h c (List.mem_of_getElem? hx)

theorem semL_zipPad_add (xs ys : List T) :
    (semL (Poly.zipPad PolyT.add xs ys) : R[X]) = semL xs + semL ys := by
  induction ys generalizing xs with
  | nil => cases xs <;> simp [Poly.zipPad, semL]
  | cons y ys ih =>
    cases xs with
    | nil => simp only [Poly.zipPad, semL, ih, sem_add, sem_zero, C_add, C_0]; ring
    | cons x xs => simp only [Poly.zipPad, semL, ih, sem_add, C_add]; ring

theorem semL_zipPad_sub (xs ys : List T) :
    (semL (Poly.zipPad PolyT.sub xs ys) : R[X]) = semL xs - semL ys := by
  induction ys generalizing xs with
  | nil => cases xs <;> simp [Poly.zipPad, semL]
  | cons y ys ih =>
    cases xs with
    | nil => simp only [Poly.zipPad, semL, ih, sem_sub, sem_zero, C_sub, C_0]; ring
    | cons x xs => simp only [Poly.zipPad, semL, ih, sem_sub, C_sub]; ring

theorem length_zipPad (op : T → T → T) (xs ys : List T) :
    (Poly.zipPad op xs ys).length = max xs.length ys.length := by
  induction ys generalizing xs with
  | nil => cases xs <;> simp [Poly.zipPad]
  | cons y ys ih =>
    cases xs with
    | nil => simp [Poly.zipPad, ih]
    | cons x xs => simp only [Poly.zipPad, List.length_cons, ih]; omega

/-- Adding at an index in bounds. -/
theorem semL_addAt (cs : List T) (i : Nat) (x : T) (h : i < cs.length) :
    (semL (Poly.addAt cs i x) : R[X]) = semL cs + C (sem x) * X ^ i := by
  induction cs generalizing i with
  | nil => simp at h
  | cons c cs ih =>
    cases i with
    | zero => simp only [Poly.addAt, List.modify_zero_cons, semL, sem_add, C_add]; ring
    | succ i =>
      have := ih i (by simpa using h)
      simp only [Poly.addAt] at this
      simp only [Poly.addAt, List.modify_succ_cons, semL, this]; ring

theorem length_addAt (cs : List T) (i : Nat) (x : T) : (Poly.addAt cs i x).length = cs.length := by
  simp [Poly.addAt]

theorem mulInner_spec (a : T) (i : Nat) (bs cs : List T) (j : Nat) (h : i + j + bs.length ≤ cs.length) :
    (Poly.mulInner a i cs j bs).length = cs.length ∧
    (semL (Poly.mulInner a i cs j bs) : R[X]) = semL cs + C (sem a) * X ^ (i + j) * semL bs := by
  induction bs generalizing cs j with
  | nil => simp [Poly.mulInner, semL]
  | cons b bs ih =>
    simp only [List.length_cons] at h
    have := ih (Poly.addAt cs (i + j) (PolyT.mul a b)) (j + 1) (by rw [length_addAt]; omega)
    refine ⟨this.1.trans (length_addAt _ _ _), ?_⟩
    simp only [Poly.mulInner]
    rw [this.2, semL_addAt _ _ _ (by omega), sem_mul, C_mul]
    simp only [semL]; ring

theorem mulOuter_spec (bs as cs : List T) (i : Nat) (h : i + as.length + bs.length ≤ cs.length + 1) :
    (Poly.mulOuter bs cs i as).length = cs.length ∧
    (semL (Poly.mulOuter bs cs i as) : R[X]) = semL cs + X ^ i * semL as * semL bs := by
  induction as generalizing cs i with
  | nil => simp [Poly.mulOuter, semL]
  | cons a as ih =>
    simp only [List.length_cons] at h
    have h1 := mulInner_spec (R := R) a i bs cs 0 (by omega)
    have h2 := ih (Poly.mulInner a i cs 0 bs) (i + 1) (by rw [h1.1]; omega)
    refine ⟨h2.1.trans h1.1, ?_⟩
    simp only [Poly.mulOuter]
    rw [h2.2, h1.2]; simp only [semL]; ring

namespace Poly

/-- The polynomial denoted by a `Poly<T>`. -/
noncomputable def sem (p : Poly T) : R[X] := semL p.coeffs

theorem isZero_iff (p : Poly T) : p.isZero = true ↔ (p.sem : R[X]) = 0 := by
  rw [Poly.sem, semL_eq_zero_iff]
  unfold isZero
  rw [Bool.or_eq_true, List.all_eq_true]
  constructor
  · rintro (h | h) x hx
    · rw [List.isEmpty_iff.1 h] at hx; simp at hx
    · exact (LawfulPolyT.isZero_iff x).1 (h x hx)
  · intro h; right; intro x hx; exact (LawfulPolyT.isZero_iff x).2 (h x hx)

theorem sem_zero : ((zero : Poly T).sem : R[X]) = 0 := rfl
theorem sem_one : ((one : Poly T).sem : R[X]) = 1 := by simp [Poly.sem, one, semL, LawfulPolyT.sem_one]
theorem sem_add (p q : Poly T) : ((p.add q).sem : R[X]) = p.sem + q.sem := semL_zipPad_add _ _
theorem sem_sub (p q : Poly T) : ((p.sub q).sem : R[X]) = p.sem - q.sem := semL_zipPad_sub _ _
theorem sem_addT (p : Poly T) (x : T) : ((p.addT x).sem : R[X]) = p.sem + C (LawfulPolyT.sem x) := by
  simp [Poly.sem, addT, semL_zipPad_add, semL]
theorem sem_subT (p : Poly T) (x : T) : ((p.subT x).sem : R[X]) = p.sem - C (LawfulPolyT.sem x) := by
  simp [Poly.sem, subT, semL_zipPad_sub, semL]
theorem sem_lift (x : T) : ((lift x).sem : R[X]) = C (LawfulPolyT.sem x) := by simp [Poly.sem, lift, semL]

theorem sem_neg (p : Poly T) : ((p.neg).sem : R[X]) = - p.sem := by
  obtain ⟨cs⟩ := p
  simp only [Poly.sem, neg]
  induction cs with
  | nil => simp [semL]
  | cons c cs ih => simp only [List.map_cons, semL, ih, LawfulPolyT.sem_neg, C_neg]; ring

theorem sem_mulT (p : Poly T) (x : T) : ((p.mulT x).sem : R[X]) = p.sem * C (LawfulPolyT.sem x) := by
  obtain ⟨cs⟩ := p
  simp only [Poly.sem, mulT]
  induction cs with
  | nil => simp [semL]
  | cons c cs ih => simp only [List.map_cons, semL, ih, LawfulPolyT.sem_mul, C_mul]; ring

theorem length_pos_of_not_isZero (p : Poly T) (h : p.isZero = false) : 0 < p.coeffs.length := by
  rcases p with ⟨_ | ⟨c, cs⟩⟩
  · simp [isZero] at h
  · simp

theorem sem_mul (p q : Poly T) : ((p.mul q).sem : R[X]) = p.sem * q.sem := by
  unfold mul
  split
  · rename_i h
    rw [Bool.or_eq_true, isZero_iff (R := R), isZero_iff (R := R)] at h
    rcases h with h | h <;> rw [h, sem_zero] <;> simp
  · rename_i h
    simp only [Bool.or_eq_true, not_or, Bool.not_eq_true] at h
    have hp := length_pos_of_not_isZero p h.1
    have hq := length_pos_of_not_isZero q h.2
    have := mulOuter_spec (R := R) q.coeffs p.coeffs
      (List.replicate (p.coeffs.length + q.coeffs.length - 1) PolyT.zero) 0
      (by rw [List.length_replicate]; omega)
    simp only [Poly.sem]
    rw [this.2, semL_replicate_zero]; ring

/-- The product has `n + m - 1` coefficients, or none. -/
theorem length_mul (p q : Poly T) :
    (p.mul q).coeffs.length = if p.isZero || q.isZero then 0 else p.coeffs.length + q.coeffs.length - 1 := by
  unfold mul
  split
  · rfl
  · rename_i h
    have h' := h
    simp only [Bool.or_eq_true, not_or, Bool.not_eq_true] at h
    have hp := length_pos_of_not_isZero p h.1
    have hq := length_pos_of_not_isZero q h.2
    -- the loops do not change the length
    have e1 : ∀ (a : T) (i : Nat) (bs cs : List T) (j : Nat), (mulInner a i cs j bs).length = cs.length := by
      intro a i bs
      induction bs with
      | nil => intros; rfl
      | cons b bs ih => intro cs j; exact (ih _ _).trans (length_addAt _ _ _)
    have e2 : ∀ (bs as cs : List T) (i : Nat), (mulOuter bs cs i as).length = cs.length := by
      intro bs as
      induction as with
      | nil => intros; rfl
      | cons a as ih => intro cs j; exact (ih _ _).trans (e1 _ _ _ _ _)
    simp [e2]

theorem sem_isZero_of_or (p q : Poly T) (h : (p.isZero || q.isZero) = true) : (p.sem * q.sem : R[X]) = 0 := by
  rw [Bool.or_eq_true, isZero_iff (R := R), isZero_iff (R := R)] at h
  rcases h with h | h <;> rw [h] <;> simp

theorem sem_evaluate (p : Poly T) (x : T) :
    LawfulPolyT.sem (p.evaluate x) = (p.sem : R[X]).eval (LawfulPolyT.sem x) := by
  obtain ⟨cs⟩ := p
  simp only [Poly.sem, evaluate, List.foldl_reverse]
  induction cs with
  | nil => simp [semL, LawfulPolyT.sem_zero]
  | cons c cs ih =>
    simp only [List.foldr_cons, semL, LawfulPolyT.sem_add, LawfulPolyT.sem_mul, ih, eval_add, eval_C, eval_mul, eval_X]
    ring

noncomputable instance : LawfulPolyT (Poly T) R[X] where
  sem := Poly.sem
  sem_zero := sem_zero
  sem_one := sem_one
  sem_add := sem_add
  sem_sub := sem_sub
  sem_mul := sem_mul
  sem_neg := sem_neg
  isZero_iff := isZero_iff

theorem sem_eq (p : Poly T) : LawfulPolyT.sem p = (p.sem : R[X]) := rfl

theorem interpolateLoop_sem (res : Poly T) (ls : List (Poly T)) (ys : List T) (h : ys.length = ls.length) :
    ((interpolateLoop res ls ys).sem : R[X]) =
      res.sem + ((ls.zip ys).map fun q => (q.1.sem : R[X]) * C (LawfulPolyT.sem q.2)).sum := by
  induction ls generalizing res ys with
  | nil => cases ys <;> simp_all [interpolateLoop]
  | cons l ls ih =>
    cases ys with
    | nil => simp at h
    | cons y ys =>
      simp only [interpolateLoop]
      rw [ih _ _ (by simpa using h), sem_add, sem_mulT]
      simp only [List.zip_cons_cons, List.map_cons, List.sum_cons]; ring

/-! ## Degree and shrinking -/

omit [CommRing R] [LawfulPolyT T R] in
theorem degreeLoop_spec (cs : List T) (n : Nat) (hn : n ≤ cs.length) :
    (degreeLoop cs n < n ∨ degreeLoop cs n = 0) ∧
    (∀ i, degreeLoop cs n < i → i < n → ∀ c, cs[i]? = some c → PolyT.isZero c = true) ∧
    ((∃ i, i < n ∧ ∃ c, cs[i]? = some c ∧ PolyT.isZero c = false) →
      ∃ c, cs[degreeLoop cs n]? = some c ∧ PolyT.isZero c = false) := by
  induction n with
  | zero => exact ⟨.inr rfl, fun i h1 h2 => by omega, fun ⟨i, h, _⟩ => by omega⟩
  | succ n ih =>
    have ih := ih (by omega)
    have hget : cs[n]? = some cs[n] := List.getElem?_eq_getElem (by omega)
    by_cases hz : PolyT.isZero cs[n] = true
    · have e : degreeLoop cs (n + 1) = degreeLoop cs n := by simp only [degreeLoop, hget, hz, if_true]
      rw [e]
      refine ⟨?_, ?_, ?_⟩
      · rcases ih.1 with h | h
        · exact .inl (by omega)
        · exact .inr h
      · intro i h1 h2 c hc
        by_cases hin : i = n
        · subst hin; rw [hget] at hc; cases hc; exact hz
        · exact ih.2.1 i h1 (by omega) c hc
      · rintro ⟨i, h1, c, hc, hcz⟩
        refine ih.2.2 ⟨i, ?_, c, hc, hcz⟩
        by_contra hh
        have : i = n := by omega
        subst this; rw [hget] at hc; cases hc; rw [hz] at hcz; cases hcz
    · have e : degreeLoop cs (n + 1) = n := by
        simp only [degreeLoop, hget, Bool.not_eq_true] at hz ⊢
        rw [hz]; rfl
      rw [e]
      refine ⟨.inl (by omega), fun i h1 h2 => by omega, fun _ => ⟨cs[n], hget, by simpa using hz⟩⟩

/-- `degree` is the degree of the denoted polynomial (0 for the zero polynomial). -/
theorem degree_eq (p : Poly T) : p.degree = (p.sem : R[X]).natDegree := by
  have hs := degreeLoop_spec p.coeffs p.coeffs.length le_rfl
  apply Eq.symm
  by_cases h0 : (p.sem : R[X]) = 0
  · rw [h0, natDegree_zero]
    have hall : ∀ x ∈ p.coeffs, PolyT.isZero x = true := fun x hx =>
      (LawfulPolyT.isZero_iff x).2 ((semL_eq_zero_iff p.coeffs).1 h0 x hx)
    -- every coefficient is skipped
    have : ∀ n, n ≤ p.coeffs.length → degreeLoop p.coeffs n = 0 := by
      intro n
      induction n with
      | zero => intro _; rfl
      | succ n ih =>
        intro hn
        have hget : p.coeffs[n]? = some p.coeffs[n] := List.getElem?_eq_getElem (by omega)
        simp only [degreeLoop, hget, hall _ (List.getElem_mem _), if_true]
        exact ih (by omega)
    exact (this _ le_rfl).symm
  · have hex : ∃ i, i < p.coeffs.length ∧ ∃ c, p.coeffs[i]? = some c ∧ PolyT.isZero c = false := by
      by_contra hno
      apply h0
      rw [Poly.sem, semL_eq_zero_iff]
      intro x hx
      obtain ⟨i, hi, rfl⟩ := List.mem_iff_getElem.1 hx
      by_contra hne
      apply hno
      refine ⟨i, hi, _, List.getElem?_eq_getElem hi, ?_⟩
      rw [← Bool.not_eq_true, LawfulPolyT.isZero_iff (R := R)]; exact hne
    obtain ⟨c, hc, hcz⟩ := hs.2.2 hex
    have hcne : (LawfulPolyT.sem c : R) ≠ 0 := by
      rw [← Bool.not_eq_true, LawfulPolyT.isZero_iff (R := R)] at hcz; exact hcz
    refine natDegree_eq_of_le_of_coeff_ne_zero ?_ ?_
    · rw [natDegree_le_iff_coeff_eq_zero]
      intro i hi
      rw [Poly.sem, semL_coeff]
      cases hx : p.coeffs[i]? with
      | none => rfl
      | some d =>
        have hlt : i < p.coeffs.length := (List.getElem?_eq_some_iff.1 hx).1
        exact (LawfulPolyT.isZero_iff d).1 (hs.2.1 i hi hlt d hx)
    · rw [Poly.sem, semL_coeff]
      unfold degree at *
      rw [hc]; exact hcne

theorem semL_resize (cs : List T) (n : Nat) (h : ∀ i, n ≤ i → ∀ c, cs[i]? = some c → LawfulPolyT.sem c = (0 : R)) :
    (semL (resize cs n PolyT.zero) : R[X]) = semL cs := by
  unfold resize
  rw [semL_append, semL_replicate_zero, mul_zero, add_zero]
  conv_rhs => rw [← List.take_append_drop n cs, semL_append]
  have : (semL (cs.drop n) : R[X]) = 0 := by
    rw [semL_eq_zero_iff]
    intro x hx
    obtain ⟨i, hi, rfl⟩ := List.mem_iff_getElem.1 hx
    refine h (n + i) (by omega) _ ?_
    rw [← List.getElem?_drop, List.getElem?_eq_getElem hi]
  rw [this, mul_zero, add_zero]

theorem sem_shrink (p : Poly T) : (p.shrink.sem : R[X]) = p.sem := by
  refine semL_resize _ _ fun i hi c hc => ?_
  have hs := degreeLoop_spec p.coeffs p.coeffs.length le_rfl
  exact (LawfulPolyT.isZero_iff c).1
    (hs.2.1 i hi (List.getElem?_eq_some_iff.1 hc).1 c hc)

theorem length_resize {α : Type} (l : List α) (n : Nat) (d : α) : (resize l n d).length = n := by
  simp [resize]; omega

theorem length_shrink (p : Poly T) : p.shrink.coeffs.length = p.degree + 1 := length_resize _ _ _

end Poly

end

end Verif
