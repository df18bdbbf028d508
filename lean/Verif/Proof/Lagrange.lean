import Verif.Proof.Poly
import Verif.Proof.Gf2p64
import Mathlib.Algebra.Polynomial.BigOperators

/-! # Lagrange polynomials and interpolation -/

namespace Verif

open Polynomial

section Generic

variable {R : Type} [CommRing R]

/-- `L` is 1 at the `j`-th point, 0 at the others, of degree below the number of points. -/
def IsLagrange (xs : List R) (j : Nat) (L : R[X]) : Prop :=
  L.natDegree < xs.length ∧ ∀ k (hk : k < xs.length), L.eval xs[k] = if k = j then 1 else 0

/-- The product built by the loop of `lagrange_polys`, with the scaling factors `us`. -/
noncomputable def lagProd (j : Nat) : Nat → List R → List R → R[X]
  | i, x :: xs, u :: us => (if i = j then 1 else (X - C x) * C u) * lagProd j (i + 1) xs us
  | _, _, _ => 1

theorem lagProd_natDegree (j i : Nat) (xs us : List R) :
    (lagProd j i xs us).natDegree ≤ if i ≤ j ∧ j < i + xs.length ∧ j < i + us.length then xs.length - 1 else xs.length := by
  induction xs generalizing i us with
  | nil => simp [lagProd]
  | cons x xs ih =>
    cases us with
    | nil => simp only [lagProd, natDegree_one]; omega
    | cons u us =>
      simp only [lagProd, List.length_cons]
      have h := ih (i + 1) us
      refine natDegree_mul_le.trans ?_
      by_cases hij : i = j
      · rw [if_pos hij, natDegree_one, zero_add]
        rw [if_neg (by omega)] at h
        split <;> omega
      · rw [if_neg hij]
        have h1 : ((X - C x) * C u : R[X]).natDegree ≤ 1 :=
          natDegree_mul_le.trans (by
            rw [natDegree_C, add_zero]; exact natDegree_X_sub_C_le x)
        have e : (i ≤ j ∧ j < i + (xs.length + 1) ∧ j < i + (us.length + 1)) ↔
          (i + 1 ≤ j ∧ j < i + 1 + xs.length ∧ j < i + 1 + us.length) := by omega
        simp only [e]
        split at h <;> rename_i hc
        · rw [if_pos hc]; omega
        · rw [if_neg hc]; omega

theorem lagProd_eval_other (j i : Nat) (xs us : List R) (k : Nat) (hk : k < xs.length) (hu : us.length = xs.length)
    (hne : i + k ≠ j) : (lagProd j i xs us).eval xs[k] = 0 := by
  induction xs generalizing i us k with
  | nil => simp at hk
  | cons x xs ih =>
    cases us with
    | nil => simp at hu
    | cons u us =>
      simp only [lagProd, eval_mul]
      cases k with
      | zero =>
        rw [if_neg (by simpa using hne)]
        simp
      | succ k =>
        have := ih (i + 1) us k (by simpa using hk) (by simpa using hu) (by omega)
        simp only [List.getElem_cons_succ]
        rw [this, mul_zero]

theorem lagProd_eval_self (j i : Nat) (xs us : List R) (y : R)
    (h : ∀ k (hk : k < xs.length) (hk' : k < us.length), i + k ≠ j → us[k] * (y - xs[k]) = 1) :
    (lagProd j i xs us).eval y = 1 := by
  induction xs generalizing i us with
  | nil => simp [lagProd]
  | cons x xs ih =>
    cases us with
    | nil => simp [lagProd]
    | cons u us =>
      simp only [lagProd, eval_mul]
      rw [ih (i + 1) us (fun k hk hk' hne => by
        have := h (k + 1) (by simpa using hk) (by simpa using hk') (by omega)
        simpa using this), mul_one]
      by_cases hij : i = j
      · simp [hij]
      · have := h 0 (by simp) (by simp) (by simpa using hij)
        simp only [List.getElem_cons_zero] at this
        rw [if_neg hij]
        simp only [eval_mul, eval_sub, eval_X, eval_C]
        linear_combination this

theorem isLagrange_of_lagProd (xs us : List R) (j : Nat) (hj : j < xs.length) (hu : us.length = xs.length)
    (h : ∀ k (hk : k < xs.length), k ≠ j → us[k] * (xs[j] - xs[k]) = 1) : IsLagrange xs j (lagProd j 0 xs us) := by
  refine ⟨?_, fun k hk => ?_⟩
  · have := lagProd_natDegree j 0 xs us
    rw [if_pos (by omega)] at this
    omega
  · by_cases hkj : k = j
    · subst hkj
      rw [if_pos rfl]
      exact lagProd_eval_self k 0 xs us _ fun k' hk1 hk2 hne => h k' hk1 (by omega)
    · rw [if_neg hkj]
      exact lagProd_eval_other j 0 xs us k hk hu (by omega)

/-- The combination of Lagrange polynomials with the values `ys`. -/
noncomputable def interp (Ls : List R[X]) (ys : List R) : R[X] := ((Ls.zip ys).map fun q => q.1 * C q.2).sum

theorem interp_natDegree (Ls : List R[X]) (ys : List R) (d : Nat) (h : ∀ L ∈ Ls, L.natDegree ≤ d) :
    (interp Ls ys).natDegree ≤ d := by
  unfold interp
  induction Ls generalizing ys with
  | nil => simp
  | cons L Ls ih =>
    cases ys with
    | nil => simp
    | cons y ys =>
      simp only [List.zip_cons_cons, List.map_cons, List.sum_cons]
      refine (natDegree_add_le _ _).trans (max_le ?_ (ih ys fun L hL => h L (List.mem_cons_of_mem _ hL)))
      refine natDegree_mul_le.trans ?_
      rw [natDegree_C, add_zero]
      exact h L List.mem_cons_self

theorem interp_add (Ls : List R[X]) (ys zs : List R) (h : ys.length = zs.length) :
    interp Ls (List.zipWith (· + ·) ys zs) = interp Ls ys + interp Ls zs := by
  unfold interp
  induction Ls generalizing ys zs with
  | nil => simp
  | cons L Ls ih =>
    cases ys with
    | nil => cases zs with
      | nil => simp
      | cons z zs => simp at h
    | cons y ys =>
      cases zs with
      | nil => simp at h
      | cons z zs =>
        simp only [List.zipWith_cons_cons, List.zip_cons_cons, List.map_cons, List.sum_cons,
          ih ys zs (by simpa using h), C_add]
        ring

theorem interp_eval_aux (x : R) (k : Nat) (Ls : List R[X]) (ys : List R) (i : Nat) (hl : Ls.length = ys.length)
    (h : ∀ j (hj : j < Ls.length), (Ls[j]).eval x = if i + j = k then 1 else 0) :
    (interp Ls ys).eval x = if i ≤ k then (ys[k - i]?.getD 0) else 0 := by
  unfold interp
  induction Ls generalizing ys i with
  | nil =>
    have : ys = [] := by cases ys with
      | nil => rfl
      | cons => simp at hl
    subst this; simp
  | cons L Ls ih =>
    cases ys with
    | nil => simp at hl
    | cons y ys =>
      simp only [List.zip_cons_cons, List.map_cons, List.sum_cons, eval_add, eval_mul, eval_C]
      rw [ih ys (i + 1) (by simpa using hl) (fun j hj => by
        have := h (j + 1) (by simpa using hj)
        simp only [List.getElem_cons_succ] at this
        rw [this]; congr 1; apply propext; omega)]
      have h0 := h 0 (by simp)
      simp only [List.getElem_cons_zero, Nat.add_zero] at h0
      rw [h0]
      by_cases hik : i = k
      · subst hik; simp
      · by_cases hle : i ≤ k
        · have : k - i = k - (i + 1) + 1 := by omega
          rw [if_neg hik, if_pos (by omega : i + 1 ≤ k), if_pos hle, this]
          simp
        · rw [if_neg hik, if_neg (by omega : ¬ i + 1 ≤ k), if_neg hle]; simp

/-- The interpolating polynomial takes the given values at the points. -/
theorem interp_eval (xs : List R) (Ls : List R[X]) (ys : List R) (hl : Ls.length = xs.length) (hy : ys.length = xs.length)
    (h : ∀ j (hj : j < Ls.length), IsLagrange xs j Ls[j]) (k : Nat) (hk : k < xs.length) :
    (interp Ls ys).eval xs[k] = ys[k]'(by omega) := by
  rw [interp_eval_aux xs[k] k Ls ys 0 (by omega) (fun j hj => by
    rw [(h j hj).2 k hk, Nat.zero_add]; congr 1; exact propext eq_comm)]
  rw [if_pos (Nat.zero_le _), Nat.sub_zero, List.getElem?_eq_getElem (by omega)]
  rfl

end Generic

/-! ## Over `GF2p64` -/

noncomputable instance : LawfulPolyT GF2p64 F64 where
  sem := GF2p64.sem
  sem_zero := GF2p64.sem_zero
  sem_one := GF2p64.sem_one
  sem_add := GF2p64.sem_add
  sem_sub := GF2p64.sem_sub
  sem_mul := GF2p64.sem_mul
  sem_neg := GF2p64.sem_neg
  isZero_iff x := by
    rw [show PolyT.isZero x = x.isZero from rfl, GF2p64.sem_eq_zero_iff]
    unfold GF2p64.isZero
    rw [beq_iff_eq]
    exact ⟨fun h => GF2p64.ext h, fun h => congrArg GF2p64.val h⟩

theorem sem_gf (x : GF2p64) : LawfulPolyT.sem x = x.sem := rfl

theorem Poly.interpolate_sem {T R : Type} [PolyT T] [CommRing R] [LawfulPolyT T R] (ys : List T) (ls : List (Poly T))
    (h : ys.length = ls.length) :
    ∃ p, interpolate ys ls = .ok p ∧ (p.sem : R[X]) = interp (ls.map Poly.sem) (ys.map LawfulPolyT.sem) := by
  refine ⟨interpolateLoop zero ls ys, by unfold interpolate; rw [if_pos h], ?_⟩
  rw [interpolateLoop_sem _ _ _ h, sem_zero, zero_add]
  unfold interp
  rw [List.zip_map, List.map_map]
  rfl

namespace GF2p64

theorem sub_ne_zero {x y : GF2p64} (h : x ≠ y) : x.sub y ≠ zero := by
  intro h0
  apply h
  apply sem_injective
  have := (sem_eq_zero_iff _).2 h0
  rw [sem_sub] at this
  exact sub_eq_zero.1 this

theorem lagrangeLoop_spec (xj : GF2p64) (j i : Nat) (poly : Poly GF2p64) (xs : List GF2p64)
    (h : ∀ k (hk : k < xs.length), i + k ≠ j → xj ≠ xs[k]) :
    ∃ p us, lagrangeLoop xj j i poly xs = .ok p ∧ us.length = xs.length ∧
      (∀ k (hk : k < xs.length) (hk' : k < us.length), i + k ≠ j → us[k] * (xj.sem - xs[k].sem) = 1) ∧
      (p.sem : F64[X]) = poly.sem * lagProd j i (xs.map sem) us := by
  induction xs generalizing i poly with
  | nil => exact ⟨poly, [], rfl, rfl, fun k hk => absurd hk (by simp), by simp [lagProd]⟩
  | cons x xs ih =>
    have hrec : ∀ k (hk : k < xs.length), i + 1 + k ≠ j → xj ≠ xs[k] := fun k hk hne => by
      have := h (k + 1) (by simpa using hk) (by omega)
      simpa using this
    simp only [lagrangeLoop]
    by_cases hij : i = j
    · rw [if_neg (by simpa using hij)]
      obtain ⟨p, us, e, hl, hu, hs⟩ := ih (i + 1) poly hrec
      refine ⟨p, 0 :: us, e, by simp [hl], ?_, ?_⟩
      · intro k hk hk' hne
        cases k with
        | zero => exact absurd hij (by simpa using hne)
        | succ k => simpa using hu k (by simpa using hk) (by simpa using hk') (by omega)
      · rw [hs]; simp only [List.map_cons, lagProd, if_pos hij]; ring
    · rw [if_pos hij]
      have hne : xj ≠ x := by
        have := h 0 (by simp) (by simpa using hij)
        simpa using this
      obtain ⟨y, hy, hys⟩ := (inverse_spec (xj.sub x)).2 (sub_ne_zero hne)
      obtain ⟨p, us, e, hl, hu, hs⟩ := ih (i + 1)
        ((((⟨[x.neg, one]⟩ : Poly GF2p64)).mulT y).mul poly) hrec
      refine ⟨p, y.sem :: us, by rw [hy]; exact e, by simp [hl], ?_, ?_⟩
      · intro k hk hk' hne'
        cases k with
        | zero =>
          simp only [List.getElem_cons_zero]
          rw [hys, sem_sub]
          refine inv_mul_cancel₀ ?_
          exact _root_.sub_ne_zero.2 fun h => hne (sem_injective h)
        | succ k => simpa using hu k (by simpa using hk) (by simpa using hk') (by omega)
      · rw [hs]
        simp only [List.map_cons, lagProd, if_neg hij]
        rw [Poly.sem_mul, Poly.sem_mulT]
        simp only [Poly.sem, semL, sem_gf, sem_neg, sem_one, C_neg, C_1]
        ring

/-- With pairwise different points, `lagrange_polys` returns the Lagrange polynomials. -/
theorem lagrangePolys_spec (xs : List GF2p64) (h : xs.Nodup) :
    ∃ ls, lagrangePolys xs = .ok ls ∧ ls.length = xs.length ∧
      ∀ j (hj : j < ls.length), IsLagrange (xs.map sem) j (ls[j].sem : F64[X]) := by
  have hone : ∀ j (hj : j < xs.length), ∃ p, lagrangeLoop xs[j] j 0 Poly.one xs = .ok p ∧
      IsLagrange (xs.map sem) j (p.sem : F64[X]) := by
    intro j hj
    obtain ⟨p, us, e, hl, hu, hs⟩ := lagrangeLoop_spec xs[j] j 0 Poly.one xs (fun k hk hne heq => by
      have := (List.Nodup.getElem_inj_iff h).1 heq
      omega)
    refine ⟨p, e, ?_⟩
    rw [hs, Poly.sem_one, one_mul]
    refine isLagrange_of_lagProd _ _ j (by simpa using hj) (by simpa using hl) fun k hk hne => ?_
    have := hu k (by simpa using hk) (by rw [hl]; simpa using hk) (by omega)
    simpa using this
  -- collect
  have hall : ∀ n, n ≤ xs.length → ∃ ls, ((xs.zipIdx).drop n).mapM
      (fun x => lagrangeLoop x.1 x.2 0 Poly.one xs) = .ok ls ∧ ls.length = xs.length - n ∧
      ∀ j (hj : j < ls.length), IsLagrange (xs.map sem) (n + j) (ls[j].sem : F64[X]) := by
    intro n hn
    induction hd : xs.length - n generalizing n with
    | zero =>
      refine ⟨[], ?_, rfl, fun j hj => absurd hj (by simp)⟩
      rw [List.drop_eq_nil_of_le (by simp; omega)]; rfl
    | succ t ih =>
      have hlt : n < xs.length := by omega
      obtain ⟨ls, e, hl, hlag⟩ := ih (n + 1) (by omega) (by omega)
      obtain ⟨p, hp, hpl⟩ := hone n hlt
      refine ⟨p :: ls, ?_, by simp [hl], ?_⟩
      · rw [List.drop_eq_getElem_cons (by simpa using hlt)]
        rw [List.mapM_cons, e]
        simp only [List.getElem_zipIdx, Nat.zero_add]
        rw [hp]; rfl
      · intro j hj
        cases j with
        | zero => exact hpl
        | succ j =>
          have := hlag j (by simpa using hj)
          rw [show n + (j + 1) = n + 1 + j by omega]
          simpa using this
  obtain ⟨ls, e, hl, hlag⟩ := hall 0 (Nat.zero_le _)
  refine ⟨ls, by unfold lagrangePolys; simpa using e, by simpa using hl, fun j hj => ?_⟩
  simpa using hlag j hj

end GF2p64

end Verif
