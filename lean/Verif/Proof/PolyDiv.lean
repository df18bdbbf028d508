import Verif.Proof.Poly
import Verif.Props.Codec

/-! # Long division of `Poly<T>` and reduction modulo a monic polynomial -/

namespace Verif

open Polynomial

namespace Poly

variable {K : Nat}

theorem subAtFrom_spec (coeff : BitVec K) (d : List (BitVec K)) (i : Nat) (cs : List (BitVec K))
    (h : i + cs.length ≤ d.length) :
    (subAtFrom coeff d i cs).length = d.length ∧
    semL (subAtFrom coeff d i cs) = semL d - C coeff * X ^ i * semL cs := by
  induction cs generalizing d i with
  | nil => simp [subAtFrom, semL]
  | cons c cs ih =>
    simp only [List.length_cons] at h
    have e : d.modify i (· - c * coeff) = addAt d i (-(c * coeff)) := by
      unfold addAt
      congr 1
      funext x
      exact sub_eq_add_neg x _
    have h1 := ih (d.modify i (· - c * coeff)) (i + 1) (by simp; omega)
    refine ⟨by simpa [subAtFrom] using h1.1, ?_⟩
    simp only [subAtFrom]
    rw [h1.2, e, semL_addAt _ _ _ (by omega)]
    simp only [semL, sem_bitVec, C_neg, C_mul]; ring

theorem semL_set_zero (q : List (BitVec K)) (i : Nat) (c : BitVec K) (h : i < q.length) (h0 : q[i]? = some 0) :
    semL (q.set i c) = semL q + C c * X ^ i := by
  have : q.set i c = addAt q i c := by
    unfold addAt
    apply List.ext_getElem?
    intro j
    rw [List.getElem?_set, List.getElem?_modify]
    by_cases hij : i = j
    · subst hij
      simp [h, h0, PolyT.add]
      rw [List.getElem?_eq_getElem h] at h0
      simp only [Option.some.injEq] at h0
      rw [h0]; simp
    · simp [hij]
  rw [this, semL_addAt _ _ _ h]; rfl

theorem semL_snoc (xs : List (BitVec K)) (x : BitVec K) : semL (xs ++ [x]) = semL xs + C x * X ^ xs.length := by
  rw [semL_append]; simp only [semL, sem_bitVec]; ring

/-- One pass of long division: the loop keeps `quotient * other + dividend`. -/
theorem divLoop_spec (oinit : List (BitVec K)) (lc inv : BitVec K) (hinv : inv * lc = 1) (n : Nat) (q d : List (BitVec K))
    (hn : d.length ≤ n + oinit.length)
    (hq : ∀ i, i + oinit.length + 1 ≤ d.length → q[i]? = some 0) :
    ∃ q' r, divLoop (oinit ++ [lc]) inv n q d = .ok (q', r) ∧ q'.length = q.length ∧ r.length ≤ oinit.length ∧
      r.length ≤ d.length ∧
      semL q' * semL (oinit ++ [lc]) + semL r = semL q * semL (oinit ++ [lc]) + semL d := by
  induction n generalizing q d with
  | zero => exact ⟨q, d, rfl, rfl, by omega, le_rfl, rfl⟩
  | succ n ih =>
    simp only [divLoop]
    split
    · rename_i hge
      simp only [List.length_append, List.length_singleton] at hge ⊢
      have hne : d ≠ [] := by rintro rfl; simp at hge
      have hd : d = d.dropLast ++ [d.getLast hne] := (List.dropLast_append_getLast hne).symm
      have hpop : popE d = .ok (d.getLast hne, d.dropLast) := by
        unfold popE; rw [List.getLast?_eq_getLast_of_ne_nil hne]
      simp only [hpop]
      have htake : (oinit ++ [lc]).take (oinit.length + 1 - 1) = oinit := by simp
      rw [htake]
      set last := d.getLast hne
      set mon := d.length - (oinit.length + 1) with hmon
      have hs := subAtFrom_spec (last * inv) d.dropLast mon oinit (by rw [List.length_dropLast]; omega)
      have hqm := hq mon (by omega)
      have hlt : mon < q.length := (List.getElem?_eq_some_iff.1 hqm).1
      obtain ⟨q', r, e, hl, hr, hr2, hsem⟩ := ih (q.set mon (last * inv)) (subAtFrom (last * inv) d.dropLast mon oinit)
        (by rw [hs.1, List.length_dropLast]; omega)
        (by
          intro i hi
          rw [hs.1, List.length_dropLast] at hi
          rw [List.getElem?_set_ne (by omega)]
          exact hq i (by omega))
      refine ⟨q', r, e, by rw [hl, List.length_set], hr, ?_, ?_⟩
      · rw [hs.1, List.length_dropLast] at hr2; omega
      · rw [hsem, hs.2, semL_set_zero _ _ _ hlt hqm]
        conv_rhs => rw [hd]
        rw [semL_snoc, semL_snoc, List.length_dropLast]
        have hX : (X : (BitVec K)[X]) ^ (d.length - 1) = X ^ mon * X ^ oinit.length := by
          rw [← pow_add]; congr 1; omega
        have hC : (C last : (BitVec K)[X]) = C (last * inv) * C lc := by
          rw [← C_mul]; congr 1; rw [mul_assoc, hinv, mul_one]
        rw [hX, hC]; ring
    · rename_i hlt
      simp only [List.length_append, List.length_singleton] at hlt
      exact ⟨q, d, rfl, rfl, by omega, le_rfl, rfl⟩

theorem degree_of_last (init : List (BitVec K)) (lc : BitVec K) (h : lc ≠ 0) :
    (⟨init ++ [lc]⟩ : Poly (BitVec K)).degree = init.length := by
  simp only [degree, List.length_append, List.length_singleton, degreeLoop]
  rw [List.getElem?_append_right le_rfl]
  have hz : PolyT.isZero lc = false := by
    rw [← Bool.not_eq_true, LawfulPolyT.isZero_iff]; exact h
  simp [hz]

theorem leadingCoeff_of_last (init : List (BitVec K)) (lc : BitVec K) (h : lc ≠ 0) :
    (⟨init ++ [lc]⟩ : Poly (BitVec K)).leadingCoeff = .ok lc := by
  unfold leadingCoeff idx
  rw [degree_of_last _ _ h]
  simp

theorem longDivision_spec (hK : 0 < K) (p : Poly (BitVec K)) (oinit : List (BitVec K)) (lc : BitVec K)
    (hlc : lc.toNat % 2 = 1) :
    ∃ q r, p.longDivision ⟨oinit ++ [lc]⟩ = .ok (q, r) ∧ r.coeffs.length ≤ oinit.length ∧
      p.sem = q.sem * (⟨oinit ++ [lc]⟩ : Poly (BitVec K)).sem + r.sem := by
  have hne : lc ≠ 0 := by rintro rfl; simp at hlc
  obtain ⟨inv, hi, hinv, -⟩ := (C05_inverse K hK lc).1 hlc
  simp only [longDivision, leadingCoeff_of_last _ _ hne, bind, Except.bind]
  simp only [hi]
  obtain ⟨q', r, e, -, hr, -, hs⟩ := divLoop_spec oinit lc inv hinv p.coeffs.length
    (List.replicate (if p.coeffs.length ≥ (oinit ++ [lc]).length then p.coeffs.length - (oinit ++ [lc]).length + 1 else 1) 0)
    p.coeffs (by omega)
    (by
      intro i hi
      rw [List.getElem?_replicate, if_pos]
      rw [if_pos (by simp; omega)]
      simp; omega)
  have e' : divLoop (oinit ++ [lc]) inv p.coeffs.length
    (List.replicate (if p.coeffs.length ≥ (oinit ++ [lc]).length then p.coeffs.length - (oinit ++ [lc]).length + 1 else 1) 0)
    p.coeffs = .ok (q', r) := e
  rw [e']
  refine ⟨⟨q'⟩, ⟨r⟩, rfl, hr, ?_⟩
  have hz : semL (List.replicate (if p.coeffs.length ≥ (oinit ++ [lc]).length then
      p.coeffs.length - (oinit ++ [lc]).length + 1 else 1) (0 : BitVec K)) = 0 := semL_replicate_zero (T := BitVec K) _
  rw [hz] at hs
  simp only [Poly.sem]
  rw [hs]; ring

/-- The representation used for a monic modulus of degree `d`: `d` coefficients and a one. -/
def MonicRep (d : Nat) (m : Poly (BitVec K)) : Prop := ∃ init, m.coeffs = init ++ [1] ∧ init.length = d

theorem MonicRep.degree_lt {d : Nat} {m : Poly (BitVec K)} (h : MonicRep d m) :
    ∃ init : List (BitVec K), m = ⟨init ++ [1]⟩ ∧ init.length = d := by
  obtain ⟨init, h1, h2⟩ := h
  exact ⟨init, Poly.ext h1, h2⟩

theorem nontrivial_bitVec (hK : 0 < K) : Nontrivial (BitVec K) :=
  ⟨0, 1, by
    intro h
    have := congrArg BitVec.toNat h
    rw [show (1 : BitVec K) = 1#K from rfl, BitVec.toNat_ofNat, Nat.mod_eq_of_lt (Nat.one_lt_two_pow (by omega))] at this
    simp at this⟩

theorem MonicRep.monic {d : Nat} {m : Poly (BitVec K)} (hK : 0 < K) (h : MonicRep d m) :
    m.sem.Monic ∧ m.sem.natDegree = d := by
  have := nontrivial_bitVec hK
  obtain ⟨init, rfl, rfl⟩ := h.degree_lt
  have hs : (⟨init ++ [1]⟩ : Poly (BitVec K)).sem = X ^ init.length + semL init := by
    simp only [Poly.sem]
    rw [semL_snoc, show (C (1 : BitVec K) : (BitVec K)[X]) = 1 from C_1]
    ring
  have hlt : (semL init : (BitVec K)[X]).degree < init.length := semL_degree_lt init
  refine ⟨by rw [hs]; exact monic_X_pow_add hlt, ?_⟩
  rw [hs]
  refine natDegree_eq_of_degree_eq_some ?_
  rw [degree_add_eq_left_of_degree_lt (by rwa [degree_X_pow]), degree_X_pow]

/-- Reduction modulo a monic polynomial gives the canonical remainder, in shrunk form. -/
theorem rem_spec (hK : 0 < K) (p m : Poly (BitVec K)) {d : Nat} (h : MonicRep d m) :
    ∃ r : Poly (BitVec K), p.rem m = .ok r.shrink ∧ r.coeffs.length ≤ d ∧ r.sem = p.sem %ₘ m.sem := by
  have := nontrivial_bitVec hK
  have hm := h.monic hK
  obtain ⟨init, rfl, rfl⟩ := h.degree_lt
  obtain ⟨q, r, e, hr, hs⟩ := longDivision_spec hK p init 1 (by
    rw [show (1 : BitVec K) = 1#K from rfl, BitVec.toNat_ofNat, Nat.mod_eq_of_lt (Nat.one_lt_two_pow (by omega))])
  refine ⟨r, by unfold rem; rw [e], hr, ?_⟩
  refine ((div_modByMonic_unique q.sem r.sem hm.1 ⟨?_, ?_⟩).2).symm
  · rw [hs]; ring
  · rw [degree_eq_natDegree hm.1.ne_zero, hm.2]
    exact lt_of_lt_of_le (semL_degree_lt r.coeffs) (by exact_mod_cast hr)

end Poly

end Verif
