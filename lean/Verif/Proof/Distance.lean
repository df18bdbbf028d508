import Verif.Spec.Iris
import Verif.Spec.Sharing
import Verif.Props.Plain
import Mathlib.Data.BitVec

/-! # The arithmetic of the masked Hamming distance and of the threshold test -/

namespace Verif

variable {K : Nat}

/-- 0/1 encoding of one bit. -/
def enc (K : Nat) (b : Bool) : BitVec K := if b then 1 else 0

theorem maskedSum_cons (m : Bool) (ms : List Bool) (x : BitVec K) (xs : List (BitVec K)) :
    maskedSum (m :: ms) (x :: xs) = (if m then x else 0) + maskedSum ms xs := by
  simp [maskedSum]

theorem maskedSum_nil (ms : List Bool) : maskedSum ms ([] : List (BitVec K)) = 0 := by simp [maskedSum]

/-- Distance of two bit lists under a mask. -/
def distList : List Bool → List Bool → List Bool → Nat
  | m :: ms, a :: as, b :: bs => (if (a != b) && m then 1 else 0) + distList ms as bs
  | _, _, _ => 0

theorem distance_eq (ms as bs : List Bool) (h1 : as.length = ms.length) (h2 : bs.length = ms.length) :
    maskedSum ms (as.map (enc K)) + maskedSum ms (bs.map (enc K))
        - maskedSum ms (List.zipWith (· * ·) (as.map (enc K)) (bs.map (enc K))) * BitVec.ofNat K 2
      = BitVec.ofNat K (distList ms as bs) := by
  induction ms generalizing as bs with
  | nil =>
    have := List.eq_nil_of_length_eq_zero h1; subst this
    have := List.eq_nil_of_length_eq_zero h2; subst this
    simp [maskedSum, distList]
  | cons m ms ih =>
    cases as with
    | nil => simp at h1
    | cons a as =>
      cases bs with
      | nil => simp at h2
      | cons b bs =>
        have ih := ih as bs (by simpa using h1) (by simpa using h2)
        simp only [List.map_cons, List.zipWith_cons_cons, maskedSum_cons, distList]
        have h : BitVec.ofNat K ((if ((a != b) && m) = true then 1 else 0) + distList ms as bs)
            = (if ((a != b) && m) = true then 1 else 0) + BitVec.ofNat K (distList ms as bs) := by
          rw [BitVec.ofNat_add]; split <;> rfl
        rw [h, ← ih]
        have h2 : (BitVec.ofNat K 2) = 1 + 1 := by
          rw [show (2 : Nat) = 1 + 1 from rfl, BitVec.ofNat_add]; rfl
        rw [h2]
        generalize maskedSum ms (as.map (enc K)) = A
        generalize maskedSum ms (bs.map (enc K)) = B
        generalize maskedSum ms (List.zipWith (· * ·) (as.map (enc K)) (bs.map (enc K))) = D
        generalize hone : (1 : BitVec K) = o
        have hoo : o * o = o := by rw [← hone]; exact one_mul 1
        cases m <;> cases a <;> cases b <;> simp only [enc, bne_self_eq_false, Bool.and_true, Bool.and_false,
          Bool.true_bne, Bool.false_bne, Bool.not_true, Bool.not_false, if_true, if_false, hone, hoo,
          Bool.false_eq_true, reduceIte] <;> try ring1
        have e : o + A + (o + B) - (o + D) * (o + o) = (o - o * o) + (o - o * o) + A + B - D * (o + o) := by ring
        rw [e, hoo]; ring

theorem distList_le (ms as bs : List Bool) : distList ms as bs ≤ ms.length := by
  induction ms generalizing as bs with
  | nil => simp [distList]
  | cons m ms ih =>
    cases as with
    | nil => simp [distList]
    | cons a as => cases bs with
      | nil => simp [distList]
      | cons b bs =>
        have := ih as bs
        simp only [distList, List.length_cons]
        split <;> omega

theorem distList_map {X : Type} (l : List X) (f g h : X → Bool) :
    distList (l.map f) (l.map g) (l.map h) = l.countP fun x => (g x != h x) && f x := by
  induction l with
  | nil => rfl
  | cons x l ih =>
    simp only [List.map_cons, distList, ih, List.countP_cons]
    split <;> omega

/-- The bit lists of iris codes give the specification's distance. -/
theorem distList_codes (a b : IrisCode) :
    distList (IrisCodeArray.bitList (a.mask.and b.mask)) (IrisCodeArray.bitList b.code) (IrisCodeArray.bitList a.code)
      = hammingDistance a b := by
  unfold IrisCodeArray.bitList
  rw [List.ofFn_eq_map, List.ofFn_eq_map, List.ofFn_eq_map, distList_map]
  unfold hammingDistance
  congr 1
  funext i
  rw [(C17_bitwise _ _ i).1, bne_comm]

theorem hammingDistance_le (a b : IrisCode) : hammingDistance a b ≤ 12800 := by
  unfold hammingDistance
  calc _ ≤ (List.finRange 12800).length := List.countP_le_length
    _ = 12800 := by rw [List.length_finRange]

/-- Sign of a difference of two small numbers: no wrap-around can flip the comparison. -/
theorem msb_sub_lt (hK : 15 ≤ K) (d t : Nat) (hd : d ≤ 12800) (ht : t ≤ 12800) :
    (BitVec.ofNat K d - BitVec.ofNat K t).msb = decide (d < t) := by
  have h14 : (2 : Nat) ^ 14 ≤ 2 ^ (K - 1) := Nat.pow_le_pow_right (by omega) (by omega)
  have hp : (2 : Nat) ^ K = 2 * 2 ^ (K - 1) := by
    rw [← Nat.pow_succ']; congr 1; omega
  rw [BitVec.msb_eq_decide, BitVec.toNat_sub, BitVec.toNat_ofNat, BitVec.toNat_ofNat]
  rw [Nat.mod_eq_of_lt (show d < 2 ^ K by omega), Nat.mod_eq_of_lt (show t < 2 ^ K by omega)]
  by_cases h : d < t
  · rw [Nat.mod_eq_of_lt (by omega)]
    simp only [h, decide_true, decide_eq_true_eq]; omega
  · rw [show 2 ^ K - t + d = (d - t) + 2 ^ K by omega, Nat.add_mod_right, Nat.mod_eq_of_lt (by omega)]
    simp only [h, decide_false, decide_eq_false_iff_not]; omega

end Verif
