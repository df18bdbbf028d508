import Verif.Model.Sharable
import Verif.Model.Spdz
import Mathlib.Tactic.Ring
import Mathlib.Tactic.Positivity
import Mathlib.Tactic.Linarith

/-! # C72: computing with shares of signed numbers -/

namespace Verif

variable {K : Nat}

theorem fromShare_eq (x : BitVec K) : fromShare x = x.toInt := by
  unfold fromShare
  rw [BitVec.toInt_eq_toNat_cond]
  split_ifs <;> simp

theorem inRange_fromShare (hK : 0 < K) (x : BitVec K) : InRange K (fromShare x) := by
  rw [fromShare_eq]
  obtain ⟨n, rfl⟩ := Nat.exists_eq_succ_of_ne_zero hK.ne'
  exact ⟨by simpa using BitVec.le_toInt x, by simpa using BitVec.toInt_lt (x := x)⟩

theorem wrapS_of_inRange (hK : 0 < K) {x : Int} (h : InRange K x) : wrapS K x = x := by
  obtain ⟨n, rfl⟩ := Nat.exists_eq_succ_of_ne_zero hK.ne'
  obtain ⟨h1, h2⟩ := h
  simp only [Nat.succ_eq_add_one, Nat.add_sub_cancel] at h1 h2
  unfold wrapS
  apply Int.bmod_eq_of_le
  · have : ((2 ^ (n + 1) : Nat) : Int) / 2 = 2 ^ n := by push_cast; rw [pow_succ]; omega
    omega
  · have : (((2 ^ (n + 1) : Nat) : Int) + 1) / 2 = 2 ^ n := by push_cast; rw [pow_succ]; omega
    omega

/-- The values of a signed type and the ring elements correspond one to one, also in vectors. -/
theorem C72_roundtrip (hK : 0 < K) :
    (∀ x, InRange K x → fromShare (toShare K x) = x) ∧
    (∀ b : BitVec K, toShare K (fromShare b) = b ∧ InRange K (fromShare b)) ∧
    (∀ xs : List Int, (∀ x ∈ xs, InRange K x) → sliceFromShare (sliceToShare K xs) = xs) ∧
    ∀ bs : List (BitVec K), sliceToShare K (sliceFromShare bs) = bs := by
  have h1 : ∀ x, InRange K x → fromShare (toShare K x) = x := by
    intro x hx
    rw [fromShare_eq, toShare, BitVec.toInt_ofInt]
    exact wrapS_of_inRange hK hx
  have h2 : ∀ b : BitVec K, toShare K (fromShare b) = b := by
    intro b; rw [fromShare_eq, toShare, BitVec.ofInt_toInt]
  refine ⟨h1, fun b => ⟨h2 b, inRange_fromShare hK b⟩, fun xs hx => ?_, fun bs => ?_⟩
  · simp only [sliceFromShare, sliceToShare, List.map_map]
    conv_rhs => rw [← List.map_id xs]
    exact List.map_congr_left fun x hm => h1 x (hx x hm)
  · simp only [sliceFromShare, sliceToShare, List.map_map]
    conv_rhs => rw [← List.map_id bs]
    exact List.map_congr_left fun x _ => h2 x

/-- The ring operations compute with the signed values, wrapping as Rust's operations do, and exactly if the result is in the
range. -/
theorem C72_arithmetic (hK : 0 < K) (x y : Int) :
    (fromShare (toShare K x + toShare K y) = wrapS K (x + y) ∧ (InRange K (x + y) → fromShare (toShare K x + toShare K y) = x + y)) ∧
    (fromShare (toShare K x - toShare K y) = wrapS K (x - y) ∧ (InRange K (x - y) → fromShare (toShare K x - toShare K y) = x - y)) ∧
    (fromShare (toShare K x * toShare K y) = wrapS K (x * y) ∧ (InRange K (x * y) → fromShare (toShare K x * toShare K y) = x * y)) ∧
    (fromShare (-toShare K x) = wrapS K (-x) ∧ (InRange K (-x) → fromShare (-toShare K x) = -x)) := by
  have key : ∀ (b : BitVec K) (z : Int), b = toShare K z → fromShare b = wrapS K z ∧ (InRange K z → fromShare b = z) := by
    rintro b z rfl
    have : fromShare (toShare K z) = wrapS K z := by rw [fromShare_eq, toShare, BitVec.toInt_ofInt]; rfl
    exact ⟨this, fun h => by rw [this, wrapS_of_inRange hK h]⟩
  refine ⟨key _ _ ?_, key _ _ ?_, key _ _ ?_, key _ _ ?_⟩
  · exact (BitVec.ofInt_add ..).symm
  · simp only [toShare]
    rw [Int.sub_eq_add_neg, BitVec.ofInt_add, BitVec.ofInt_neg, BitVec.sub_eq_add_neg]
  · exact (BitVec.ofInt_mul ..).symm
  · exact (BitVec.ofInt_neg ..).symm

/-- The top bit, on which all comparisons rest, is the sign. -/
theorem C72_sign (hK : 0 < K) (x : Int) (hx : InRange K x) : getMsb (toShare K x) = 1 ↔ x < 0 := by
  have e := (C72_roundtrip hK).1 x hx
  have hm : getMsb (toShare K x) = 1 ↔ (toShare K x).msb = true := by
    have h1 : (toShare K x).msb = decide (2 ^ (K - 1) ≤ (toShare K x).toNat) := BitVec.msb_eq_decide _
    have hlt := (toShare K x).isLt
    have hp : 2 ^ K = 2 * 2 ^ (K - 1) := by rw [← pow_succ']; congr 1; omega
    have hpos := Nat.two_pow_pos (K - 1)
    rw [h1, decide_eq_true_iff]
    have h2 : (toShare K x >>> (K - 1) == 1) = decide (2 ^ (K - 1) ≤ (toShare K x).toNat) := by
      rw [Bool.eq_iff_iff, beq_iff_eq, decide_eq_true_iff, ← BitVec.toNat_inj, BitVec.toNat_ushiftRight, Nat.shiftRight_eq_div_pow]
      have h1' : (1 : BitVec K).toNat = 1 := by
        have : 1 < 2 ^ K := Nat.one_lt_two_pow hK.ne'
        simp [Nat.mod_eq_of_lt this]
      rw [h1']
      constructor
      · intro h
        by_contra hc
        rw [Nat.div_eq_of_lt (by omega)] at h
        omega
      · intro h
        refine Nat.div_eq_of_lt_le (by omega) (by omega)
    rw [getMsb, h2, bitOf]
    by_cases h : 2 ^ (K - 1) ≤ (toShare K x).toNat <;> simp [h]
  rw [hm]
  rw [fromShare_eq] at e
  rw [BitVec.msb_eq_toInt, decide_eq_true_iff, e]

theorem toShare_bit (x : Int) {i : Nat} (hi : i < K) : (toShare K x).getLsbD i = decide (x / 2 ^ i % 2 = 1) := by
  have hp : (0 : Int) < 2 ^ K := by positivity
  have hpi : (0 : Int) < 2 ^ i := by positivity
  have hn : 0 ≤ x % 2 ^ K := Int.emod_nonneg _ (by omega)
  have e : x % 2 ^ K / 2 ^ i % 2 = x / 2 ^ i % 2 := by
    have hk : (2 : Int) ^ K = 2 ^ i * (2 * 2 ^ (K - i - 1)) := by
      rw [← pow_succ', ← pow_add]; congr 1; omega
    have h1 : x % 2 ^ K = x + 2 ^ i * (2 * -(2 ^ (K - i - 1) * (x / 2 ^ K))) := by
      rw [Int.emod_def]
      nth_rewrite 1 [hk]
      ring
    rw [h1, Int.add_mul_ediv_left _ _ (by omega), Int.add_mul_emod_self_left]
  rw [toShare, BitVec.getLsbD, BitVec.toNat_ofInt, Nat.testBit_eq_decide_div_mod_eq, decide_eq_decide, ← e]
  push_cast
  obtain ⟨n, hn'⟩ := Int.eq_ofNat_of_zero_le hn
  rw [hn']
  simp only [Int.toNat_natCast]
  constructor
  · intro h; exact_mod_cast h
  · intro h; exact_mod_cast h

/-- Operations between a ring element and a signed number are the operations on the signed values. -/
theorem C72_mixed (hK : 0 < K) (b : BitVec K) (x y : Int) (hx : InRange K x) :
    mulRS (toShare K y) x = toShare K (y * x) ∧ mulSR x b = fromShare (toShare K x * b) ∧
    (∀ i < K, (andRS b x).getLsbD i = (b.getLsbD i && decide (x / 2 ^ i % 2 = 1))) ∧ InRange K (mulSR x b) := by
  have h1 : mulSR x b = fromShare (toShare K x * b) := by
    have := ((C72_arithmetic hK x (fromShare b)).2.2.1).1
    rw [((C72_roundtrip hK).2.1 b).1] at this
    rw [this, mulSR]
  exact ⟨(BitVec.ofInt_mul ..).symm, h1,
    fun i hi => by rw [andRS, BitVec.getLsbD_and, toShare_bit x hi], h1 ▸ inRange_fromShare hK _⟩

/-- The arithmetic shift divides by the power of two and rounds down; it never overflows. -/
theorem C72_arithmetic_shr (hK : 0 < K) (x : Int) (hx : InRange K x) (n : Nat) :
    fromShare (arithShr (toShare K x) n) = x / 2 ^ (n % K) ∧ arithShr (toShare K x) n = (toShare K x).sshiftRight (n % K) := by
  have e := (C72_roundtrip hK).1 x hx
  have hr : InRange K (x / 2 ^ (n % K)) := by
    obtain ⟨h1, h2⟩ := hx
    have hp : (1 : Int) ≤ 2 ^ (n % K) := by exact_mod_cast Nat.one_le_two_pow
    have hq : (0 : Int) ≤ 2 ^ (K - 1) := by positivity
    constructor
    · rw [Int.le_ediv_iff_mul_le (by omega)]
      nlinarith
    · rw [Int.ediv_lt_iff_lt_mul (by omega)]
      nlinarith
  constructor
  · rw [arithShr, e, shrS, (C72_roundtrip hK).1 _ hr]
  · apply BitVec.eq_of_toInt_eq
    rw [BitVec.toInt_sshiftRight, ← fromShare_eq, ← fromShare_eq, arithShr, e, shrS, (C72_roundtrip hK).1 _ hr,
      Int.shiftRight_eq_div_pow]
    push_cast
    rfl

/-- The larger ring used for verification: converting up and down again gives the value back, and computing there and
converting down is computing here. -/
theorem C72_verification (hK : 0 < K) (V : Nat) (hV : K ≤ V) (x y : Int) (hx : InRange K x) :
    fromVerifS K (toVerifS V x) = x ∧ toVerifS V x = toVerifShare true V (toShare K x) ∧
    fromVerifS K (toVerifS V x * toVerifS V y) = wrapS K (x * y) ∧ fromVerifS K (toVerifS V x + toVerifS V y) = wrapS K (x + y) := by
  have key : ∀ z : Int, fromVerifS K (toVerifS V z) = wrapS K z := by
    intro z
    unfold fromVerifS toVerifS wrapS
    rw [BitVec.toNat_ofInt]
    have hd : ((2 ^ K : Nat) : Int) ∣ ((2 ^ V : Nat) : Int) := by
      exact_mod_cast pow_dvd_pow 2 hV
    have hp : (0 : Int) < ((2 ^ V : Nat) : Int) := by exact_mod_cast Nat.two_pow_pos V
    rw [Int.toNat_of_nonneg (Int.emod_nonneg _ (by omega))]
    unfold Int.bmod
    rw [Int.emod_emod_of_dvd z hd]
  refine ⟨by rw [key, wrapS_of_inRange hK hx], ?_, ?_, ?_⟩
  · rw [toVerifShare, if_pos rfl, toVerifS]
    have e := (C72_roundtrip hK).1 x hx
    rw [fromShare_eq] at e
    apply BitVec.eq_of_toInt_eq
    rw [BitVec.toInt_signExtend_of_le hV, e, BitVec.toInt_ofInt]
    refine wrapS_of_inRange (K := V) (by omega) ⟨le_trans ?_ hx.1, lt_of_lt_of_le hx.2 ?_⟩
    · have : (2 : Int) ^ (K - 1) ≤ 2 ^ (V - 1) := pow_le_pow_right₀ (by norm_num) (by omega)
      omega
    · exact pow_le_pow_right₀ (by norm_num) (by omega)
  · rw [← key, toVerifS, toVerifS, toVerifS, BitVec.ofInt_mul]
  · rw [← key, toVerifS, toVerifS, toVerifS, BitVec.ofInt_add]

/-- Division of ring elements: the quotient of the unsigned values, and a panic exactly for zero; between bits the dividend. -/
theorem C72_floor_div (x y : BitVec K) :
    (y = 0 → floorDiv x y = .error .panic) ∧ (y ≠ 0 → ∃ q, floorDiv x y = .ok q ∧ q.toNat = x.toNat / y.toNat) ∧
    ∀ a b : BitVec 1, b ≠ 0 → floorDiv a b = .ok a := by
  refine ⟨fun h => by simp [floorDiv, h], fun h => ⟨x / y, by rw [floorDiv, if_neg h], BitVec.toNat_udiv⟩, by decide⟩

example : InRange 16 (-12345) ∧ fromShare (toShare 16 (-12345)) = -12345 ∧ fromShare (toShare 16 300 * toShare 16 (-200)) = 5536 := by
  refine ⟨by unfold InRange; decide, by decide, by decide⟩

example : fromShare (arithShr (toShare 8 (-7)) 1) = -4 ∧ fromShare (arithShr (toShare 8 (-7)) 9) = -4 := by decide

end Verif
