import Verif.Spec.Iris
import Mathlib.Tactic.Linarith
import Mathlib.Tactic.Ring
import Mathlib.Algebra.BigOperators.Group.List.Basic

/-! # C17–C19: the plaintext reference -/

namespace Verif

open IrisCodeArray

private theorem and_one_beq (w : BitVec 64) : ((w &&& 1) == 1) = w.getLsbD 0 := by
  have : w &&& 1 = (BitVec.ofBool (w.getLsbD 0)).setWidth 64 := by
    apply BitVec.eq_of_getLsbD_eq
    intro i hi
    by_cases h : i = 0
    · subst h; simp
    · simp [BitVec.getLsbD_one, h]
  rw [this]
  cases w.getLsbD 0 <;> rfl

private theorem shr_and_one (w : BitVec 64) (k : Nat) : (((w >>> k) &&& 1) == 1) = w.getLsbD k := by
  rw [and_one_beq]; simp

/-- `get_bit` returns the addressed bit; indices from 12800 on panic. -/
theorem C17_get_bit (c : IrisCodeArray) (i : Fin 12800) : c.getBit i.val = .ok (c.bitAt i) := by
  have h : i.val / 64 < 200 := by omega
  simp only [IrisCodeArray.getBit, h, dif_pos, shr_and_one, IrisCodeArray.bitAt]

theorem C17_get_bit_panics (c : IrisCodeArray) (i : Nat) (h : 12800 ≤ i) : c.getBit i = .error .panic := by
  have h : ¬ i / 64 < 200 := by omega
  simp [IrisCodeArray.getBit, h]

private theorem bitAt_set (c : IrisCodeArray) (i j : Fin 12800) (w : BitVec 64) (h : i.val / 64 < 200) :
    IrisCodeArray.bitAt (c.set (i.val / 64) w) j
      = if i.val / 64 = j.val / 64 then w.getLsbD (j.val % 64) else c.bitAt j := by
  simp only [IrisCodeArray.bitAt, Vector.getElem_set]
  split <;> rfl

private theorem oneShl (k j : Nat) (hk : k < 64) : (1#64 <<< k).getLsbD j = decide (j = k) := by
  by_cases h : j = k
  · subst h; simp [hk]
  · simp only [BitVec.getLsbD_shiftLeft, BitVec.getLsbD_one, h, decide_false]
    by_cases h2 : j < k
    · simp [h2]
    · have : j - k ≠ 0 := by omega
      simp [this]

private theorem idx_eq {i j : Fin 12800} (h1 : i.val / 64 = j.val / 64) :
    (j.val % 64 = i.val % 64) ↔ j = i := by
  constructor
  · intro h; apply Fin.ext; omega
  · intro h; rw [h]

/-- `set_bit(i, v)` makes bit `i` equal to `v` and changes no other bit. -/
theorem C17_set_bit (c : IrisCodeArray) (i : Fin 12800) (v : Bool) :
    ∃ c', c.setBit i.val v = .ok c' ∧ ∀ j, c'.bitAt j = if j = i then v else c.bitAt j := by
  have h : i.val / 64 < 200 := by omega
  simp only [IrisCodeArray.setBit, h, dif_pos]
  cases v <;> refine ⟨_, rfl, fun j => ?_⟩ <;> rw [bitAt_set _ _ _ _ h] <;> split
  · rename_i hw
    have hw' : (c[i.val / 64]'h).getLsbD (j.val % 64) = c.bitAt j := by
      simp only [IrisCodeArray.bitAt, hw]
    simp only [BitVec.getLsbD_and, BitVec.getLsbD_not, oneShl _ _ (Nat.mod_lt _ (by decide : 64 > 0)), hw',
      idx_eq hw, Nat.mod_lt j.val (by decide : 64 > 0), decide_true, Bool.true_and]
    by_cases hji : j = i <;> simp [hji]
  · rename_i hw
    rw [if_neg (by rintro rfl; exact hw rfl)]
  · rename_i hw
    have hw' : (c[i.val / 64]'h).getLsbD (j.val % 64) = c.bitAt j := by
      simp only [IrisCodeArray.bitAt, hw]
    simp only [BitVec.getLsbD_or, oneShl _ _ (Nat.mod_lt _ (by decide : 64 > 0)), hw', idx_eq hw]
    by_cases hji : j = i <;> simp [hji]
  · rename_i hw
    rw [if_neg (by rintro rfl; exact hw rfl)]

/-- `flip_bit(i)` negates bit `i` and changes no other bit. -/
theorem C17_flip_bit (c : IrisCodeArray) (i : Fin 12800) :
    ∃ c', c.flipBit i.val = .ok c' ∧ ∀ j, c'.bitAt j = if j = i then !c.bitAt j else c.bitAt j := by
  have h : i.val / 64 < 200 := by omega
  simp only [IrisCodeArray.flipBit, h, dif_pos]
  refine ⟨_, rfl, fun j => ?_⟩
  rw [bitAt_set _ _ _ _ h]
  split
  · rename_i hw
    have hw' : (c[i.val / 64]'h).getLsbD (j.val % 64) = c.bitAt j := by
      simp only [IrisCodeArray.bitAt, hw]
    simp only [BitVec.getLsbD_xor, oneShl _ _ (Nat.mod_lt _ (by decide : 64 > 0)), hw', idx_eq hw]
    by_cases hji : j = i <;> simp [hji]
  · rename_i hw
    rw [if_neg (by rintro rfl; exact hw rfl)]

/-- `&` and `^` act on each of the 12800 bits; `ZERO` and `ONES` are the constant arrays. -/
theorem C17_bitwise (a b : IrisCodeArray) (i : Fin 12800) :
    (a.and b).bitAt i = (a.bitAt i && b.bitAt i) ∧ (a.xor b).bitAt i = (a.bitAt i ^^ b.bitAt i) ∧
    zero.bitAt i = false ∧ ones.bitAt i = true := by
  refine ⟨?_, ?_, ?_, ?_⟩
  · simp [IrisCodeArray.and, IrisCodeArray.bitAt]
  · simp [IrisCodeArray.xor, IrisCodeArray.bitAt]
  · simp [zero, IrisCodeArray.bitAt]
  · simp only [ones, IrisCodeArray.bitAt, Vector.getElem_replicate, BitVec.getLsbD_allOnes,
      Nat.mod_lt i.val (by decide : 64 > 0), decide_true]

/-- Two arrays with the same 12800 bits are equal: `bitAt` describes the whole state. -/
theorem C17_ext (a b : IrisCodeArray) (h : ∀ i, a.bitAt i = b.bitAt i) : a = b := by
  apply Vector.ext
  intro w hw
  apply BitVec.eq_of_getLsbD_eq
  intro k hk
  have := h ⟨w * 64 + k, by omega⟩
  simp only [IrisCodeArray.bitAt] at this
  have e1 : (w * 64 + k) / 64 = w := by omega
  have e2 : (w * 64 + k) % 64 = k := by omega
  simp only [e1, e2] at this
  exact this

private theorem collect_eq (c : IrisCodeArray) (n : Nat) :
    ∀ (i : Nat) (cur : BitVec 64), i ≤ 12800 → 12800 - i < n →
      (∀ (_ : i % 64 ≠ 0) (h : i / 64 < 200), cur = c[i / 64] >>> (i % 64)) →
      Bits.collect n ⟨c, cur, i⟩ = (List.ofFn c.bitAt).drop i := by
  induction n with
  | zero => intro i cur _ h; omega
  | succ n ih =>
    intro i cur hi hn hcur
    by_cases he : i ≥ 12800
    · rw [List.drop_eq_nil_of_le (by rw [List.length_ofFn]; exact he)]
      simp [Bits.collect, Bits.next, irisCodeSize, he]
    · have hlt : i < 12800 := by omega
      have hw : i / 64 < 200 := by omega
      have hcur' : (if i % 64 = 0 then c[i / 64]! else cur) = c[i / 64] >>> (i % 64) := by
        split
        · rename_i h0
          rw [h0, BitVec.ushiftRight_zero, getElem!_pos c (i/64) hw]
        · exact hcur ‹_› hw
      simp only [Bits.collect, Bits.next, irisCodeSize, he, if_false, hcur']
      have hd : (List.ofFn c.bitAt).drop i = c.bitAt ⟨i, hlt⟩ :: (List.ofFn c.bitAt).drop (i + 1) := by
        rw [List.drop_eq_getElem_cons (by rw [List.length_ofFn]; exact hlt), List.getElem_ofFn]
      rw [hd, ih (i + 1) _ (by omega) (by omega)]
      · congr 1
        rw [and_one_beq]
        simp only [IrisCodeArray.bitAt, BitVec.getLsbD_ushiftRight, Nat.add_zero]
      · intro h0 h1
        have e1 : (i + 1) / 64 = i / 64 := by omega
        have e2 : (i + 1) % 64 = i % 64 + 1 := by omega
        simp only [e1, e2]
        apply BitVec.eq_of_getLsbD_eq
        intro k _
        simp only [BitVec.getLsbD_ushiftRight]
        congr 1
        omega

/-- `bits()` yields exactly the 12800 bits, in index order, and then ends. -/
theorem C17_bits (c : IrisCodeArray) : c.bits = c.bitList := by
  rw [IrisCodeArray.bits, IrisCodeArray.bitList,
    collect_eq c (irisCodeSize + 1) 0 0 (by omega) (by simp [irisCodeSize]) (by intro h; simp at h),
    List.drop_zero]

private theorem ofFn_words (c : IrisCodeArray) :
    List.ofFn c.bitAt = (List.ofFn (fun w : Fin 200 => List.ofFn (fun k : Fin 64 => (c[w.val]).getLsbD k.val))).flatten := by
  refine (List.ofFn_mul (m := 200) (n := 64) c.bitAt).trans ?_
  congr 2
  funext w
  congr 1
  funext k
  simp only [IrisCodeArray.bitAt]
  have e1 : (w.val * 64 + k.val) / 64 = w.val := by omega
  have e2 : (w.val * 64 + k.val) % 64 = k.val := by omega
  simp only [e1, e2]

private theorem popcount_eq (w : BitVec 64) :
    popcount w = (List.ofFn (fun k : Fin 64 => w.getLsbD k.val)).count true := by
  unfold popcount
  rw [List.count_eq_countP]
  have : List.ofFn (fun k : Fin 64 => w.getLsbD k.val) = (List.range 64).map w.getLsbD := by
    apply List.ext_getElem
    · simp only [List.length_ofFn, List.length_map, List.length_range]
    · intro n h1 h2; simp only [List.getElem_ofFn, List.getElem_map, List.getElem_range]
  rw [this, List.countP_map]
  congr 1
  funext i; simp

/-- `count_ones` is the number of positions holding `true`. -/
theorem C17_count_ones (c : IrisCodeArray) : c.countOnes = c.bitList.count true := by
  unfold IrisCodeArray.countOnes IrisCodeArray.bitList
  rw [ofFn_words, List.count_flatten]
  congr 1
  have : c.toList = List.ofFn (fun w : Fin 200 => c[w.val]) := by
    apply List.ext_getElem
    · simp only [List.length_ofFn, Vector.length_toList]
    · intro n h1 h2; simp only [List.getElem_ofFn, Vector.getElem_toList]
  rw [this, List.map_ofFn, List.map_ofFn]
  congr 1
  funext w
  simp only [Function.comp_apply, popcount_eq]

/-! ## C18: the `f64` thresholds -/

/-- All mask weights `113 a + b`, i.e. the whole domain `0..12800` of the computation. -/
private theorem threshold_table : ∀ a < 114, ∀ b < 113, a * 113 + b ≤ 12800 →
    matchThreshold (a * 113 + b) = 34 * (a * 113 + b) / 100 := by decide +kernel

/-- For every mask weight, the `f64` computation gives exactly `⌊34 n / 100⌋`. -/
theorem C18_match_threshold (n : Nat) (h : n ≤ 12800) : matchThreshold n = 34 * n / 100 := by
  have h1 : n = n / 113 * 113 + n % 113 := by omega
  have := threshold_table (n / 113) (by omega) (n % 113) (by omega) (by omega)
  rwa [← h1] at this

/-- `MASK_THRESHOLD` is 8960 = 70% of 12800 (although the `f64` literal `0.70` is below 0.7). -/
theorem C18_mask_threshold : maskThreshold = 8960 ∧ 100 * 8960 = 70 * 12800 ∧ 10 * ratio70 < 7 * 2 ^ 53 := by
  refine ⟨by decide +kernel, by norm_num, by decide +kernel⟩

/-- The two constants are the correctly rounded `f64` values of 0.34 and 0.70: 53-bit numerators at
distance at most half a unit in the last place. -/
theorem C18_literals :
    (2 ^ 52 ≤ ratio34 ∧ ratio34 < 2 ^ 53 ∧ 2 * (100 * ratio34 - 34 * 2 ^ 54) ≤ 100 ∧ 34 * 2 ^ 54 ≤ 100 * ratio34) ∧
    (2 ^ 52 ≤ ratio70 ∧ ratio70 < 2 ^ 53 ∧ 2 * (70 * 2 ^ 53 - 100 * ratio70) ≤ 100 ∧ 100 * ratio70 ≤ 70 * 2 ^ 53) := by
  decide +kernel

/-- The threshold grows with the weight. -/
theorem C18_monotone (m n : Nat) (h : m ≤ n) (hn : n ≤ 12800) : matchThreshold m ≤ matchThreshold n := by
  rw [C18_match_threshold m (by omega), C18_match_threshold n hn]
  apply Nat.div_le_div_right; omega

example : matchThreshold 12800 = 4352 ∧ matchThreshold 8960 = 3046 ∧ matchThreshold 12750 = 4335 := by
  decide +kernel

/-! ## C19: the plaintext matcher -/

theorem count_bitList (c : IrisCodeArray) :
    c.bitList.count true = (List.finRange 12800).countP c.bitAt := by
  unfold IrisCodeArray.bitList
  rw [List.ofFn_eq_map, List.count_eq_countP, List.countP_map]
  congr 1
  funext i; simp

theorem countOnes_masks (a b : IrisCode) : (a.mask.and b.mask).countOnes = commonBits a b := by
  rw [C17_count_ones, count_bitList]
  unfold commonBits
  congr 1
  funext i
  rw [(C17_bitwise _ _ i).1]

theorem countOnes_codes (a b : IrisCode) :
    ((a.code.xor b.code).and (a.mask.and b.mask)).countOnes = hammingDistance a b := by
  rw [C17_count_ones, count_bitList]
  unfold hammingDistance
  congr 1
  funext i
  rw [(C17_bitwise _ _ i).1, (C17_bitwise _ _ i).1, (C17_bitwise _ _ i).2.1]

theorem commonBits_le (a b : IrisCode) : commonBits a b ≤ 12800 := by
  unfold commonBits
  calc _ ≤ (List.finRange 12800).length := List.countP_le_length
    _ = 12800 := by simp

/-- With at least 8960 common valid bits, `is_close` holds exactly if the distance is below
`⌊34% of the common valid bits⌋`; otherwise it panics. -/
theorem C19_is_close (a b : IrisCode) :
    (8960 ≤ commonBits a b →
      a.isClose b = .ok (decide (hammingDistance a b < 34 * commonBits a b / 100))) ∧
    (commonBits a b < 8960 → a.isClose b = .error .panic) := by
  unfold IrisCode.isClose
  simp only [countOnes_masks, countOnes_codes, C18_mask_threshold.1,
    C18_match_threshold _ (commonBits_le a b)]
  constructor
  · intro h; rw [if_neg (by omega)]
  · intro h; rw [if_pos h]

/-- In particular a match means strictly less than 34% of the common bits differ. -/
theorem C19_is_close_ratio (a b : IrisCode) (h : a.isClose b = .ok true) :
    100 * hammingDistance a b < 34 * commonBits a b ∧ 8960 ≤ commonBits a b := by
  obtain ⟨h1, h2⟩ := C19_is_close a b
  by_cases hc : 8960 ≤ commonBits a b
  · rw [h1 hc] at h
    simp only [Except.ok.injEq, decide_eq_true_eq] at h
    exact ⟨by omega, hc⟩
  · rw [h2 (by omega)] at h; cases h

theorem C19_symmetric (a b : IrisCode) : a.isClose b = b.isClose a := by
  unfold IrisCode.isClose
  have h1 : a.mask.and b.mask = b.mask.and a.mask := by
    apply C17_ext; intro i; rw [(C17_bitwise _ _ i).1, (C17_bitwise _ _ i).1, Bool.and_comm]
  have h2 : a.code.xor b.code = b.code.xor a.code := by
    apply C17_ext; intro i; rw [(C17_bitwise _ _ i).2.1, (C17_bitwise _ _ i).2.1, Bool.xor_comm]
  rw [h1, h2]

/-- An iris with enough valid bits is close to itself. -/
theorem C19_reflexive (a : IrisCode) (h : 8960 ≤ commonBits a a) : a.isClose a = .ok true := by
  rw [(C19_is_close a a).1 h]
  have : hammingDistance a a = 0 := by
    unfold hammingDistance
    rw [List.countP_eq_zero]; intro i _; simp
  rw [this, decide_eq_true (by omega)]

/-- The matching loop of the reference program is the OR over the database. -/
theorem C19_find_match (q : IrisCode) (db : List IrisCode) (h : ∀ c ∈ db, 8960 ≤ commonBits c q) :
    findMatch q db false
      = .ok (db.any fun c => decide (hammingDistance c q < 34 * commonBits c q / 100)) := by
  have key : ∀ (db : List IrisCode) (acc : Bool), (∀ c ∈ db, 8960 ≤ commonBits c q) →
      findMatch q db acc
      = .ok (acc || db.any fun c => decide (hammingDistance c q < 34 * commonBits c q / 100)) := by
    intro db
    induction db with
    | nil => intro acc _; simp [findMatch]
    | cons c cs ih =>
      intro acc h
      rw [findMatch, (C19_is_close c q).1 (h c (by simp))]
      show findMatch q cs _ = _
      rw [ih _ (fun c hc => h c (by simp [hc]))]
      simp [Bool.or_assoc]
  simpa using key db false h

/-- Non-vacuity: full masks give 12800 common bits. -/
example : commonBits ⟨zero, ones⟩ ⟨zero, ones⟩ = 12800 := by
  rw [← countOnes_masks, C17_count_ones, count_bitList]
  have : ∀ i, (IrisCodeArray.and ones ones).bitAt i = true := fun i => by
    rw [(C17_bitwise _ _ i).1, (C17_bitwise zero zero i).2.2.2]; rfl
  rw [List.countP_eq_length.2 (fun i _ => this i), List.length_finRange]

end Verif
