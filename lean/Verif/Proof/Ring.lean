import Verif.Model.Ring
import Mathlib.Tactic.Ring
import Mathlib.Algebra.Order.Ring.Nat
import Mathlib.Algebra.Group.Nat.Even
import Mathlib.Data.Nat.ModEq

/-! # Lemmas on ring elements and the wire format -/

namespace Verif

/-! ## Big-endian numbers -/

@[simp] theorem beBytes_length (n v : Nat) : (beBytes n v).length = n := by
  induction n generalizing v with
  | zero => rfl
  | succ n ih => simp [beBytes, ih]

@[simp] theorem ofBe_nil : ofBe [] = 0 := rfl

theorem ofBe_append_singleton (bs : Bytes) (b : Byte) : ofBe (bs ++ [b]) = ofBe bs * 256 + b.toNat := by
  simp [ofBe]

theorem ofBe_lt (bs : Bytes) : ofBe bs < 256 ^ bs.length := by
  induction bs using List.reverseRecOn with
  | nil => simp
  | append_singleton bs b ih =>
    rw [ofBe_append_singleton, List.length_append, List.length_singleton, pow_succ]
    have := b.isLt
    omega

theorem ofBe_beBytes (n v : Nat) : ofBe (beBytes n v) = v % 256 ^ n := by
  induction n generalizing v with
  | zero => simp [beBytes, Nat.mod_one]
  | succ n ih =>
    rw [beBytes, ofBe_append_singleton, ih, BitVec.toNat_ofNat, show (2 : Nat) ^ 8 = 256 by rfl,
      pow_succ', Nat.mod_mul (x := v)]
    ring

theorem beBytes_ofBe (bs : Bytes) : beBytes bs.length (ofBe bs) = bs := by
  induction bs using List.reverseRecOn with
  | nil => rfl
  | append_singleton bs b ih =>
    rw [List.length_append, List.length_singleton, beBytes, ofBe_append_singleton]
    have hb : b.toNat < 256 := b.isLt
    rw [show (ofBe bs * 256 + b.toNat) / 256 = ofBe bs by omega, ih]
    congr 2
    apply BitVec.eq_of_toNat_eq
    simp only [BitVec.toNat_ofNat]
    omega

theorem pow_le_byteLen (K : Nat) : 2 ^ K ≤ 256 ^ byteLen K := by
  rw [show (256 : Nat) = 2 ^ 8 by rfl, ← pow_mul]
  exact Nat.pow_le_pow_right (by omega) (by unfold byteLen; omega)

@[simp] theorem toBytes_length {K : Nat} (x : BitVec K) : (toBytes x).length = byteLen K := by
  simp [toBytes]

theorem ofBe_toBytes {K : Nat} (x : BitVec K) : ofBe (toBytes x) = x.toNat := by
  rw [toBytes, ofBe_beBytes, Nat.mod_eq_of_lt]
  exact lt_of_lt_of_le x.isLt (pow_le_byteLen K)

theorem beBytes_getElem? (n v j : Nat) (h : j < n) :
    (beBytes n v)[j]? = some (BitVec.ofNat 8 (v / 256 ^ (n - 1 - j))) := by
  induction n generalizing v with
  | zero => omega
  | succ n ih =>
    rw [beBytes]
    by_cases hj : j < n
    · rw [List.getElem?_append_left (by simpa using hj), ih _ hj, Nat.div_div_eq_div_mul,
        ← pow_succ']
      congr 4; omega
    · have : j = n := by omega
      subst this
      rw [List.getElem?_append_right (by simp)]
      simp

theorem fromBytes_toBytes {K : Nat} (x : BitVec K) : fromBytes K (toBytes x) = .ok x := by
  simp [fromBytes, ofBe_toBytes, x.isLt]

theorem toBytes_inj {K : Nat} {x y : BitVec K} (h : toBytes x = toBytes y) : x = y := by
  have h1 := fromBytes_toBytes x
  rw [h, fromBytes_toBytes] at h1
  exact (Except.ok.inj h1).symm

theorem takeFromBytes_append {K : Nat} (x : BitVec K) (rest : Bytes) :
    takeFromBytes K (toBytes x ++ rest) = .ok (x, rest) := by
  have h : (toBytes x ++ rest).take (byteLen K) = toBytes x := by
    rw [List.take_append_of_le_length (by simp), List.take_of_length_le (by simp)]
  have h' : (toBytes x ++ rest).drop (byteLen K) = rest := by
    rw [← toBytes_length x, List.drop_left]
  simp [takeFromBytes, h, h', ofBe_toBytes, x.isLt]

theorem toBytes_of_fromBytes {K : Nat} {bs : Bytes} {x : BitVec K} (h : fromBytes K bs = .ok x) :
    toBytes x = bs := by
  unfold fromBytes at h
  split at h
  · cases h
  · rename_i hl
    push Not at hl
    dsimp only at h
    split at h
    · rename_i hv
      cases h
      rw [toBytes, BitVec.toNat_ofNat, Nat.mod_eq_of_lt hv, ← hl, beBytes_ofBe]
    · cases h

theorem takeFromBytes_ok {K : Nat} {bs rest : Bytes} {x : BitVec K}
    (h : takeFromBytes K bs = .ok (x, rest)) : bs = toBytes x ++ rest := by
  unfold takeFromBytes at h
  split at h
  · cases h
  · rename_i hl
    dsimp only at h
    split at h
    · rename_i hv
      cases h
      have hlen : (bs.take (byteLen K)).length = byteLen K := by simp; omega
      rw [toBytes, BitVec.toNat_ofNat, Nat.mod_eq_of_lt hv]
      have hb := beBytes_ofBe (bs.take (byteLen K))
      rw [hlen] at hb
      rw [hb]
      exact (List.take_append_drop _ _).symm
    · cases h

@[simp] theorem ringSliceToBytes_nil {K : Nat} : ringSliceToBytes ([] : List (BitVec K)) = [] := rfl
theorem ringSliceToBytes_cons {K : Nat} (x : BitVec K) (xs : List (BitVec K)) :
    ringSliceToBytes (x :: xs) = toBytes x ++ ringSliceToBytes xs := rfl

theorem ringSliceToBytes_length {K : Nat} (xs : List (BitVec K)) :
    (ringSliceToBytes xs).length = xs.length * byteLen K := by
  induction xs with
  | nil => simp
  | cons x xs ih => simp [ringSliceToBytes_cons, ih, Nat.succ_mul]; omega

theorem takeMany_append {K : Nat} (xs : List (BitVec K)) (rest : Bytes) :
    takeMany K xs.length (ringSliceToBytes xs ++ rest) = .ok (xs, rest) := by
  induction xs with
  | nil => rfl
  | cons x xs ih =>
    simp only [List.length_cons, takeMany, ringSliceToBytes_cons, List.append_assoc]
    rw [takeFromBytes_append]
    simp only [bind, Except.bind, ih, pure, Except.pure]

theorem takeMany_ok {K n : Nat} {bs rest : Bytes} {xs : List (BitVec K)}
    (h : takeMany K n bs = .ok (xs, rest)) : xs.length = n ∧ bs = ringSliceToBytes xs ++ rest := by
  induction n generalizing bs xs with
  | zero => simp only [takeMany] at h; cases h; simp
  | succ n ih =>
    simp only [takeMany, bind, Except.bind] at h
    split at h
    · cases h
    · rename_i v hv
      obtain ⟨x, bs'⟩ := v
      simp only at h
      split at h
      · cases h
      · rename_i w hw
        obtain ⟨ys, bs''⟩ := w
        simp only [pure, Except.pure] at h
        cases h
        obtain ⟨h1, h2⟩ := ih hw
        refine ⟨by simp [h1], ?_⟩
        rw [takeFromBytes_ok hv, h2, ringSliceToBytes_cons, List.append_assoc]

theorem ringVecFromBytes_roundtrip {K : Nat} (xs : List (BitVec K)) :
    ringVecFromBytes K (ringSliceToBytes xs) xs.length = .ok xs := by
  have := takeMany_append xs []
  rw [List.append_nil] at this
  simp [ringVecFromBytes, this, bind, Except.bind, pure, Except.pure]

theorem ringIterFromBytes_roundtrip {K : Nat} (xs : List (BitVec K)) :
    ringIterFromBytes K (ringSliceToBytes xs) xs.length = .ok xs := by
  have := takeMany_append xs []
  rw [List.append_nil] at this
  simp [ringIterFromBytes, this, ringSliceToBytes_length]

theorem ringVecFromBytes_ok {K n : Nat} {bs : Bytes} {xs : List (BitVec K)}
    (h : ringVecFromBytes K bs n = .ok xs) : xs.length = n ∧ ringSliceToBytes xs = bs := by
  unfold ringVecFromBytes at h
  simp only [bind, Except.bind] at h
  split at h
  · cases h
  · rename_i v hv
    obtain ⟨ys, rest⟩ := v
    simp only at h
    split at h
    · cases h
    · rename_i hr
      simp only [pure, Except.pure] at h
      cases h
      obtain ⟨h1, h2⟩ := takeMany_ok hv
      have : rest = [] := by
        cases rest with
        | nil => rfl
        | cons => simp at hr
      subst this
      exact ⟨h1, by simpa using h2.symm⟩

theorem ringIterFromBytes_ok {K n : Nat} {bs : Bytes} {xs : List (BitVec K)}
    (h : ringIterFromBytes K bs n = .ok xs) : xs.length = n ∧ ringSliceToBytes xs = bs := by
  unfold ringIterFromBytes at h
  split at h
  · cases h
  · rename_i hl
    push Not at hl
    split at h
    · rename_i ys rest hv
      cases h
      obtain ⟨h1, h2⟩ := takeMany_ok hv
      have hlen := congrArg List.length h2
      rw [List.length_append, ringSliceToBytes_length, h1, hl] at hlen
      have : rest = [] := List.eq_nil_of_length_eq_zero (by omega)
      subst this
      exact ⟨h1, by simpa using h2.symm⟩
    · cases h

theorem takeFromBytes_err {K : Nat} {bs : Bytes} {e : Err} (h : takeFromBytes K bs = .error e) :
    e = .conversion := by
  unfold takeFromBytes at h
  split at h
  · cases h; rfl
  · dsimp only at h
    split at h <;> cases h
    rfl

theorem takeMany_err {K n : Nat} {bs : Bytes} {e : Err} (h : takeMany K n bs = .error e) :
    e = .conversion := by
  induction n generalizing bs with
  | zero => simp [takeMany] at h
  | succ n ih =>
    simp only [takeMany, bind, Except.bind] at h
    split at h
    · rename_i hv; cases h; exact takeFromBytes_err hv
    · split at h
      · rename_i hw; cases h; exact ih hw
      · simp [pure, Except.pure] at h

/-! ## Bits -/

theorem one_getLsbD {K : Nat} (hK : 0 < K) (j : Nat) : (1 : BitVec K).getLsbD j = decide (j = 0) := by
  simp [show (1 : BitVec K) = 1#K from rfl, BitVec.getLsbD_one, hK]

theorem ofBit_getLsbD {K : Nat} (hK : 0 < K) (b : Bool) (j : Nat) :
    (ofBit K b).getLsbD j = (b && decide (j = 0)) := by
  cases b
  · simp [ofBit]
  · simp only [ofBit, if_true, Bool.true_and]; exact one_getLsbD hK j

theorem and_one_eq {K : Nat} (hK : 0 < K) (y : BitVec K) : y &&& 1 = ofBit K (y.getLsbD 0) := by
  apply BitVec.eq_of_getLsbD_eq
  intro j _
  rw [BitVec.getLsbD_and, one_getLsbD hK, ofBit_getLsbD hK]
  by_cases hj : j = 0
  · subst hj; rfl
  · simp [hj]

theorem ofBit_beq_one {K : Nat} (hK : 0 < K) (b : Bool) : (ofBit K b == 1) = b := by
  have h0 : (0 : BitVec K) ≠ 1 := by
    intro h
    have := congrArg (fun v => BitVec.getLsbD v 0) h
    simp only [one_getLsbD hK] at this
    simp at this
  cases b
  · simp only [ofBit, beq_eq_false_iff_ne]; exact h0
  · simp only [ofBit, if_true, beq_self_eq_true]

theorem shiftRight_and_one' {K : Nat} (hK : 0 < K) (x : BitVec K) (i : Nat) :
    (((x >>> i) &&& 1) == 1) = x.getLsbD i := by
  rw [and_one_eq hK, ofBit_beq_one hK, BitVec.getLsbD_ushiftRight, Nat.add_zero]

@[simp] theorem bitVal_bitOf (b : Bool) : bitVal (bitOf b) = b := by cases b <;> rfl
@[simp] theorem bitOf_bitVal (x : BitVec 1) : bitOf (bitVal x) = x := by
  have h : ∀ x : BitVec 1, bitOf (bitVal x) = x := by decide
  exact h x
@[simp] theorem bitVal_xor (x y : BitVec 1) : bitVal (x ^^^ y) = (bitVal x ^^ bitVal y) := by
  simp [bitVal]
@[simp] theorem bitVal_and (x y : BitVec 1) : bitVal (x &&& y) = (bitVal x && bitVal y) := by
  simp [bitVal]
@[simp] theorem bitVal_zero : bitVal 0 = false := rfl
theorem bitVal_inj {x y : BitVec 1} (h : bitVal x = bitVal y) : x = y := by
  rw [← bitOf_bitVal x, h, bitOf_bitVal]

@[simp] theorem toBits_length {K : Nat} (x : BitVec K) : (toBits x).length = K := by simp [toBits]

theorem toBits_getElem? {K : Nat} (x : BitVec K) (i : Nat) (h : i < K) :
    (toBits x)[i]? = some (bitOf (x.getLsbD i)) := by
  rw [toBits, List.getElem?_map, List.getElem?_range h, Option.map_some,
    shiftRight_and_one' (show 0 < K by omega)]

theorem fromBitsLoop_getLsbD {K : Nat} (hK : 0 < K) (bits : List (BitVec 1)) (i : Nat) (acc : BitVec K)
    (j : Nat) :
    (fromBitsLoop i acc bits).getLsbD j
      = (acc.getLsbD j || (decide (j < K) && decide (i ≤ j) && ((bits[j - i]?).map bitVal).getD false)) := by
  induction bits generalizing i acc with
  | nil => simp [fromBitsLoop]
  | cons b bs ih =>
    simp only [fromBitsLoop]
    rw [ih, BitVec.getLsbD_or, BitVec.getLsbD_shiftLeft, ofBit_getLsbD hK]
    by_cases hj : j < K
    · by_cases h1 : j < i
      · have : ¬ (i + 1 ≤ j) := by omega
        have : ¬ (i ≤ j) := by omega
        simp [*]
      · by_cases h2 : j = i
        · subst h2; simp [hj]
        · have h3 : i + 1 ≤ j := by omega
          have h4 : i ≤ j := by omega
          have h5 : j - i = (j - (i + 1)) + 1 := by omega
          simp only [h3, h4, h5, hj, h1, List.getElem?_cons_succ]
          simp
    · simp [hj]

theorem fromBits_toBits {K : Nat} (x : BitVec K) : fromBits K (toBits x) = .ok x := by
  rcases Nat.eq_zero_or_pos K with rfl | hK
  · simp only [fromBits, toBits_length, ne_eq, not_true_eq_false, if_false]
    congr 1
    exact BitVec.eq_of_getLsbD_eq (fun i h => absurd h (by omega))
  · simp only [fromBits, toBits_length, ne_eq, not_true_eq_false, if_false]
    congr 1
    apply BitVec.eq_of_getLsbD_eq
    intro j hj
    rw [fromBitsLoop_getLsbD hK, Nat.sub_zero, toBits_getElem? x j hj]
    simp [hj]

theorem toBits_fromBits {K : Nat} (hK : 0 < K) {bits : List (BitVec 1)} {x : BitVec K}
    (h : fromBits K bits = .ok x) : toBits x = bits := by
  unfold fromBits at h
  split at h
  · cases h
  · rename_i hl
    push Not at hl
    cases h
    apply List.ext_getElem?
    intro i
    by_cases hi : i < K
    · rw [toBits_getElem? _ _ hi, fromBitsLoop_getLsbD hK]
      have : i < bits.length := by omega
      simp [hi, List.getElem?_eq_getElem this]
    · rw [List.getElem?_eq_none (by simp; omega), List.getElem?_eq_none (by omega)]

theorem getMsb_eq {K : Nat} (hK : 0 < K) (x : BitVec K) : getMsb x = bitOf x.msb := by
  unfold getMsb
  congr 1
  have h2 : x.toNat / 2 ^ (K - 1) < 2 := by
    rw [Nat.div_lt_iff_lt_mul (Nat.two_pow_pos _), ← pow_succ', Nat.sub_add_cancel hK]
    exact x.isLt
  have h1 : (x >>> (K - 1) == 1) = (x.toNat / 2 ^ (K - 1) == 1) := by
    have : (x >>> (K - 1)).toNat = x.toNat / 2 ^ (K - 1) := by
      simp [BitVec.toNat_ushiftRight, Nat.shiftRight_eq_div_pow]
    rw [← this]
    have hone : (1 : BitVec K).toNat = 1 := by
      rw [show (1 : BitVec K) = 1#K from rfl, BitVec.toNat_ofNat, Nat.mod_eq_of_lt]
      exact Nat.one_lt_two_pow (by omega)
    by_cases h : x >>> (K - 1) = 1
    · rw [h, hone, beq_self_eq_true, beq_self_eq_true]
    · have : (x >>> (K - 1)).toNat ≠ 1 := fun h' => h (BitVec.eq_of_toNat_eq (by rw [h', hone]))
      rw [beq_eq_false_iff_ne.2 h, beq_eq_false_iff_ne.2 this]
  rw [h1, BitVec.msb_eq_decide]
  by_cases h : 2 ^ (K - 1) ≤ x.toNat
  · have : 1 ≤ x.toNat / 2 ^ (K - 1) := (Nat.one_le_div_iff (Nat.two_pow_pos _)).2 h
    have : x.toNat / 2 ^ (K - 1) = 1 := by omega
    simp [this, h]
  · rw [Nat.div_eq_of_lt (by omega)]
    simp [h]

/-! ## Inverses -/

theorem umod_eq_sub {w : Nat} (r0 r1 : BitVec w) : r0 - r0 / r1 * r1 = r0 % r1 := by
  apply BitVec.eq_of_toNat_eq
  have hq : (r0 / r1 * r1).toNat = r0.toNat / r1.toNat * r1.toNat := by
    rw [BitVec.toNat_mul, BitVec.toNat_udiv, Nat.mod_eq_of_lt]
    exact lt_of_le_of_lt (Nat.div_mul_le_self _ _) r0.isLt
  rw [BitVec.toNat_sub, hq, BitVec.toNat_umod]
  have h2 := Nat.div_mul_le_self r0.toNat r1.toNat
  have h3 := r0.isLt
  have h4 := Nat.div_add_mod' r0.toNat r1.toNat
  rw [show 2 ^ w - r0.toNat / r1.toNat * r1.toNat + r0.toNat
      = r0.toNat % r1.toNat + 2 ^ w by omega, Nat.add_mod_right,
    Nat.mod_eq_of_lt (lt_of_le_of_lt (Nat.mod_le _ _) h3)]

theorem setWidth_sub' {w K : Nat} (h : K ≤ w) (x y : BitVec w) :
    (x - y).setWidth K = x.setWidth K - y.setWidth K := by
  rw [sub_eq_add_neg, BitVec.setWidth_add _ _ h, BitVec.setWidth_neg_of_le h, ← sub_eq_add_neg]

/-- The invariant of the loop: `s·x ≡ r` modulo `2^K`, and the gcd is preserved. -/
theorem euclidLoop_spec {w K : Nat} (hw : K ≤ w) (x : BitVec K) (r0 r1 s0 s1 : BitVec w)
    (h0 : s0.setWidth K * x = r0.setWidth K) (h1 : s1.setWidth K * x = r1.setWidth K) :
    let p := euclidLoop r0 r1 s0 s1
    p.2.setWidth K * x = p.1.setWidth K ∧ p.1.toNat = Nat.gcd r0.toNat r1.toNat := by
  fun_induction euclidLoop r0 r1 s0 s1 with
  | case1 r0 s0 s1 =>
    simpa using h0
  | case2 r0 r1 s0 s1 h q ih =>
    obtain ⟨i1, i2⟩ := ih h1 (by
      rw [setWidth_sub' hw, BitVec.setWidth_mul _ _ hw, setWidth_sub' hw, BitVec.setWidth_mul _ _ hw,
        sub_mul, h0, mul_assoc, h1])
    refine ⟨i1, ?_⟩
    rw [i2, umod_eq_sub, BitVec.toNat_umod, Nat.gcd_comm r1.toNat, ← Nat.gcd_rec, Nat.gcd_comm]

theorem ringInverse_mul {K : Nat} {x y : BitVec K} (h : ringInverse x = .ok y) : y * x = 1 := by
  unfold ringInverse at h
  split at h
  · cases h
  · rename_i hodd
    cases h
    rcases Nat.eq_zero_or_pos K with rfl | hK
    · exact BitVec.eq_of_getLsbD_eq (fun i h => absurd h (by omega))
    have hw : K ≤ 2 * K := by omega
    obtain ⟨h1, h2⟩ := euclidLoop_spec (w := 2 * K) hw x (BitVec.ofNat _ (2 ^ K)) (x.setWidth (2 * K)) 0 1
      (by
        rw [show (0 : BitVec (2 * K)).setWidth K = 0 by simp, zero_mul]
        apply BitVec.eq_of_toNat_eq
        simp only [BitVec.toNat_setWidth, BitVec.toNat_ofNat]
        rw [Nat.mod_mod_of_dvd _ (Nat.pow_dvd_pow 2 hw)]
        simp)
      (by
        have : (1 : BitVec (2 * K)).setWidth K = 1 := by
          apply BitVec.eq_of_toNat_eq
          rw [show (1 : BitVec (2 * K)) = 1#(2 * K) from rfl, show (1 : BitVec K) = 1#K from rfl]
          simp only [BitVec.toNat_setWidth, BitVec.toNat_ofNat]
          rw [Nat.mod_mod_of_dvd _ (Nat.pow_dvd_pow 2 hw)]
        rw [this, one_mul]
        apply BitVec.eq_of_toNat_eq
        simp only [BitVec.toNat_setWidth]
        rw [Nat.mod_mod_of_dvd _ (Nat.pow_dvd_pow 2 hw), Nat.mod_eq_of_lt x.isLt])
    rw [h1]
    apply BitVec.eq_of_toNat_eq
    rw [BitVec.toNat_setWidth, h2, BitVec.toNat_ofNat, BitVec.toNat_setWidth,
      Nat.mod_eq_of_lt (Nat.pow_lt_pow_right (by omega) (by omega)),
      Nat.mod_eq_of_lt (lt_of_lt_of_le x.isLt (Nat.pow_le_pow_right (by omega) hw))]
    have hx : x.toNat % 2 = 1 := by
      by_contra hne
      apply hodd
      apply BitVec.eq_of_toNat_eq
      rw [BitVec.toNat_and, show (1 : BitVec K) = 1#K from rfl, BitVec.toNat_ofNat,
        Nat.mod_eq_of_lt (Nat.one_lt_two_pow (by omega)), Nat.and_comm, Nat.and_one_is_mod]
      simp; omega
    have hc : Nat.Coprime (2 ^ K) x.toNat := by
      apply Nat.Coprime.pow_left
      have h2 : Nat.gcd 2 x.toNat = 1 := by rw [Nat.gcd_rec, hx]; rfl
      exact h2
    rw [hc.gcd_eq_one, show (1 : BitVec K) = 1#K from rfl, BitVec.toNat_ofNat]

/-! ## `ceil_log2` -/

theorem ceilLog2Loop_spec (x y : Nat) : y ≤ ceilLog2Loop x y ∧ x < 2 ^ (ceilLog2Loop x y - y) ∧
    (0 < x → 2 ^ (ceilLog2Loop x y - y) ≤ 2 * x) := by
  fun_induction ceilLog2Loop x y with
  | case1 x y h ih =>
    obtain ⟨h1, h2, h3⟩ := ih
    obtain ⟨k, hk⟩ : ∃ k, ceilLog2Loop (x / 2) (y + 1) = y + 1 + k := ⟨_, (Nat.add_sub_cancel' h1).symm⟩
    rw [hk] at h2 h3 ⊢
    rw [show y + 1 + k - (y + 1) = k by omega] at h2 h3
    rw [show y + 1 + k - y = k + 1 by omega, pow_succ]
    refine ⟨by omega, by omega, fun _ => ?_⟩
    by_cases hx : 0 < x / 2
    · have := h3 hx; omega
    · have hk0 : k = 0 := by
        by_contra hne
        have hx1 : x = 1 := by omega
        subst hx1
        have : ceilLog2Loop 0 (y + 1) = y + 1 := by rw [ceilLog2Loop]; simp
        simp at hk; omega
      subst hk0; simp; omega
  | case2 x y h => simp; omega

end Verif
