import Verif.Proof.Ring

/-! # C02, C03, C04, C05, C52: ring elements, their bits, bytes and inverses -/

namespace Verif

/-! ## C02: element wire format -/

/-- Decoding an encoded element gives it back (every width, `Bit` included). -/
theorem C02_roundtrip (K : Nat) (x : BitVec K) : fromBytes K (toBytes x) = .ok x :=
  fromBytes_toBytes x

/-- The encoding is big-endian with `⌈K/8⌉` bytes: byte `j` is digit `⌈K/8⌉ - 1 - j` in base 256. -/
theorem C02_bigEndian (K : Nat) (x : BitVec K) :
    (toBytes x).length = (K + 7) / 8 ∧
    ∀ j, j < (K + 7) / 8 →
      (toBytes x)[j]? = some (BitVec.ofNat 8 (x.toNat / 256 ^ ((K + 7) / 8 - 1 - j))) :=
  ⟨toBytes_length x, fun j hj => beBytes_getElem? _ _ _ hj⟩

/-- Decoding is injective and accepts only canonical encodings: whatever it accepts re-encodes to exactly
the received bytes. -/
theorem C02_canonical (K : Nat) (bs : Bytes) (x : BitVec K) :
    fromBytes K bs = .ok x ↔ bs = toBytes x :=
  ⟨fun h => (toBytes_of_fromBytes h).symm, fun h => h ▸ fromBytes_toBytes x⟩

/-- Every message of another length is rejected with a conversion error (not a panic). -/
theorem C02_wrong_length (K : Nat) (bs : Bytes) (h : bs.length ≠ (K + 7) / 8) :
    fromBytes K bs = .error .conversion := by
  simp [fromBytes, byteLen, h]

/-- For the integer types (`K` a multiple of 8) every message of the right length decodes. -/
theorem C02_total (K : Nat) (hK : 8 ∣ K) (bs : Bytes) (h : bs.length = (K + 7) / 8) :
    ∃ x, fromBytes K bs = .ok x := by
  have hv : ofBe bs < 2 ^ K := by
    refine lt_of_lt_of_eq (ofBe_lt bs) ?_
    rw [h, show (256 : Nat) = 2 ^ 8 by rfl, ← pow_mul]
    congr 1; omega
  exact ⟨_, by simp [fromBytes, byteLen, h, hv]; rfl⟩

/-- For `Bit` exactly the one-byte messages 0 and 1 decode. -/
theorem C02_bit (b : Byte) :
    fromBytes 1 [b] = if b = 0 then .ok 0 else if b = 1 then .ok 1 else .error .conversion := by
  have h : ∀ b : Byte, fromBytes 1 [b]
      = if b = 0 then .ok 0 else if b = 1 then .ok 1 else .error .conversion := by decide +kernel
  exact h b

/-- Decoding from a longer buffer consumes exactly the element's bytes. -/
theorem C02_take (K : Nat) (x : BitVec K) (rest : Bytes) :
    takeFromBytes K (toBytes x ++ rest) = .ok (x, rest) := takeFromBytes_append x rest

example : toBytes (0x1234#16) = [0x12#8, 0x34#8] := by decide
example : fromBytes 1 [2#8] = .error .conversion := by decide
example : 8 ∣ 16 ∧ ([1#8, 2#8] : Bytes).length = (16 + 7) / 8 := by decide

/-! ## C03: vector wire format -/

/-- Both decoders invert the encoder at the announced length. -/
theorem C03_roundtrip (K : Nat) (xs : List (BitVec K)) :
    ringVecFromBytes K (ringSliceToBytes xs) xs.length = .ok xs ∧
    ringIterFromBytes K (ringSliceToBytes xs) xs.length = .ok xs :=
  ⟨ringVecFromBytes_roundtrip xs, ringIterFromBytes_roundtrip xs⟩

/-- The encoding has `n · ⌈K/8⌉` bytes. -/
theorem C03_length (K : Nat) (xs : List (BitVec K)) :
    (ringSliceToBytes xs).length = xs.length * ((K + 7) / 8) := ringSliceToBytes_length xs

/-- The vector decoder accepts exactly the encodings of vectors of the announced length. -/
theorem C03_accepts_iff (K n : Nat) (bs : Bytes) (xs : List (BitVec K)) :
    ringVecFromBytes K bs n = .ok xs ↔ xs.length = n ∧ bs = ringSliceToBytes xs := by
  constructor
  · intro h; obtain ⟨h1, h2⟩ := ringVecFromBytes_ok h; exact ⟨h1, h2.symm⟩
  · rintro ⟨rfl, rfl⟩; exact ringVecFromBytes_roundtrip xs

/-- A message of any other byte length is rejected with a conversion error by both decoders. -/
theorem C03_wrong_length (K n : Nat) (bs : Bytes) (h : bs.length ≠ n * ((K + 7) / 8)) :
    ringVecFromBytes K bs n = .error .conversion ∧ ringIterFromBytes K bs n = .error .conversion := by
  constructor
  · cases hr : ringVecFromBytes K bs n with
    | ok xs =>
      obtain ⟨h1, h2⟩ := ringVecFromBytes_ok hr
      exact absurd (by rw [← h2, ringSliceToBytes_length, h1]; rfl) h
    | error e =>
      congr 1
      unfold ringVecFromBytes at hr
      simp only [bind, Except.bind] at hr
      split at hr
      · rename_i hv; cases hr; exact takeMany_err hv
      · split at hr
        · cases hr; rfl
        · simp [pure, Except.pure] at hr
  · simp [ringIterFromBytes, byteLen, h]

/-- The vector decoder never panics. -/
theorem C03_vec_no_panic (K n : Nat) (bs : Bytes) : ringVecFromBytes K bs n ≠ .error .panic := by
  intro hr
  unfold ringVecFromBytes at hr
  simp only [bind, Except.bind] at hr
  split at hr
  · rename_i hv; cases hr; cases takeMany_err hv
  · split at hr
    · cases hr
    · simp [pure, Except.pure] at hr

/-- On the integer types both decoders agree on every message, so the iterator decoder never panics. -/
theorem C03_iter_eq_vec_partial (K n : Nat) (hK : 8 ∣ K) (bs : Bytes) :
    ringIterFromBytes K bs n = ringVecFromBytes K bs n := by
  by_cases hl : bs.length = n * ((K + 7) / 8)
  · have key : ∀ n (bs : Bytes), n * ((K + 7) / 8) ≤ bs.length → ∃ r, takeMany K n bs = .ok r := by
      intro n
      induction n with
      | zero => intro bs _; exact ⟨_, rfl⟩
      | succ n ih =>
        intro bs h
        have hb : byteLen K = (K + 7) / 8 := rfl
        rw [Nat.succ_mul] at h
        have hlen : (bs.take (byteLen K)).length = byteLen K := by simp; omega
        have hv : ofBe (bs.take (byteLen K)) < 2 ^ K := by
          refine lt_of_lt_of_eq (ofBe_lt _) ?_
          rw [hlen, show (256 : Nat) = 2 ^ 8 by rfl, ← pow_mul]
          congr 1; omega
        obtain ⟨r, hr⟩ := ih (bs.drop (byteLen K)) (by simp; omega)
        refine ⟨(BitVec.ofNat K (ofBe (bs.take (byteLen K))) :: r.1, r.2), ?_⟩
        simp only [takeMany, takeFromBytes]
        rw [if_neg (by omega)]
        simp only [hv, if_true, bind, Except.bind, hr, pure, Except.pure]
    obtain ⟨⟨xs, rest⟩, hr⟩ := key n bs (by omega)
    obtain ⟨h1, h2⟩ := takeMany_ok hr
    have hlen := congrArg List.length h2
    rw [List.length_append, ringSliceToBytes_length, h1] at hlen
    have : rest.length = 0 := by have : byteLen K = (K + 7) / 8 := rfl; rw [this] at hlen; omega
    simp [ringIterFromBytes, ringVecFromBytes, hr, hl, byteLen, this, bind, Except.bind, pure, Except.pure]
  · obtain ⟨h1, h2⟩ := C03_wrong_length K n bs hl
    rw [h1, h2]

/-- Finding: for `Bit` the iterator decoder checks only the length, and a byte other than 0/1 sent by a
peer makes the receiver panic (the vector decoder returns an error on the same message). -/
theorem C03_iter_bit_panics :
    ∃ bs : Bytes, ringIterFromBytes 1 bs 1 = .error .panic ∧
      ringVecFromBytes 1 bs 1 = .error .conversion := ⟨[2#8], by decide, by decide⟩

example : ringSliceToBytes [1#16, 0x0203#16] = [0#8, 1#8, 2#8, 3#8] := by decide

/-! ## C04: bits -/

theorem C04_bits_roundtrip (K : Nat) (x : BitVec K) : fromBits K (toBits x) = .ok x :=
  fromBits_toBits x

theorem C04_bits_roundtrip' (K : Nat) (hK : 0 < K) (bits : List (BitVec 1)) (x : BitVec K) :
    fromBits K bits = .ok x ↔ bits = toBits x :=
  ⟨fun h => (toBits_fromBits hK h).symm, fun h => h ▸ fromBits_toBits x⟩

theorem C04_bits_value (K : Nat) (x : BitVec K) :
    (toBits x).length = K ∧ ∀ i, i < K → (toBits x)[i]? = some (bitOf (x.toNat.testBit i)) :=
  ⟨toBits_length x, fun i h => toBits_getElem? x i h⟩

theorem C04_wrong_count (K : Nat) (bits : List (BitVec 1)) (h : bits.length ≠ K) :
    fromBits K bits = .error .conversion := by
  simp [fromBits, Ne.symm h]

/-- `get_msb` is the top bit: the value is at least `2^(K-1)`. -/
theorem C04_msb (K : Nat) (hK : 0 < K) (x : BitVec K) :
    getMsb x = bitOf (decide (2 ^ (K - 1) ≤ x.toNat)) := by
  rw [getMsb_eq hK, BitVec.msb_eq_decide]

/-- `get_bit i` is bit `i`, as a ring element 0 or 1. -/
theorem C04_get_bit (K : Nat) (hK : 0 < K) (x : BitVec K) (i : Nat) :
    getBit x i = if x.toNat.testBit i then 1 else 0 := by
  rw [getBit, and_one_eq hK, BitVec.getLsbD_ushiftRight, Nat.add_zero]; rfl

example : toBits (5#8) = [1#1, 0#1, 1#1, 0#1, 0#1, 0#1, 0#1, 0#1] := by decide
example : getMsb (200#8) = 1#1 := by decide

/-! ## C05: inverses -/

/-- `inverse` returns the multiplicative inverse of every odd element and an error for every even one (all
widths `K ≥ 1` on which Euclid runs in double width: the code uses 8, 16, 32 and 64). -/
theorem C05_inverse (K : Nat) (hK : 0 < K) (x : BitVec K) :
    (x.toNat % 2 = 1 → ∃ y, ringInverse x = .ok y ∧ y * x = 1 ∧ x * y = 1) ∧
    (x.toNat % 2 = 0 → ringInverse x = .error .noInverse) := by
  have hand : (1 &&& x).toNat = x.toNat % 2 := by
    rw [BitVec.toNat_and, show (1 : BitVec K) = 1#K from rfl, BitVec.toNat_ofNat,
      Nat.mod_eq_of_lt (Nat.one_lt_two_pow (by omega)), Nat.and_comm, Nat.and_one_is_mod]
  constructor
  · intro hodd
    have hne : ¬ (1 &&& x) = 0 := by
      intro h
      rw [h] at hand
      simp at hand; omega
    have h : ringInverse x = .ok ((euclidLoop (w := 2 * K) (BitVec.ofNat _ (2 ^ K))
        (x.setWidth (2 * K)) 0 1).2.setWidth K) := by
      unfold ringInverse; rw [if_neg hne]
    exact ⟨_, h, ringInverse_mul h, by rw [mul_comm]; exact ringInverse_mul h⟩
  · intro heven
    have h0 : (1 &&& x) = 0 := by
      apply BitVec.eq_of_toNat_eq; rw [hand, heven]; simp
    unfold ringInverse; rw [if_pos h0]

/-- An even element has no inverse, so the error is right. -/
theorem C05_even_has_none (K : Nat) (hK : 0 < K) (x : BitVec K) (h : x.toNat % 2 = 0) (y : BitVec K) :
    x * y ≠ 1 := by
  intro he
  have := congrArg BitVec.toNat he
  rw [BitVec.toNat_mul, show (1 : BitVec K) = 1#K from rfl, BitVec.toNat_ofNat,
    Nat.mod_eq_of_lt (Nat.one_lt_two_pow (by omega))] at this
  have h2 : (x.toNat * y.toNat % 2 ^ K) % 2 = x.toNat * y.toNat % 2 :=
    Nat.mod_mod_of_dvd _ (dvd_pow_self 2 (by omega))
  rw [this, Nat.mul_mod, h] at h2
  simp at h2

theorem C05_bit (x : BitVec 1) :
    bitInverse x = if x = 1 then .ok 1 else .error .noInverse := by
  have h : ∀ x : BitVec 1, x = 0 ∨ x = 1 := by decide
  rcases h x with rfl | rfl <;> rfl

/-- Finding: for the 128-bit ring `inverse` panics (`todo!()`), on every element. -/
theorem C05_128_panics (x : BitVec 128) : ringInverse128 x = .error .panic := rfl

example : ringInverse (3#8) = .ok 171#8 := by
  simp [ringInverse, euclidLoop]
example : (3#8 : BitVec 8).toNat % 2 = 1 := by decide

/-! ## C52: utilities -/

/-- `ceil_log2 x` is the least `l` with `x ≤ 2^l` (for every `x ≥ 1`). -/
theorem C52_ceil_log2 (x : Nat) (hx : 0 < x) :
    x ≤ 2 ^ ceilLog2 x ∧ ∀ l, x ≤ 2 ^ l → ceilLog2 x ≤ l := by
  obtain ⟨-, h2, h3⟩ := ceilLog2Loop_spec (x - 1) 0
  rw [Nat.sub_zero] at h2 h3
  change x - 1 < 2 ^ ceilLog2 x at h2
  change 0 < x - 1 → 2 ^ ceilLog2 x ≤ 2 * (x - 1) at h3
  refine ⟨by omega, fun l hl => ?_⟩
  by_contra hlt
  push Not at hlt
  by_cases hx1 : 0 < x - 1
  · have h4 := h3 hx1
    have h5 : 2 ^ (l + 1) ≤ 2 ^ ceilLog2 x := Nat.pow_le_pow_right (by omega) hlt
    rw [pow_succ] at h5
    omega
  · have : x = 1 := by omega
    subst this
    have : ceilLog2 1 = 0 := by rw [ceilLog2, ceilLog2Loop]; simp
    omega

/-- Splitting an element of double width and gluing the halves is the identity. -/
theorem C52_split (U : Nat) (a : BitVec (2 * U)) :
    (splitHalves U a).2.toNat * 2 ^ U + (splitHalves U a).1.toNat = a.toNat := by
  have h : a.toNat / 2 ^ U < 2 ^ U := by
    rw [Nat.div_lt_iff_lt_mul (Nat.two_pow_pos _), ← pow_add, ← two_mul]; exact a.isLt
  simp only [splitHalves, BitVec.toNat_setWidth, BitVec.toNat_ushiftRight, Nat.shiftRight_eq_div_pow]
  rw [Nat.mod_eq_of_lt h, Nat.div_add_mod']

/-- A PRF seed message is accepted iff it has 32 bytes. -/
theorem C52_seed (bs : Bytes) : (bytesToSeed bs = .ok bs ↔ bs.length = 32) ∧
    (bs.length ≠ 32 → bytesToSeed bs = .error .other) := by
  unfold bytesToSeed
  constructor
  · by_cases h : bs.length = 32 <;> simp [h]
  · intro h; simp [h]

example : ceilLog2 12800 = 14 := by simp [ceilLog2, ceilLog2Loop]
example : splitHalves 8 (0x1234#16) = (0x34#8, 0x12#8) := by decide

end Verif
