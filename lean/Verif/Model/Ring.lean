import Verif.Model.Net
import Mathlib.Data.BitVec

/-!
# Ring elements and their wire format

Models `iris-mpc/src/types/{int_ring,ring_element,bit,mod}.rs`. `RingElement<T>` with `T::K = K` is
`BitVec K`; the Rust types are K = 1 (`Bit`), 8, 16, 32, 64, 128. `wrapping_add/sub/mul/neg`, `^ & | !`
(`ring_element.rs:217-453`, and for `Bit` the field operations of `bit.rs:88-306`) are the `BitVec`
operations.
-/

namespace Verif

/-- `RingElement<Bit>` from a `bool`, `ring_element.rs:155-159`. -/
abbrev bitOf (b : Bool) : BitVec 1 := BitVec.ofBool b

/-- `.convert().convert()` on a `RingElement<Bit>`: the underlying `bool`
(`ring_element.rs:206`, `bit.rs:59`). -/
def bitVal (x : BitVec 1) : Bool := x.getLsbD 0

/-- `T::from(bool)`: 0 or 1 in the ring (`ring_element.rs:155-159`). -/
def ofBit (K : Nat) (b : Bool) : BitVec K := if b then 1 else 0

/-- `Shl<u32>` on `RingElement` = `wrapping_shl`, `ring_element.rs:455-467`: Rust's `wrapping_shl` masks
the shift amount with the width (all widths are powers of two), except for `Bit`, whose `wrapping_shl` gives
0 for a non-zero amount (`bit.rs:329-346`). -/
def ringShl {K : Nat} (x : BitVec K) (n : Nat) : BitVec K :=
  if K = 1 then (if n = 0 then x else 0) else x <<< (n % K)

/-- `Shr<u32>` on `RingElement` = `wrapping_shr`, `ring_element.rs:469-481`, `bit.rs:348-365`. -/
def ringShr {K : Nat} (x : BitVec K) (n : Nat) : BitVec K :=
  if K = 1 then (if n = 0 then x else 0) else x >>> (n % K)

/-- `RingImpl::get_msb`, `ring_element.rs:87-89`. -/
def getMsb {K : Nat} (x : BitVec K) : BitVec 1 := bitOf (x >>> (K - 1) == 1)

/-- `RingImpl::get_bit`, `ring_element.rs:91-93`. -/
def getBit {K : Nat} (x : BitVec K) (index : Nat) : BitVec K := (x >>> index) &&& 1

/-- `RingImpl::to_bits`, `ring_element.rs:95-103`. -/
def toBits {K : Nat} (x : BitVec K) : List (BitVec 1) :=
  (List.range K).map fun i => bitOf (((x >>> i) &&& 1) == 1)

/-- The loop of `from_bits`, `ring_element.rs:111-113`, from index `i` with accumulator `acc`. -/
def fromBitsLoop {K : Nat} : Nat → BitVec K → List (BitVec 1) → BitVec K
  | _, acc, [] => acc
  | i, acc, b :: bs => fromBitsLoop (i + 1) (acc ||| (ofBit K (bitVal b) <<< i)) bs

/-- `RingImpl::from_bits`, `ring_element.rs:105-116`. -/
def fromBits (K : Nat) (bits : List (BitVec 1)) : Except Err (BitVec K) :=
  if K ≠ bits.length then .error .conversion else .ok (fromBitsLoop 0 0 bits)

/-! ## Wire format -/

/-- Number of bytes of one element on the wire: `size_of` for the integers, one byte for `Bit`
(`int_ring.rs:116-139`, and the `(K + 7) / 8` of `aby3/utils.rs:244`). -/
def byteLen (K : Nat) : Nat := (K + 7) / 8

/-- Big-endian bytes, `BufMut::put_u8/u16/u32/u64/u128` (`int_ring.rs:116-118, 172-174, 229-231, 286-288, 343-345, 400-402`). -/
def beBytes : Nat → Nat → Bytes
  | 0, _ => []
  | n + 1, v => beBytes n (v / 256) ++ [BitVec.ofNat 8 v]

/-- Big-endian value, `Buf::get_u8/…/get_u128`. -/
def ofBe (bs : Bytes) : Nat := bs.foldl (fun acc b => acc * 256 + b.toNat) 0

/-- `add_to_bytes` / `to_bytes`, `int_ring.rs:60-64, 116-118, 172-174, …`. -/
def toBytes {K : Nat} (x : BitVec K) : Bytes := beBytes (byteLen K) x.toNat

/-- `take_from_bytes_mut`, `int_ring.rs:134-139, 190-195, …`: needs enough bytes, consumes them. For `Bit`
the byte must be 0 or 1 (`bit.rs:64-74`); for the integer types every value fits, so the same range test is
vacuous. -/
def takeFromBytes (K : Nat) (bs : Bytes) : Except Err (BitVec K × Bytes) :=
  if bs.length < byteLen K then .error .conversion
  else
    let v := ofBe (bs.take (byteLen K))
    if v < 2 ^ K then .ok (BitVec.ofNat K v, bs.drop (byteLen K)) else .error .conversion

/-- `from_bytes_mut` / `from_bytes`, `int_ring.rs:120-132, 176-188, …`: exact length. -/
def fromBytes (K : Nat) (bs : Bytes) : Except Err (BitVec K) :=
  if bs.length ≠ byteLen K then .error .conversion
  else
    let v := ofBe bs
    if v < 2 ^ K then .ok (BitVec.ofNat K v) else .error .conversion

/-- `utils::ring_slice_to_bytes` / `ring_iter_to_bytes`, `aby3/utils.rs:278-302`. -/
def ringSliceToBytes {K : Nat} (xs : List (BitVec K)) : Bytes := xs.flatMap toBytes

/-- The loop of `ring_vec_from_bytes`, `aby3/utils.rs:230-233`. -/
def takeMany (K : Nat) : Nat → Bytes → Except Err (List (BitVec K) × Bytes)
  | 0, bs => .ok ([], bs)
  | n + 1, bs => do
      let (x, bs) ← takeFromBytes K bs
      let (xs, bs) ← takeMany K n bs
      pure (x :: xs, bs)

/-- `utils::ring_vec_from_bytes`, `aby3/utils.rs:226-238`. -/
def ringVecFromBytes (K : Nat) (bs : Bytes) (n : Nat) : Except Err (List (BitVec K)) := do
  let (xs, rest) ← takeMany K n bs
  if rest.length ≠ 0 then .error .conversion else pure xs

/-- `utils::ring_iter_from_bytes` followed by consuming the whole `RingBytesIter`
(`aby3/utils.rs:240-276`). Only the length is checked when the iterator is built; an element that does not
decode hits `expect("checked while constructing")`, i.e. a panic. (All callers zip the iterator with a
vector of exactly `n` elements, so all elements are decoded.) -/
def ringIterFromBytes (K : Nat) (bs : Bytes) (n : Nat) : Except Err (List (BitVec K)) :=
  if bs.length ≠ n * byteLen K then .error .conversion
  else match takeMany K n bs with
    | .ok (xs, _) => .ok xs
    | .error _ => .error .panic

/-! ## Inverses -/

/-- `extended_euclid_rev`, `types/mod.rs:9-32`: the loop, on the state `(r0, r1, s0, s1)` of `w`-bit
wrapping integers. -/
def euclidLoop {w : Nat} (r0 r1 s0 s1 : BitVec w) : BitVec w × BitVec w :=
  if h : r1 = 0 then (r0, s0)
  else
    let q := r0 / r1
    euclidLoop r1 (r0 - q * r1) s1 (s0 - q * s1)
termination_by r1.toNat
decreasing_by
  have h1 : r1.toNat ≠ 0 := fun h' => h (BitVec.eq_of_toNat_eq (by simpa using h'))
  have e : r0 - r0 / r1 * r1 = r0 % r1 := by
    apply BitVec.eq_of_toNat_eq
    have hq : (r0 / r1 * r1).toNat = r0.toNat / r1.toNat * r1.toNat := by
      rw [BitVec.toNat_mul, BitVec.toNat_udiv, Nat.mod_eq_of_lt]
      exact lt_of_le_of_lt (Nat.div_mul_le_self _ _) r0.isLt
    rw [BitVec.toNat_sub, hq, BitVec.toNat_umod]
    have h2 := Nat.div_mul_le_self r0.toNat r1.toNat
    have h3 := r0.isLt
    have h4 := Nat.div_add_mod' r0.toNat r1.toNat
    rw [show 2 ^ w - r0.toNat / r1.toNat * r1.toNat + r0.toNat
        = r0.toNat % r1.toNat + 2 ^ w by omega, Nat.add_mod_right,
      Nat.mod_eq_of_lt (by omega)]
  rw [e, BitVec.toNat_umod]
  exact Nat.mod_lt _ (by omega)

/-- `IntRing2k::inverse` for `u8/u16/u32/u64` (`int_ring.rs:201-210, 258-267, 315-324, 372-381`): Euclid on
the type of double width with second argument `MAX + 1`, result truncated. -/
def ringInverse {K : Nat} (x : BitVec K) : Except Err (BitVec K) :=
  if (1 &&& x) = 0 then .error .noInverse
  else .ok ((euclidLoop (w := 2 * K) (BitVec.ofNat _ (2 ^ K)) (x.setWidth (2 * K)) 0 1).2.setWidth K)

/-- `IntRing2k::inverse` for `u128` is `todo!()` (`int_ring.rs:429-431`): a panic on every input. -/
def ringInverse128 (_x : BitVec 128) : Except Err (BitVec 128) := .error .panic

/-- `IntRing2k::inverse` for `Bit`, `int_ring.rs:148-153`. -/
def bitInverse (x : BitVec 1) : Except Err (BitVec 1) :=
  if bitVal x then .ok x else .error .noInverse

/-! ## Conversions between widths -/

/-- `Sharable::to_verificationtype` (`sharable.rs:126-128, 175-177, 344-346`): zero extension. -/
def toVerif {K : Nat} (V : Nat) (x : BitVec K) : BitVec V := x.setWidth V

/-- `Sharable::from_verificationtype` (`sharable.rs:118-120, 167-169, 336-338`): truncation. -/
def fromVerif {V : Nat} (K : Nat) (x : BitVec V) : BitVec K := x.setWidth K

/-- `utils::ceil_log2`, `aby3/utils.rs:34-42`: the loop. -/
def ceilLog2Loop (x y : Nat) : Nat :=
  if h : x > 0 then ceilLog2Loop (x / 2) (y + 1) else y
termination_by x
decreasing_by omega

/-- `utils::ceil_log2`, `aby3/utils.rs:34-42` (for `x ≥ 1`; `x = 0` underflows). -/
def ceilLog2 (x : Nat) : Nat := ceilLog2Loop (x - 1) 0

/-- `utils::split`, `aby3/utils.rs:351-364`: low half, high half of an element of width `2 * U`. -/
def splitHalves {T : Nat} (U : Nat) (a : BitVec T) : BitVec U × BitVec U :=
  (a.setWidth U, (a >>> U).setWidth U)

/-- `bytes_to_seed`, `aby3/utils.rs:22-32`: a PRF seed is exactly 32 bytes. -/
def bytesToSeed (bs : Bytes) : Except Err Bytes :=
  if bs.length ≠ 32 then .error .other else .ok bs

end Verif
