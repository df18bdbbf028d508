import Verif.Model.Ring

/-! # Signed number types, `iris-mpc/src/types/sharable.rs`

The other files of the model identify a `Sharable` type of `K` bits with `BitVec K`. Here a value of a signed type
`i8 … i128` is an integer, with Rust's wrapping operations, and the conversions and mixed operations are those of the code. The
slice and vector conversions (`sharable.rs:311-334`, `ring_element.rs:181-204`, `bit.rs:34-57`, which reinterpret memory) are
the elementwise conversions. -/

namespace Verif

/-- The values of the signed type of `K` bits. -/
def InRange (K : Nat) (x : Int) : Prop := -2 ^ (K - 1) ≤ x ∧ x < 2 ^ (K - 1)

/-- Rust's wrapping arithmetic on the signed type of `K` bits: the value in the range that is congruent to `x`. -/
def wrapS (K : Nat) (x : Int) : Int := x.bmod (2 ^ K)

/-- `to_sharetype` for the signed types, `sharable.rs:301-303`: `self as $t`, the residue modulo `2 ^ K`. -/
def toShare (K : Nat) (x : Int) : BitVec K := BitVec.ofInt K x

/-- `from_sharetype` for the signed types, `sharable.rs:306-308`: `rhs.0 as Self`, and `to_signed`,
`int_ring.rs:168-170, 225-227, 282-284, 339-341, 396-398`: two's complement. -/
def fromShare {K : Nat} (x : BitVec K) : Int := if 2 * x.toNat < 2 ^ K then x.toNat else (x.toNat : Int) - 2 ^ K

/-- `slice_to_sharetype` / `vec_to_sharetype`, `sharable.rs:311-314, 323-327`. -/
def sliceToShare (K : Nat) (xs : List Int) : List (BitVec K) := xs.map (toShare K)

/-- `slice_from_sharetype` / `vec_from_sharetype`, `sharable.rs:317-320, 330-334`. -/
def sliceFromShare {K : Nat} (xs : List (BitVec K)) : List Int := xs.map fromShare

/-- `Mul<$s> for RingElement<$t>` and its variants, `sharable.rs:198-205, 224-231, 270-280`. -/
def mulRS {K : Nat} (x : BitVec K) (y : Int) : BitVec K := x * toShare K y

/-- `Mul<RingElement<$t>> for $s`, `sharable.rs:208-213`. -/
def mulSR {K : Nat} (x : Int) (y : BitVec K) : Int := wrapS K (x * fromShare y)

/-- `BitAnd<$s> for RingElement<$t>` and its variants, `sharable.rs:234-241, 260-267, 283-293`. -/
def andRS {K : Nat} (x : BitVec K) (y : Int) : BitVec K := x &&& toShare K y

/-- Signed `wrapping_shr`: the amount is taken modulo the width, the shift rounds towards minus infinity. -/
def shrS (K : Nat) (x : Int) (n : Nat) : Int := x / 2 ^ (n % K)

/-- `arithmetic_shr`, `sharable.rs:70-73`, for a signed type. -/
def arithShr {K : Nat} (x : BitVec K) (n : Nat) : BitVec K := toShare K (shrS K (fromShare x) n)

/-- `to_verificationshare` for a signed type, `sharable.rs:348-350`: an `as` cast of the signed value. -/
def toVerifS (V : Nat) (x : Int) : BitVec V := BitVec.ofInt V x

/-- `from_verificationshare` for a signed type, `sharable.rs:340-342`: `a as $s`. -/
def fromVerifS {V : Nat} (K : Nat) (x : BitVec V) : Int := wrapS K x.toNat

/-- `floor_div`, `int_ring.rs:197-199, 254-256, 311-313, 368-370, 425-427` (`self / other` panics on zero) and
`ring_element.rs:138-140`; for `Bit` `int_ring.rs:141-146`. -/
def floorDiv {K : Nat} (x y : BitVec K) : Except Err (BitVec K) := if y = 0 then .error .panic else .ok (x / y)

end Verif
