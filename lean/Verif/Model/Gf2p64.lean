import Verif.Model.Proto

/-!
# The field `GF(2^64)` and binary polynomials of degree below 64

Models `iris-mpc/src/dzkp/gf2p64.rs` and `iris-mpc/src/dzkp/irreducible_polys.rs`. The arithmetic itself comes from the
crate `gf256` (types `p64`, `gf2p64`), which is not part of the repository: `p64` is modelled as carry-less arithmetic
on natural numbers (bit `i` = coefficient of `X^i`), `gf2p64` as the same arithmetic modulo the polynomial recorded in
`GF2p64::MODULUS` (the crate's default polynomial `0x1_0000_0000_0000_001b`).
-/

namespace Verif

/-- Carry-less product of `a` with the lowest `n` bits of `b`: the multiplication of `gf256::p64`, used in
`dzkp/gf2p64.rs:65, 68`. -/
def clmul : (n a b : Nat) → Nat
  | 0, _, _ => 0
  | n + 1, a, b => (if b.testBit n then a <<< n else 0) ^^^ clmul n a b

/-- Schoolbook division of binary polynomials by `f` of degree `d`: clears the bits `d + n - 1, …, d` of `x`; returns
quotient and remainder. The division of `gf256::p64`, used in `dzkp/gf2p64.rs:63`, and the reduction of
`gf256::gf2p64`. -/
def cldivmod (f d : Nat) : (n q x : Nat) → Nat × Nat
  | 0, q, x => (q, x)
  | n + 1, q, x =>
      if x.testBit (d + n) then cldivmod f d n (q ^^^ 1 <<< n) (x ^^^ f <<< n) else cldivmod f d n q x

/-- `GF2p64`, `dzkp/gf2p64.rs:7-9`. -/
@[ext] structure GF2p64 where
  val : BitVec 64
  deriving DecidableEq

namespace GF2p64

/-- `MODULUS`, `dzkp/gf2p64.rs:12-18`: the indices `0, 1, 3, 4, 64` are `true`. -/
def modulus : Nat := 2 ^ 64 + 2 ^ 4 + 2 ^ 3 + 2 ^ 1 + 2 ^ 0

/-- `new`, `dzkp/gf2p64.rs:20-22` (for `gf2p64` no value of `u64` is rejected). -/
def new (x : BitVec 64) : GF2p64 := ⟨x⟩

/-- `get`, `dzkp/gf2p64.rs:32-34`. -/
def get (x : GF2p64) : BitVec 64 := x.val

/-- `lift`, `dzkp/gf2p64.rs:40-42`. -/
def lift (b : Bool) : GF2p64 := new (if b then 1 else 0)

/-- `Add`, `AddAssign`, `dzkp/gf2p64.rs:103-145`: addition is exclusive or. -/
def add (x y : GF2p64) : GF2p64 := ⟨x.val ^^^ y.val⟩

/-- `Sub`, `SubAssign`, `dzkp/gf2p64.rs:119-157`: subtraction is exclusive or. -/
def sub (x y : GF2p64) : GF2p64 := ⟨x.val ^^^ y.val⟩

/-- `Mul`, `MulAssign`, `dzkp/gf2p64.rs:159-184`: carry-less product reduced modulo the polynomial. -/
def mul (x y : GF2p64) : GF2p64 :=
  ⟨BitVec.ofNat 64 (cldivmod modulus 64 64 0 (clmul 64 x.val.toNat y.val.toNat)).2⟩

/-- `Neg`, `dzkp/gf2p64.rs:186-192`: the identity. -/
def neg (x : GF2p64) : GF2p64 := x

/-- `zero`, `dzkp/gf2p64.rs:195-198`. -/
def zero : GF2p64 := ⟨0⟩

/-- `one`, `dzkp/gf2p64.rs:206-209`. -/
def one : GF2p64 := ⟨1⟩

/-- `is_zero`, `dzkp/gf2p64.rs:200-202`. -/
def isZero (x : GF2p64) : Bool := x.val == 0

/-- `is_one`, `dzkp/gf2p64.rs:211-213`. -/
def isOne (x : GF2p64) : Bool := x.val == 1

/-- Square-and-multiply, `gf2p64::pow` of the crate `gf256`: `n` rounds suffice for exponents below `2^n`. -/
def powLoop : (n : Nat) → (acc a : GF2p64) → (e : Nat) → GF2p64
  | 0, acc, _, _ => acc
  | n + 1, acc, a, e => powLoop n (if e % 2 = 1 then acc.mul a else acc) (a.mul a) (e / 2)

/-- `inverse`, `dzkp/gf2p64.rs:36-38`: `gf2p64::recip`, i.e. `x^(2^64 - 2)`; panics on 0. -/
def inverse (x : GF2p64) : Except Err GF2p64 :=
  if x.isZero then .error .panic else .ok (powLoop 64 one x (2 ^ 64 - 2))

end GF2p64

/-! ## Extended Euclid on binary polynomials -/

/-- `r0 / r1` and `r0 - q * r1` for `p64` values, `dzkp/gf2p64.rs:63-65`, for `r1 ≠ 0`. -/
def p64DivMod (r0 r1 : Nat) : Nat × Nat := cldivmod r1 r1.log2 64 0 r0

/-- `*` of `gf256::p64`: the product has to fit into 64 bits. (A build with debug assertions panics on overflow, another
one wraps; the model panics, so that theorems about successful runs cover both.) -/
def p64Mul (a b : Nat) : Except Err Nat := if clmul 64 a b < 2 ^ 64 then .ok (clmul 64 a b) else .error .panic

/-- The loop of `extended_euclid_rev`, `dzkp/gf2p64.rs:62-74`, started with `r1 = a`, `r0 = b`. The remainder `r1` has
smaller degree in every round, so 65 rounds are enough for operands below `2^64`; the first argument counts them. -/
def euclidP64 : (n r0 r1 s0 s1 : Nat) → Except Err (Nat × Nat)
  | 0, r0, _, s0, _ => .ok (r0, s0)
  | n + 1, r0, r1, s0, s1 =>
      if r1 = 0 then .ok (r0, s0)
      else do
        let q := (p64DivMod r0 r1).1
        let t ← p64Mul q r1
        let u ← p64Mul q s1
        euclidP64 n r1 (r0 ^^^ t) s1 (s0 ^^^ u)

/-- `inv_mod`, `dzkp/gf2p64.rs:79-81`, on the underlying `u64` values. -/
def invMod (a modulus : Nat) : Except Err Nat := do
  let r ← euclidP64 65 modulus a 0 1
  pure r.2

/-! ## The table of irreducible polynomials -/

/-- The constants `D40` … `D63`, `dzkp/irreducible_polys.rs:7-30`. -/
def irreducibleTable : List Nat :=
  [1099522486571, 2199023255561, 4399239010919, 8796093022297, 17592203542555, 35184373323841, 70368755859457,
   140737488355361, 281475018792329, 562949953422687, 1125900847118165, 2251799813788225, 4503600141354131,
   9007199254741063, 18014423912784023, 36028797018967697, 72057603773459229, 144115188078554495,
   288230378958036459, 576460752303423611, 1152981527954067773, 2305843009213693991, 4611686024857219139,
   9223372036884368159]

/-- `IrreduciblePolys::get_inner`, `dzkp/irreducible_polys.rs:32-60`: panics outside `40..=63`. -/
def irreducibleInner (d : Nat) : Except Err Nat :=
  if 40 ≤ d then (match irreducibleTable[d - 40]? with
    | some f => .ok f
    | none => .error .panic)
  else .error .panic

end Verif
