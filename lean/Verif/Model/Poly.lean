import Verif.Model.Gf2p64
import Verif.Model.Fam

/-!
# Dense polynomials, `iris-mpc/src/dzkp/polynomial.rs`
-/

namespace Verif

/-- `PolyTrait`, `dzkp/polynomial.rs:11-27`: the operations a coefficient type offers. `Default` is the zero of every
implementor. -/
class PolyT (T : Type) where
  zero : T
  one : T
  add : T → T → T
  sub : T → T → T
  mul : T → T → T
  neg : T → T
  isZero : T → Bool
  isOne : T → Bool

/-- `impl PolyTrait for RingImpl`, `dzkp/polynomial.rs:29`, for `RingElement<T>` with `K` bits
(`types/ring_element.rs:217-351`). -/
instance (K : Nat) : PolyT (BitVec K) where
  zero := 0
  one := 1
  add := (· + ·)
  sub := (· - ·)
  mul := (· * ·)
  neg := (- ·)
  isZero x := x == 0
  isOne x := x == 1

/-- `impl PolyTrait for GF2p64`, `dzkp/polynomial.rs:31`. -/
instance : PolyT GF2p64 where
  zero := GF2p64.zero
  one := GF2p64.one
  add := GF2p64.add
  sub := GF2p64.sub
  mul := GF2p64.mul
  neg := GF2p64.neg
  isZero := GF2p64.isZero
  isOne := GF2p64.isOne

/-- `Poly<T>`, `dzkp/polynomial.rs:33-37`: the coefficients, lowest first; trailing zeros are allowed. -/
@[ext] structure Poly (T : Type) where
  coeffs : List T
  deriving DecidableEq

namespace Poly

variable {T : Type} [PolyT T]

/-- `shrink` needs `degree`, `dzkp/polynomial.rs:60-67`: the largest index with a non-zero coefficient, else 0. The loop
of `degree` over the remaining `n` lowest indices. -/
def degreeLoop (coeffs : List T) : Nat → Nat
  | 0 => 0
  | n + 1 => match coeffs[n]? with
    | some c => if PolyT.isZero c then degreeLoop coeffs n else n
    | none => degreeLoop coeffs n

/-- `degree`, `dzkp/polynomial.rs:60-67`. -/
def degree (p : Poly T) : Nat := degreeLoop p.coeffs p.coeffs.length

/-- `shrink`, `dzkp/polynomial.rs:52-54`. -/
def shrink (p : Poly T) : Poly T := ⟨resize p.coeffs (p.degree + 1) PolyT.zero⟩

/-- `lift`, `dzkp/polynomial.rs:56-58`. -/
def lift (x : T) : Poly T := ⟨[x]⟩

/-- `leading_coeff`, `dzkp/polynomial.rs:69-71`: panics on an empty vector. -/
def leadingCoeff (p : Poly T) : Except Err T := idx p.coeffs p.degree

/-- `evaluate`, `dzkp/polynomial.rs:73-79`. -/
def evaluate (p : Poly T) (x : T) : T :=
  p.coeffs.reverse.foldl (fun res c => PolyT.add (PolyT.mul res x) c) PolyT.zero

/-- `zero`, `dzkp/polynomial.rs:585-587`. -/
def zero : Poly T := ⟨[]⟩

/-- `is_zero`, `dzkp/polynomial.rs:589-591`. -/
def isZero (p : Poly T) : Bool := p.coeffs.isEmpty || p.coeffs.all PolyT.isZero

/-- `one`, `dzkp/polynomial.rs:595-597`. -/
def one : Poly T := ⟨[PolyT.one]⟩

/-- `is_one`, `dzkp/polynomial.rs:599-601`: asks for degree **one** (sic) and leading coefficient one. (With degree 1
the index is in bounds.) -/
def isOne (p : Poly T) : Bool :=
  p.degree == 1 && (match p.leadingCoeff with
    | .ok c => PolyT.isOne c
    | .error _ => false)

/-- The common shape of `Add` and `Sub`, `dzkp/polynomial.rs:242-258, 347-363`: a zero vector of the larger length, the
left operand copied into its prefix, then `dest op= src` for the right operand. Also `AddAssign`/`SubAssign`
(`:309-327, 414-432`), which resize the left operand instead. -/
def zipPad (op : T → T → T) : List T → List T → List T
  | xs, [] => xs
  | [], y :: ys => op PolyT.zero y :: zipPad op [] ys
  | x :: xs, y :: ys => op x y :: zipPad op xs ys

/-- `Add`, `AddAssign`, `dzkp/polynomial.rs:242-275, 309-327`. -/
def add (p q : Poly T) : Poly T := ⟨zipPad PolyT.add p.coeffs q.coeffs⟩

/-- `Sub`, `SubAssign`, `dzkp/polynomial.rs:347-380, 414-432`. -/
def sub (p q : Poly T) : Poly T := ⟨zipPad PolyT.sub p.coeffs q.coeffs⟩

/-- `Add<T>`, `AddAssign<T>`, `dzkp/polynomial.rs:278-307, 329-345`. -/
def addT (p : Poly T) (x : T) : Poly T := ⟨zipPad PolyT.add p.coeffs [x]⟩

/-- `Sub<T>`, `SubAssign<T>`, `dzkp/polynomial.rs:383-412, 434-450`. -/
def subT (p : Poly T) (x : T) : Poly T := ⟨zipPad PolyT.sub p.coeffs [x]⟩

/-- `coeffs[i] += x`, `dzkp/polynomial.rs:464`. (Every index used is in bounds.) -/
def addAt (cs : List T) (i : Nat) (x : T) : List T := cs.modify i (PolyT.add · x)

/-- The inner loop of `Mul`, `dzkp/polynomial.rs:463-465`, from `j` on. -/
def mulInner (a : T) (i : Nat) : List T → Nat → List T → List T
  | cs, _, [] => cs
  | cs, j, b :: bs => mulInner a i (addAt cs (i + j) (PolyT.mul a b)) (j + 1) bs

/-- The outer loop of `Mul`, `dzkp/polynomial.rs:462-466`, from `i` on. -/
def mulOuter (rhs : List T) : List T → Nat → List T → List T
  | cs, _, [] => cs
  | cs, i, a :: as => mulOuter rhs (mulInner a i cs 0 rhs) (i + 1) as

/-- `Mul`, `dzkp/polynomial.rs:452-490`. -/
def mul (p q : Poly T) : Poly T :=
  if p.isZero || q.isZero then zero
  else ⟨mulOuter q.coeffs (List.replicate (p.coeffs.length + q.coeffs.length - 1) PolyT.zero) 0 p.coeffs⟩

/-- `Mul<T>`, `MulAssign<T>`, `dzkp/polynomial.rs:492-520, 536-550`. -/
def mulT (p : Poly T) (x : T) : Poly T := ⟨p.coeffs.map (PolyT.mul · x)⟩

/-- `Neg`, `dzkp/polynomial.rs:572-582`. -/
def neg (p : Poly T) : Poly T := ⟨p.coeffs.map PolyT.neg⟩

/-- `impl PolyTrait for Poly<T>`, `dzkp/polynomial.rs:30`. -/
instance : PolyT (Poly T) where
  zero := zero
  one := one
  add := add
  sub := sub
  mul := mul
  neg := neg
  isZero := isZero
  isOne := isOne

/-- The loop of `interpolate`, `dzkp/polynomial.rs:83-86`. -/
def interpolateLoop : Poly T → List (Poly T) → List T → Poly T
  | res, l :: ls, y :: ys => interpolateLoop (res.add (l.mulT y)) ls ys
  | res, _, _ => res

/-- `interpolate`, `dzkp/polynomial.rs:81-88`: panics unless there is one polynomial per value. -/
def interpolate (ys : List T) (lagrange : List (Poly T)) : Except Err (Poly T) :=
  if ys.length = lagrange.length then .ok (interpolateLoop zero lagrange ys) else .error .panic

end Poly

namespace Poly

variable {K : Nat}

/-- `random`, `dzkp/polynomial.rs:44-50`: `d + 1` ring elements. -/
def random {G : Prg} (K d : Nat) (s : G.S) : Poly (BitVec K) × G.S :=
  let r := (List.range (d + 1)).foldl (fun (acc : List (BitVec K) × G.S) _ =>
    let x := G.gen K acc.2
    (acc.1 ++ [x.1], x.2)) ([], s)
  (⟨r.1⟩, r.2)

/-- The inner loop of `long_division`, `dzkp/polynomial.rs:106-108`: `dividend[monomial + i] -= c * coeff` for the
coefficients of the divisor but the last. -/
def subAtFrom (coeff : BitVec K) : List (BitVec K) → Nat → List (BitVec K) → List (BitVec K)
  | d, _, [] => d
  | d, i, c :: cs => subAtFrom coeff (d.modify i (· - c * coeff)) (i + 1) cs

/-- The loop of `long_division`, `dzkp/polynomial.rs:103-110`; the first argument bounds the number of rounds (one
coefficient is popped per round). -/
def divLoop (other : List (BitVec K)) (inv : BitVec K) : Nat → List (BitVec K) → List (BitVec K) →
    Except Err (List (BitVec K) × List (BitVec K))
  | 0, quotient, dividend => .ok (quotient, dividend)
  | n + 1, quotient, dividend =>
      if dividend.length ≥ other.length then do
        let monomial := dividend.length - other.length
        let p ← popE dividend
        let coeff := p.1 * inv
        divLoop other inv n (quotient.set monomial coeff) (subAtFrom coeff p.2 monomial (other.take (other.length - 1)))
      else .ok (quotient, dividend)

/-- `long_division`, `dzkp/polynomial.rs:92-113`. -/
def longDivision (p other : Poly (BitVec K)) : Except Err (Poly (BitVec K) × Poly (BitVec K)) := do
  let degree := if p.coeffs.length ≥ other.coeffs.length then p.coeffs.length - other.coeffs.length + 1 else 1
  let lc ← other.leadingCoeff
  let inv ← ringInverse lc
  let r ← divLoop other.coeffs inv p.coeffs.length (List.replicate degree 0) p.coeffs
  pure (⟨r.1⟩, ⟨r.2⟩)

/-- `Rem`, `dzkp/polynomial.rs:552-570`: `expect` turns an error into a panic. -/
def rem (p other : Poly (BitVec K)) : Except Err (Poly (BitVec K)) :=
  match p.longDivision other with
  | .ok r => .ok r.2.shrink
  | .error _ => .error .panic

/-- The loop of `to_gf2p64`, `dzkp/polynomial.rs:118-122`: `u64 <<= 1` drops the bits above 63. -/
def toU64Loop : Nat → List (BitVec K) → Nat
  | acc, [] => acc
  | acc, c :: cs => toU64Loop ((acc <<< 1) % 2 ^ 64 ||| (if (1 &&& c) == 1 then 1 else 0)) cs

/-- `to_gf2p64`, `dzkp/polynomial.rs:116-124`, as the `u64`; panics for `K ≥ 64`. -/
def toU64 (p : Poly (BitVec K)) : Except Err Nat :=
  if K < 64 then .ok (toU64Loop 0 p.coeffs.reverse) else .error .panic

/-- `from_u64`, `dzkp/polynomial.rs:126-137`; panics for `K ≥ 64`. -/
def fromU64 (K : Nat) (v : Nat) : Except Err (Poly (BitVec K)) :=
  if K < 64 then .ok (shrink ⟨(List.range 64).map fun i => ofBit K (((v >>> i) &&& 1) == 1)⟩) else .error .panic

/-- `mod_inverse_inner`, `dzkp/polynomial.rs:139-151`; the argument is `prime_power - 1` (the recursion of the code
would not stop for `prime_power = 0`, which does not occur). -/
def modInverseInner (p modulus : Poly (BitVec K)) : Nat → Except Err (Poly (BitVec K))
  | 0 => do
      let a ← p.toU64
      let m ← modulus.toU64
      let i ← invMod a m
      fromU64 K i
  | n + 1 => do
      let inv ← modInverseInner p modulus n
      let r ← ((inv.mul p).subT 1).rem modulus
      (inv.sub (r.mul inv)).rem modulus

/-- `mod_inverse`, `dzkp/polynomial.rs:153-155`, with `T::K = K`. -/
def modInverse (p modulus : Poly (BitVec K)) : Except Err (Poly (BitVec K)) := modInverseInner p modulus (K - 1)

/-- `reduce_coeffs`, `dzkp/polynomial.rs:184-188`. -/
def reduceCoeffs (p : Poly (Poly (BitVec K))) (modulus : Poly (BitVec K)) : Except Err (Poly (Poly (BitVec K))) := do
  let cs ← p.coeffs.mapM (fun c => c.rem modulus)
  pure ⟨cs⟩

/-- The inner loop of `lagrange_polys`, `dzkp/polynomial.rs:194-200`, over the remaining points from index `i` on.
`poly *= f` is `f * poly` (`:522-527`). -/
def lagrangeLoop (modulus : Poly (BitVec K)) (xj : Poly (BitVec K)) (j : Nat) :
    Nat → Poly (Poly (BitVec K)) → List (Poly (BitVec K)) → Except Err (Poly (Poly (BitVec K)))
  | _, poly, [] => .ok poly
  | i, poly, xi :: xs =>
      if i ≠ j then do
        let inv ← (xj.sub xi).modInverse modulus
        let f : Poly (Poly (BitVec K)) := ⟨[xi.neg, one]⟩
        lagrangeLoop modulus xj j (i + 1) ((f.mulT inv).mul poly) xs
      else lagrangeLoop modulus xj j (i + 1) poly xs

/-- `Poly<Poly<T>>::lagrange_polys`, `dzkp/polynomial.rs:190-205`. -/
def lagrangePolys (xs : List (Poly (BitVec K))) (modulus : Poly (BitVec K)) :
    Except Err (List (Poly (Poly (BitVec K)))) :=
  xs.zipIdx.mapM fun x => do
    let p ← lagrangeLoop modulus x.1 x.2 0 one xs
    p.reduceCoeffs modulus

end Poly

/-- The inner loop of `Poly<GF2p64>::lagrange_polys`, `dzkp/polynomial.rs:230-235`. -/
def GF2p64.lagrangeLoop (xj : GF2p64) (j : Nat) : Nat → Poly GF2p64 → List GF2p64 → Except Err (Poly GF2p64)
  | _, poly, [] => .ok poly
  | i, poly, xi :: xs =>
      if i ≠ j then do
        let inv ← (xj.sub xi).inverse
        let f : Poly GF2p64 := ⟨[xi.neg, GF2p64.one]⟩
        lagrangeLoop xj j (i + 1) ((f.mulT inv).mul poly) xs
      else lagrangeLoop xj j (i + 1) poly xs

/-- `Poly<GF2p64>::lagrange_polys`, `dzkp/polynomial.rs:226-239`. -/
def GF2p64.lagrangePolys (xs : List GF2p64) : Except Err (List (Poly GF2p64)) :=
  xs.zipIdx.mapM fun x => GF2p64.lagrangeLoop x.1 x.2 0 Poly.one xs

/-- `utils::to_bits`, `aby3/utils.rs:44-51`: the binary digits, lowest first, without leading zeros. -/
def toBitsMin (K : Nat) (x : Nat) : List (BitVec K) :=
  if h : x > 0 then ofBit K (x % 2 == 1) :: toBitsMin K (x / 2) else []
termination_by x
decreasing_by omega

/-- `IrreduciblePolys::get`, `dzkp/irreducible_polys.rs:62-71`. -/
def irreduciblePoly (K d : Nat) : Except Err (Poly (BitVec K)) := do
  let f ← irreducibleInner d
  pure ⟨(List.range (d + 1)).map fun i => ofBit K (((f >>> i) &&& 1) == 1)⟩

end Verif
