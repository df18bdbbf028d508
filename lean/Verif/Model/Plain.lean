import Verif.Model.Ring

/-!
# The plaintext reference (`plain-reference/src/lib.rs`)
-/

namespace Verif

/-- `IRIS_CODE_SIZE`, `plain-reference/src/lib.rs:22`. -/
def irisCodeSize : Nat := 12800

/-- `IrisCodeArray([u64; 200])`, `plain-reference/src/lib.rs:12-14, 21-27`. -/
abbrev IrisCodeArray := Vector (BitVec 64) 200

namespace IrisCodeArray

/-- `ZERO`, `plain-reference/src/lib.rs:25`. -/
def zero : IrisCodeArray := Vector.replicate 200 0

/-- `ONES`, `plain-reference/src/lib.rs:26`. -/
def ones : IrisCodeArray := Vector.replicate 200 (BitVec.allOnes 64)

/-- `get_bit`, `plain-reference/src/lib.rs:45-49`; an index past the array panics. -/
def getBit (c : IrisCodeArray) (i : Nat) : Except Err Bool :=
  if h : i / 64 < 200 then .ok (((c[i / 64] >>> (i % 64)) &&& 1) == 1) else .error .panic

/-- `set_bit`, `plain-reference/src/lib.rs:28-36`. -/
def setBit (c : IrisCodeArray) (i : Nat) (val : Bool) : Except Err IrisCodeArray :=
  if h : i / 64 < 200 then
    if val then .ok (c.set (i / 64) (c[i / 64] ||| (1#64 <<< (i % 64))))
    else .ok (c.set (i / 64) (c[i / 64] &&& ~~~(1#64 <<< (i % 64))))
  else .error .panic

/-- `flip_bit`, `plain-reference/src/lib.rs:51-55`. -/
def flipBit (c : IrisCodeArray) (i : Nat) : Except Err IrisCodeArray :=
  if h : i / 64 < 200 then .ok (c.set (i / 64) (c[i / 64] ^^^ (1#64 <<< (i % 64))))
  else .error .panic

/-- `u64::count_ones`. -/
def popcount (w : BitVec 64) : Nat := (List.range 64).countP (fun i => w.getLsbD i)

/-- `count_ones`, `plain-reference/src/lib.rs:64-66`. -/
def countOnes (c : IrisCodeArray) : Nat := (c.toList.map popcount).sum

/-- `BitAnd`, `plain-reference/src/lib.rs:84-94`. -/
def and (a b : IrisCodeArray) : IrisCodeArray := Vector.zipWith (· &&& ·) a b

/-- `BitXor`, `plain-reference/src/lib.rs:103-113`. -/
def xor (a b : IrisCodeArray) : IrisCodeArray := Vector.zipWith (· ^^^ ·) a b

/-- The iterator `Bits`, `plain-reference/src/lib.rs:186-190`. -/
structure Bits where
  code : IrisCodeArray
  current : BitVec 64
  index : Nat

/-- `Bits::next`, `plain-reference/src/lib.rs:195-207`. -/
def Bits.next (b : Bits) : Option (Bool × Bits) :=
  if b.index ≥ irisCodeSize then none
  else
    let current := if b.index % 64 = 0 then b.code[b.index / 64]! else b.current
    some ((current &&& 1) == 1, { b with current := current >>> 1, index := b.index + 1 })

/-- Exhausting the iterator (`fuel` bounds the number of calls). -/
def Bits.collect : Nat → Bits → List Bool
  | 0, _ => []
  | n + 1, b => match b.next with
    | none => []
    | some (x, b') => x :: b'.collect n

/-- `bits()` collected, `plain-reference/src/lib.rs:37-43`. -/
def bits (c : IrisCodeArray) : List Bool := Bits.collect (irisCodeSize + 1) ⟨c, 0, 0⟩

end IrisCodeArray

/-! ## `f64` arithmetic used for the thresholds -/

/-- The number of binary digits. -/
def bitLen (n : Nat) : Nat := if n = 0 then 0 else Nat.log2 n + 1

/-- Round a natural number to 53 significant bits, to nearest, ties to even: the rounding of an IEEE-754
`f64` operation whose exact result is `n` (times a power of two; no overflow or subnormals here). -/
def roundF64 (n : Nat) : Nat :=
  let e := bitLen n - 53
  let q := n / 2 ^ e
  let r := n % 2 ^ e
  let up := decide (2 ^ e < 2 * r) || (decide (2 * r = 2 ^ e) && decide (q % 2 = 1) && decide (0 < e))
  (if up then q + 1 else q) * 2 ^ e

/-- The `f64` literal `0.34` is `ratio34 / 2^54` (`MATCH_THRESHOLD_RATIO`, `plain-reference/src/lib.rs:10`). -/
def ratio34 : Nat := 6124895493223875

/-- The `f64` literal `0.70` is `ratio70 / 2^53` (`MASK_THRESHOLD_RATIO`, `plain-reference/src/lib.rs:7`). -/
def ratio70 : Nat := 6305039478318694

/-- `(mask_ones as f64 * MATCH_THRESHOLD_RATIO) as usize`, `plain-reference/src/lib.rs:165` and
`iris-mpc/src/iris/protocol.rs:167`: the product is rounded to `f64`, then truncated. -/
def matchThreshold (maskOnes : Nat) : Nat := roundF64 (maskOnes * ratio34) / 2 ^ 54

/-- `MASK_THRESHOLD`, `plain-reference/src/lib.rs:8-9`. -/
def maskThreshold : Nat := roundF64 (ratio70 * irisCodeSize) / 2 ^ 53

/-- `IrisCode`, `plain-reference/src/lib.rs:115-119`. -/
structure IrisCode where
  code : IrisCodeArray
  mask : IrisCodeArray

/-- `IrisCode::is_close`, `plain-reference/src/lib.rs:155-167`. -/
def IrisCode.isClose (self other : IrisCode) : Except Err Bool :=
  let combinedMask := self.mask.and other.mask
  let combinedMaskLen := combinedMask.countOnes
  if combinedMaskLen < maskThreshold then .error .panic
  else
    let combinedCode := (self.code.xor other.code).and combinedMask
    let codeDistance := combinedCode.countOnes
    .ok (decide (codeDistance < matchThreshold combinedMaskLen))

/-- The matching loop of `find_match`, `plain-reference/src/bin/find_match.rs:75-80`: an OR over the
database (a panic in `is_close` ends it). -/
def findMatch (query : IrisCode) : List IrisCode → Bool → Except Err Bool
  | [], result => .ok result
  | c :: cs, result => do
      let r ← c.isClose query
      findMatch query cs (result || r)

end Verif
