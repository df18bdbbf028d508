import Verif.Model.Binary

/-!
# Binary protocols that change the width of shares

Bit packing, OR-reduction and the transposed most-significant-bit adder, shared by the backends:
`aby3/protocol.rs:27-253, 537-545`, `spdzwise/protocol.rs:588-725` (identical text over the same `Aby3Share`),
`swift3/protocol.rs:1602-1658` (identical with a third component), `aby3/utils.rs:304-432`.
-/

namespace Verif

/-- A family of binary shares, one type per ring width. `mapLists f` applies the local bit rearrangement
`f` to each component of the shares in a list (component `a`, component `b`, …, separately), which is how
all the functions below treat shares. `zero` is `Share::default()` / `Share::zero()`. -/
structure BinFam (σ : Type) (B : Nat → Type) where
  ops : (K : Nat) → BinOps σ (B K)
  zero : (K : Nat) → B K
  mapLists : {K L : Nat} → (List (BitVec K) → List (BitVec L)) → List (B K) → List (B L)

/-- The packing loop, `aby3/protocol.rs:97-101`, of one component, from position `i`. -/
def packLoop {W : Nat} : Nat → BitVec W → List (BitVec 1) → BitVec W
  | _, acc, [] => acc
  | i, acc, b :: bs => packLoop (i + 1) (acc ||| ringShl (ofBit W (bitVal b)) i) bs

/-- One packed word, `aby3/protocol.rs:95-103`. -/
def packWord (W : Nat) (bits : List (BitVec 1)) : BitVec W := packLoop 0 0 bits

/-- The inner loop of `transpose_shared_input` over the rows of the state, `aby3/utils.rs:374-381`. -/
def transposeStep {K U : Nat} (i : Nat) : BitVec K → List (BitVec U) → List (BitVec U)
  | _, [] => []
  | inp, s :: ss => (s ||| ringShl (ofBit U ((inp &&& 1) == 1)) i) :: transposeStep i (ringShr inp 1) ss

/-- The outer loop, `aby3/utils.rs:373-382`. -/
def transposeLoop {K U : Nat} : Nat → List (BitVec U) → List (BitVec K) → List (BitVec U)
  | _, state, [] => state
  | i, state, inp :: inps => transposeLoop (i + 1) (transposeStep i inp state) inps

/-- `utils::transpose_shared_input`, `aby3/utils.rs:366-384`, one component: `K` rows of width `U`. -/
def transposeInput (K U : Nat) (inputs : List (BitVec K)) : List (BitVec U) :=
  transposeLoop 0 (List.replicate K 0) inputs

/-- `Vec::pop().expect(..)`: the last element and the rest; panics on an empty vector. -/
def popE {α : Type} (l : List α) : Except Err (α × List α) :=
  match l.getLast? with
  | some a => .ok (a, l.dropLast)
  | none => .error .panic

/-- `Vec::resize`. -/
def resize {α : Type} (l : List α) (n : Nat) (d : α) : List α :=
  l.take n ++ List.replicate (n - l.length) d

namespace BinFam

variable {σ : Type} {B : Nat → Type}

/-- `pack`, `aby3/protocol.rs:90-107`, `spdzwise/protocol.rs:588-605`, `swift3/protocol.rs:1602-1621`. -/
def pack (f : BinFam σ B) (W : Nat) (a : List (B 1)) : List (B W) :=
  (chunksOf W a).flatMap fun ch => f.mapLists (fun l => [packWord W l]) ch

/-- One step of `reduce_or!`, `aby3/protocol.rs:27-43`: split into halves of width `U` and OR them. -/
def reduceHalf (f : BinFam σ B) {T : Nat} (U : Nat) (x : B T) : Proto σ (B U) := do
  let halves := f.mapLists (fun l => l.flatMap fun a => [(splitHalves U a).1, (splitHalves U a).2]) [x]
  let a ← Proto.lift (idx halves 0)
  let b ← Proto.lift (idx halves 1)
  (f.ops U).or a b

/-- The `while k != 1` loop of `reduce_or_u8`, `aby3/protocol.rs:131-139` (`k = 8, 4, 2, 1`). -/
def reduceLoop (f : BinFam σ B) (k : Nat) (decomp : List (B 1)) : Proto σ (List (B 1)) :=
  if k ≤ 1 then pure decomp
  else do
    let k' := k / 2
    let d ← (f.ops 1).orMany (decomp.take k') (decomp.drop k')
    reduceLoop f k' d
termination_by k
decreasing_by omega

/-- `reduce_or_u8`, `aby3/protocol.rs:116-142`. -/
def reduceOrU8 (f : BinFam σ B) (a : B 8) : Proto σ (B 1) := do
  let decomp := f.mapLists (fun l => l.flatMap toBits) [a]
  let d ← f.reduceLoop 8 decomp
  Proto.lift (idx d 0)

/-- `reduce_or_u128`, the chain of `aby3/protocol.rs:109-114`. -/
def reduceOrU128 (f : BinFam σ B) (a : B 128) : Proto σ (B 1) := do
  let a ← f.reduceHalf 64 a
  let a ← f.reduceHalf 32 a
  let a ← f.reduceHalf 16 a
  let a ← f.reduceHalf 8 a
  f.reduceOrU8 a

/-- `reduce_binary_or`, `aby3/protocol.rs:537-545`, `spdzwise/protocol.rs:1257-1265`,
`swift3/protocol.rs:2287-2295`. -/
def reduceBinaryOr (f : BinFam σ B) (a : List (B 1)) (chunkSize : Nat) : Proto σ (B 1) := do
  let packed := f.pack 128 a
  let reduced ← (f.ops 128).orTree chunkSize packed
  f.reduceOrU128 reduced

/-- `utils::transpose_pack_u128`, `aby3/utils.rs:386-398`: `K` rows of `⌈n/128⌉` words. -/
def transposePack (f : BinFam σ B) {K : Nat} (x : List (B K)) : List (List (B 128)) :=
  (chunksOf 128 x).foldl
    (fun res ch => List.zipWith (fun des src => des ++ [src]) res (f.mapLists (transposeInput K 128) ch))
    (List.replicate K [])

/-- `utils::transposed_pack_xor`, `transposed_pack_xor_assign`, `aby3/utils.rs:400-432`. -/
def transposedXor (f : BinFam σ B) (x1 x2 : List (List (B 128))) : List (List (B 128)) :=
  List.zipWith (List.zipWith (f.ops 128).xor) x1 x2

/-- `transposed_pack_and`, `aby3/protocol.rs:174-191`, `spdzwise/protocol.rs:642-659`. -/
def transposedAnd (f : BinFam σ B) (x1 x2 : List (List (B 128))) : Proto σ (List (List (B 128))) := do
  let first ← Proto.lift (idx x1 0)
  let x3 ← (f.ops 128).andMany x1.flatten x2.flatten
  Proto.lift (chunksE first.length x3)

/-- The ripple-carry loop of `msb_adder_many`, `aby3/protocol.rs:234-240`. -/
def rippleLoop (f : BinFam σ B) : List (List (B 128) × List (B 128)) → List (B 128) → Proto σ (List (B 128))
  | [], c => pure c
  | (a, b) :: rest, c => do
      let tmpA ← Proto.lift ((f.ops 128).xorMany a c)
      let tmpB ← Proto.lift ((f.ops 128).xorMany b c)
      let tmpC ← (f.ops 128).andMany tmpA tmpB
      let c ← Proto.lift ((f.ops 128).xorMany tmpC c)
      rippleLoop f rest c

/-- `msb_adder_many`, `aby3/protocol.rs:193-253`, `spdzwise/protocol.rs:661-725`. -/
def msbAdderMany (f : BinFam σ B) {K : Nat} (x1 x2 x3 : List (B K)) : Proto σ (List (B 1)) := do
  let len := x1.length
  if len ≠ x2.length ∨ len ≠ x3.length then Proto.throw .invalidSize
  else
    let x1 := f.transposePack x1
    let x2 := f.transposePack x2
    let x3 := f.transposePack x3
    let x2x3 := f.transposedXor x2 x3
    let s := f.transposedXor x1 x2x3
    let x1x3 := f.transposedXor x1 x3
    let (_, x1x3) ← Proto.lift (popE x1x3)
    let (_, x2x3) ← Proto.lift (popE x2x3)
    let (_, x3) ← Proto.lift (popE x3)
    let c ← f.transposedAnd x1x3 x2x3
    let b := f.transposedXor c x3
    let a1 ← Proto.lift (idx s 1)
    let b0 ← Proto.lift (idx b 0)
    let c ← (f.ops 128).andMany a1 b0
    let (aMsb, a) ← Proto.lift (popE s)
    let (bMsb, b) ← Proto.lift (popE b)
    let c ← f.rippleLoop ((a.drop 2).zip (b.drop 1)) c
    let res ← Proto.lift ((f.ops 128).xorMany aMsb bMsb)
    let res ← Proto.lift ((f.ops 128).xorMany res c)
    let bits := res.flatMap fun t => f.mapLists (fun l => l.flatMap toBits) [t]
    pure (resize bits len (f.zero 1))

end BinFam

end Verif
