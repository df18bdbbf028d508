import Verif.Model.Iris
import Verif.Model.Aby3

/-!
# The plaintext backend, `iris-mpc/src/traits/mpc_trait.rs:94-323`, and the operations of ABY3 the iris protocol uses
-/

namespace Verif

namespace PlainMpc

variable {K : Nat}

/-- `a + b` on a primitive integer type: overflow panics in debug builds (release builds wrap; the theorems
only speak about runs without overflow, where the two agree). -/
def checkedAdd (signed : Bool) (a b : BitVec K) : Except Err (BitVec K) :=
  if signed then
    if -(2 ^ (K - 1) : Int) ≤ a.toInt + b.toInt ∧ a.toInt + b.toInt < 2 ^ (K - 1) then .ok (a + b) else .error .panic
  else if a.toNat + b.toNat < 2 ^ K then .ok (a + b) else .error .panic

/-- The filtered fold of `filter_reduce_add_twice`, `traits/mpc_trait.rs:116-125`. -/
def filterSum (signed : Bool) : BitVec K → List (BitVec K × Bool) → Except Err (BitVec K)
  | acc, [] => .ok acc
  | acc, (x, bit) :: rest =>
      if bit then do
        let acc ← checkedAdd signed acc x
        filterSum signed acc rest
      else filterSum signed acc rest

/-- `filter_reduce_add_twice` for `Vec<T>`, `traits/mpc_trait.rs:108-128`. -/
def filterReduceAddTwice (signed : Bool) (a b : List (BitVec K)) (mask : IrisCodeArray) :
    Except Err (BitVec K × BitVec K) :=
  if a.isEmpty ∨ a.length ≠ b.length ∨ a.length ≠ irisCodeSize then .error .invalidCodeSize
  else do
    let sa ← filterSum signed 0 (a.zip mask.bits)
    let sb ← filterSum signed 0 (b.zip mask.bits)
    pure (sa, sb)

/-- The loop of `dot`, `traits/mpc_trait.rs:280-282`. -/
def dotLoop (acc : BitVec K) (ps : List (BitVec K × BitVec K)) : BitVec K :=
  ps.foldl (fun acc p => acc + p.1 * p.2) acc

/-- `dot`, `traits/mpc_trait.rs:275-284`. -/
def dot (a b : List (BitVec K)) : Proto Unit (BitVec K) :=
  if a.length ≠ b.length then Proto.throw .invalidSize else pure (dotLoop 0 (a.zip b))

/-- The loop of `dot_many`, `traits/mpc_trait.rs:292-295`. -/
def dotManyLoop : List (List (BitVec K) × List (BitVec K)) → Proto Unit (List (BitVec K))
  | [] => pure []
  | (a, b) :: rest => do
      let r ← dot a b
      let rs ← dotManyLoop rest
      pure (r :: rs)

/-- `dot_many`, `traits/mpc_trait.rs:286-298`. -/
def dotMany (a b : List (List (BitVec K))) : Proto Unit (List (BitVec K)) :=
  if a.length ≠ b.length then Proto.throw .invalidSize else dotManyLoop (a.zip b)

/-- `get_msb`, `traits/mpc_trait.rs:300-302`. -/
def getMsb (a : BitVec K) : Proto Unit (BitVec 1) := pure (Verif.getMsb a)

/-- `get_msb_many`, `traits/mpc_trait.rs:304-310`. -/
def getMsbMany (a : List (BitVec K)) : Proto Unit (List (BitVec 1)) := pure (a.map Verif.getMsb)

/-- `reduce_binary_or`, `traits/mpc_trait.rs:316-318`. -/
def reduceBinaryOr (a : List (BitVec 1)) (_chunkSize : Nat) : Proto Unit (BitVec 1) :=
  pure (a.foldl (fun x y => x ||| y) (ofBit 1 false))

/-- `input`, `traits/mpc_trait.rs:222-224`. -/
def input (inp : Option (BitVec K)) (_id : Nat) : Proto Unit (BitVec K) :=
  match inp with
  | some v => pure v
  | none => Proto.throw .value

/-- `share`, `traits/mpc_trait.rs:231-233`. -/
def share (x : BitVec K) : List (BitVec K) := [x]

/-- `open`, `traits/mpc_trait.rs:235-237`. -/
def openShare (x : BitVec K) : Proto Unit (BitVec K) := pure x

/-- `impl MpcTrait<T, T, Bit> for Plain`, `traits/mpc_trait.rs:197-323`; `masked_dot_many` and
`precompute_and_triples` are the provided methods (`traits/mpc_trait.rs:14-16, 51-80`). -/
def ops (K : Nat) (signed : Bool) : MpcOps Unit (BitVec K) (BitVec 1) K where
  signed := signed
  maskedDotMany := defaultMaskedDotMany 0 dotMany
  filterReduceAddTwice := filterReduceAddTwice signed
  add a b := a + b
  sub a b := a - b
  mulConst a c := a * c
  subConst _ a c := a - c
  getMsb := getMsb
  getMsbMany := getMsbMany
  reduceBinaryOr := reduceBinaryOr
  precompute _ := pure ()
  verify := pure ()
  openBit x := pure (bitVal x)

end PlainMpc

/-- `impl MpcTrait for Aby3`, `aby3/protocol.rs:256-550`, and `VecShareTrait`, `aby3/vecshare.rs:5-33`: what the
iris protocol uses; `precompute_and_triples` is the provided no-op, `traits/mpc_trait.rs:14-16`. -/
def Aby3.ops (G : Prg) (K : Nat) (signed : Bool) (me : Party) : MpcOps (Aby3St G) (AShare K) (AShare 1) K where
  signed := signed
  maskedDotMany := Aby3.maskedDotMany me
  filterReduceAddTwice := AShare.filterReduceAddTwice
  add := AShare.add
  sub := AShare.sub
  mulConst := AShare.mulConst
  subConst _ x c := x.subConst c me
  getMsb := Aby3.getMsb me
  getMsbMany := Aby3.getMsbMany me
  reduceBinaryOr := Aby3.reduceBinaryOr me
  precompute _ := pure ()
  verify := Aby3.verify
  openBit := Aby3.openBit me

end Verif
