import Verif.Model.Proto

/-!
# The generic binary protocols of `BinaryMpcTrait`

Models the provided methods of `iris-mpc/src/traits/binary_trait.rs` and `or_tree` of
`iris-mpc/src/aby3/utils.rs`. `VecShare` is a list of shares in every backend (for `SpdzWise` the
code stores two parallel vectors instead of a vector of pairs).
-/

namespace Verif

/-- What a backend supplies to the provided methods of `BinaryMpcTrait<T, Bshare>`
(`traits/binary_trait.rs:7-46`), for one party. -/
structure BinOps (σ B : Type) where
  /-- `a ^ b` on shares -/
  xor : B → B → B
  /-- `a << n` on shares -/
  shl : B → Nat → B
  and : B → B → Proto σ B
  andMany : List B → List B → Proto σ (List B)

namespace BinOps

variable {σ B : Type}

/-- `VecShareTrait::xor_many` / `xor_assign_many`, `aby3/vecshare.rs:39-57`. -/
def xorMany (o : BinOps σ B) (a b : List B) : Except Err (List B) :=
  if a.length ≠ b.length then .error .invalidSize else .ok (List.zipWith o.xor a b)

/-- `shl_assign_many`, `aby3/vecshare.rs:59-64`. -/
def shlMany (o : BinOps σ B) (a : List B) (n : Nat) : List B := a.map (o.shl · n)

/-- `or`, `traits/binary_trait.rs:48-52`. -/
def or (o : BinOps σ B) (a b : B) : Proto σ B := do
  let x := o.xor a b
  let y ← o.and a b
  pure (o.xor x y)

/-- `or_many`, `traits/binary_trait.rs:54-64`. -/
def orMany (o : BinOps σ B) (a b : List B) : Proto σ (List B) := do
  if a.length ≠ b.length then Proto.throw .invalidSize
  else
    let y ← o.andMany a b
    let x ← Proto.lift (o.xorMany a b)
    Proto.lift (o.xorMany y x)

/-- The Kogge–Stone loop of `binary_add_3`, `traits/binary_trait.rs:81-94`: rounds `i, …, i + n - 1`. -/
def koggeLoop (o : BinOps σ B) : Nat → Nat → B → B → Proto σ (B × B)
  | 0, _, p, g => pure (p, g)
  | n + 1, i, p, g => do
      let p_ := o.shl p (2 ^ i)
      let g_ := o.shl g (2 ^ i)
      let res ← o.andMany [p, p] [g_, p_]
      let p' ← Proto.lift (idx res 1)
      let g' ← Proto.lift (idx res 0)
      koggeLoop o n (i + 1) p' (o.xor g g')

/-- `binary_add_3`, `traits/binary_trait.rs:66-97`, for `T::Share::K = K`. -/
def binaryAdd3 (o : BinOps σ B) (K : Nat) (x1 x2 x3 : B) : Proto σ B := do
  let logk := ceilLog2 K
  let x2x3 := o.xor x2 x3
  let s := o.xor x1 x2x3
  let x1x3 := o.xor x1 x3
  let c ← o.and x1x3 x2x3
  let c := o.xor c x3
  let c := o.shl c 1
  let p := o.xor s c
  let g ← o.and s c
  let s_ := p
  let (_, g) ← koggeLoop o logk 0 p g
  let g := o.shl g 1
  pure (o.xor s_ g)

/-- The loop of `binary_add_3_many`, `traits/binary_trait.rs:126-144`; `len` is the vector length. -/
def koggeLoopMany (o : BinOps σ B) (len : Nat) : Nat → Nat → List B → List B → Proto σ (List B × List B)
  | 0, _, p, g => pure (p, g)
  | n + 1, i, p, g => do
      let p_ := o.shlMany p (2 ^ i)
      let g_ := o.shlMany g (2 ^ i)
      let res ← o.andMany (p ++ p) (g_ ++ p_)
      let tmpG := res.take len
      let tmpP := res.drop len
      let g ← Proto.lift (o.xorMany g tmpG)
      koggeLoopMany o len n (i + 1) tmpP g

/-- `binary_add_3_many`, `traits/binary_trait.rs:99-147`. -/
def binaryAdd3Many (o : BinOps σ B) (K : Nat) (x1 x2 x3 : List B) : Proto σ (List B) := do
  let len := x1.length
  if len ≠ x2.length ∨ len ≠ x3.length then Proto.throw .invalidSize
  else
    let logk := ceilLog2 K
    let x2x3 ← Proto.lift (o.xorMany x2 x3)
    let s ← Proto.lift (o.xorMany x1 x2x3)
    let x1x3 ← Proto.lift (o.xorMany x1 x3)
    let c ← o.andMany x1x3 x2x3
    let c ← Proto.lift (o.xorMany c x3)
    let c := o.shlMany c 1
    let p ← Proto.lift (o.xorMany s c)
    let g ← o.andMany s c
    let s_ := p
    let (_, g) ← koggeLoopMany o len logk 0 p g
    let g := o.shlMany g 1
    Proto.lift (o.xorMany s_ g)

/-- The inner loop of `or_tree` over pairs of chunks, `aby3/utils.rs:332-339`. -/
def orChunks (o : BinOps σ B) : List (List B × List B) → Proto σ (List B)
  | [] => pure []
  | (a, b) :: cs => do
      let r ← o.orMany a b
      let rs ← orChunks o cs
      pure (r ++ rs)

/-- The loop of `utils::or_tree`, `aby3/utils.rs:323-345`; `split_at` past the end panics. -/
def orTreeLoop (o : BinOps σ B) (chunkSize : Nat) (num : Nat) (inputs : List B) : Proto σ (List B) :=
  if num > 1 then do
    let mod_ := num % 2
    let num' := num / 2
    if inputs.length < num' + num' then Proto.throw .panic
    else
      let aVec := inputs.take num'
      let bVec := (inputs.drop num').take num'
      let leftover := (inputs.drop num').drop num'
      let ca ← Proto.lift (chunksE chunkSize aVec)
      let cb ← Proto.lift (chunksE chunkSize bVec)
      let res ← orChunks o (ca.zip cb)
      orTreeLoop o chunkSize (num' + mod_) (res ++ leftover)
  else pure inputs
termination_by num
decreasing_by omega

/-- `utils::or_tree`, `aby3/utils.rs:304-349`. An empty input makes `get_at(0)` panic. -/
def orTree (o : BinOps σ B) (chunkSize : Nat) (inputs : List B) : Proto σ B := do
  let out ← orTreeLoop o chunkSize inputs.length inputs
  Proto.lift (idx out 0)

end BinOps

end Verif
