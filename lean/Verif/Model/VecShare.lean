import Verif.Model.Spdz

/-! # `VecShare`: vectors of SPDZ-wise shares, `iris-mpc/src/spdzwise/vecshare.rs`

The rest of the model treats such a vector as a list of shares; here it is what the code has, two parallel vectors. -/

namespace Verif

/-- `VecShare<T>`, `spdzwise/vecshare.rs:10-15`. -/
structure VecShare (V : Nat) where
  values : List (AShare V)
  macs : List (AShare V)

namespace VecShare

variable {V : Nat}

/-- `new`, `spdzwise/vecshare.rs:18-21`: `assert_eq!` on the lengths. -/
def new (values macs : List (AShare V)) : Except Err (VecShare V) :=
  if values.length ≠ macs.length then .error .panic else .ok ⟨values, macs⟩

/-- `from_vec`, `spdzwise/vecshare.rs:35-38`. -/
def fromVec (xs : List (SShare V)) : Except Err (VecShare V) :=
  new (xs.map fun s => (s.value, s.mac)).unzip.1 (xs.map fun s => (s.value, s.mac)).unzip.2

/-- `with_capacity` and `default`, `spdzwise/vecshare.rs:82-86, 10`. -/
def empty (V : Nat) : VecShare V := ⟨[], []⟩

/-- `len`, `spdzwise/vecshare.rs:44-47` (the `debug_assert!` holds by `C73_build` and `C73_meaning`). -/
def len (v : VecShare V) : Nat := v.values.length

/-- `push`, `spdzwise/vecshare.rs:105-109`. -/
def push (v : VecShare V) (s : SShare V) : VecShare V := ⟨v.values ++ [s.value], v.macs ++ [s.mac]⟩

/-- `extend`, `spdzwise/vecshare.rs:111-115`. -/
def extend (v w : VecShare V) : VecShare V := ⟨v.values ++ w.values, v.macs ++ w.macs⟩

/-- `[T]::split_at`: panics past the end. -/
def splitAtE {α : Type} (l : List α) (mid : Nat) : Except Err (List α × List α) :=
  if l.length < mid then .error .panic else .ok (l.take mid, l.drop mid)

/-- `split_at`, `spdzwise/vecshare.rs:117-121`. -/
def splitAt (v : VecShare V) (mid : Nat) : Except Err (VecShare V × VecShare V) := do
  let (a, b) ← splitAtE v.values mid
  let (macA, macB) ← splitAtE v.macs mid
  let x ← new a macA
  let y ← new b macB
  pure (x, y)

/-- The loop of `chunks`, `spdzwise/vecshare.rs:130-136`. -/
def chunkLoop : List (List (AShare V) × List (AShare V)) → Except Err (List (VecShare V))
  | [] => .ok []
  | (v, m) :: rest => do
      let c ← new v m
      let cs ← chunkLoop rest
      pure (c :: cs)

/-- `chunks`, `spdzwise/vecshare.rs:123-139`; the division by `chunk_size` panics for zero. -/
def chunks (v : VecShare V) (n : Nat) : Except Err (List (VecShare V)) := do
  let vs ← chunksE n v.values
  let ms ← chunksE n v.macs
  chunkLoop (vs.zip ms)

/-- `get_at`, `spdzwise/vecshare.rs:141-145`. -/
def getAt (v : VecShare V) (i : Nat) : Except Err (SShare V) := do
  let val ← idx v.values i
  let mac ← idx v.macs i
  pure ⟨val, mac⟩

/-- `v[i] = x` with the bounds check. -/
def setE {α : Type} (l : List α) (i : Nat) (x : α) : Except Err (List α) :=
  if i < l.length then .ok (l.set i x) else .error .panic

/-- `set_at`, `spdzwise/vecshare.rs:147-151`. -/
def setAt (v : VecShare V) (i : Nat) (s : SShare V) : Except Err (VecShare V) := do
  let values ← setE v.values i s.value
  let macs ← setE v.macs i s.mac
  pure ⟨values, macs⟩

/-- The fold of `filter_reduce_add_twice`, `spdzwise/vecshare.rs:57-74`: one pass over both vectors. -/
def filterFold (ps : List (((AShare V × AShare V) × (AShare V × AShare V)) × Bool)) :
    AShare V × AShare V × AShare V × AShare V :=
  (ps.filter (·.2)).foldl
    (fun acc p => (acc.1.add p.1.1.1, acc.2.1.add p.1.1.2, acc.2.2.1.add p.1.2.1, acc.2.2.2.add p.1.2.2))
    (AShare.zero V, AShare.zero V, AShare.zero V, AShare.zero V)

/-- `filter_reduce_add_twice`, `spdzwise/vecshare.rs:49-80`. -/
def filterReduceAddTwice (a b : VecShare V) (mask : IrisCodeArray) : Except Err (SShare V × SShare V) :=
  if a.len = 0 ∨ a.len ≠ b.len then .error .invalidCodeSize
  else
    let r := filterFold (((a.values.zip a.macs).zip (b.values.zip b.macs)).zip mask.bits)
    .ok (⟨r.1, r.2.1⟩, ⟨r.2.2.1, r.2.2.2⟩)

end VecShare

end Verif
