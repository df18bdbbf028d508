import Verif.Model.AShare

/-!
# The iris matching protocol, `iris-mpc/src/iris/protocol.rs`

Generic over the MPC backend, as in the code (`Mpc: MpcTrait<T, Ashare, Bshare>`).
-/

namespace Verif

/-- The largest `usize` plus one, on the 64-bit targets. -/
def usizeLimit : Nat := 2 ^ 64

/-- `usize` arithmetic: leaving the range panics (debug builds; release builds wrap, the theorems only
speak about runs in which the two agree). -/
def usizeE (n : Nat) : Except Err Nat := if n < usizeLimit then .ok n else .error .panic

/-- `T::try_from(usize)` followed by `unwrap`/`expect`, `iris/protocol.rs:129, 170-172`: panics if the value
is not representable. `signed` tells whether `T` is one of `i8 … i128`. -/
def tryFromUsize (signed : Bool) (K n : Nat) : Except Err (BitVec K) :=
  if n < 2 ^ (if signed then K - 1 else K) then .ok (BitVec.ofNat K n) else .error .panic

/-- The part of `MpcTrait<T, Ashare, Bshare>` (`traits/mpc_trait.rs:11-92`) and of
`VecShareTrait` (`traits/share_trait.rs:10-36`) used by the protocol, for one party. `sub_const(&self, …)` may
read the state (SpdzWise reads its MAC key). `signed`: whether `T` is a signed integer type. -/
structure MpcOps (σ A B : Type) (K : Nat) where
  signed : Bool
  maskedDotMany : List A → List (List A) → List IrisCodeArray → Proto σ (List A)
  filterReduceAddTwice : List A → List A → IrisCodeArray → Except Err (A × A)
  add : A → A → A
  sub : A → A → A
  mulConst : A → BitVec K → A
  subConst : σ → A → BitVec K → A
  getMsb : A → Proto σ B
  getMsbMany : List A → Proto σ (List B)
  reduceBinaryOr : List B → Nat → Proto σ B
  precompute : Nat → Proto σ Unit
  verify : Proto σ Unit
  openBit : B → Proto σ Bool

/-- The zeroing loop of the default `masked_dot_many`, `traits/mpc_trait.rs:69-74`: entry `i` is replaced by
zero where bit `i` of the mask is not set. -/
def zeroUnmasked {A : Type} (zero : A) (xs : List A) (bits : List Bool) : List A :=
  List.zipWith (fun x (b : Bool) => if b then x else zero) xs bits

/-- The loop of the default `masked_dot_many`, `traits/mpc_trait.rs:60-78`. -/
def maskedVecs {A : Type} (zero : A) (a : List A) :
    List (List A × IrisCodeArray) → Except Err (List (List A) × List (List A))
  | [] => .ok ([], [])
  | (b, mask) :: rest =>
      if a.length ≠ irisCodeSize ∨ b.length ≠ irisCodeSize then .error .invalidCodeSize
      else do
        let (as, bs) ← maskedVecs zero a rest
        pure (zeroUnmasked zero a mask.bits :: as, zeroUnmasked zero b mask.bits :: bs)

/-- The provided method `masked_dot_many`, `traits/mpc_trait.rs:51-80` (used by `MalAby3` and `Plain`). -/
def defaultMaskedDotMany {σ A : Type} (zero : A) (dotMany : List (List A) → List (List A) → Proto σ (List A))
    (a : List A) (b : List (List A)) (masks : List IrisCodeArray) : Proto σ (List A) := do
  let (aVec, bVec) ← Proto.lift (maskedVecs zero a (b.zip masks))
  dotMany aVec bVec

namespace Iris

/-- `IrisProtocol::new`, `iris/protocol.rs:38-53`, as a function of the bit length of `T`; the two tests on
`MATCH_THRESHOLD_RATIO` (0.34) are constant. -/
def new (K : Nat) : Except Err Unit :=
  if ratio34 ≥ 2 ^ 54 ∨ ratio34 = 0 ∨ K ≤ ceilLog2 irisCodeSize then .error .config else .ok ()

/-- `combine_masks`, `iris/protocol.rs:102-114`. -/
def combineMasks (maskA maskB : IrisCodeArray) : Except Err IrisCodeArray :=
  let combined := maskA.and maskB
  if combined.countOnes < maskThreshold then .error .maskHW else .ok combined

variable {σ A B : Type} {K : Nat}

/-- `masked_hamming_distance_post`, `iris/protocol.rs:116-134`. -/
def hammingPost (o : MpcOps σ A B K) (a b : List A) (mask : IrisCodeArray) (dot : A) : Except Err A :=
  if a.isEmpty ∨ a.length ≠ b.length then .error .invalidCodeSize
  else do
    let (sumA, sumB) ← o.filterReduceAddTwice a b mask
    let two ← tryFromUsize o.signed K 2
    pure (o.sub (o.add sumA sumB) (o.mulConst dot two))

/-- The loop of `masked_hamming_distance_many`, `iris/protocol.rs:158-161`. -/
def hammingLoop (o : MpcOps σ A B K) (a : List A) : List ((List A × A) × IrisCodeArray) → Except Err (List A)
  | [] => .ok []
  | ((b, dot), mask) :: rest => do
      let r ← hammingPost o a b mask dot
      let rs ← hammingLoop o a rest
      pure (r :: rs)

/-- `masked_hamming_distance_many`, `iris/protocol.rs:149-164`. -/
def hammingMany (o : MpcOps σ A B K) (a : List A) (b : List (List A)) (masks : List IrisCodeArray) :
    Proto σ (List A) := do
  let dots ← o.maskedDotMany a b masks
  Proto.lift (hammingLoop o a ((b.zip dots).zip masks))

/-- `hamming_distance`, `iris/protocol.rs:137-147`. -/
def hammingDist (o : MpcOps σ A B K) (a b : List A) : Proto σ A := do
  let res ← hammingMany o a [b] [IrisCodeArray.ones]
  Proto.lift (idx res 0)

/-- `get_cmp_diff`, `iris/protocol.rs:166-174`. -/
def getCmpDiff (o : MpcOps σ A B K) (st : σ) (hwd : A) (maskOnes : Nat) : Except Err A := do
  let t ← tryFromUsize o.signed K (matchThreshold maskOnes)
  pure (o.subConst st hwd t)

/-- The loop of `compare_threshold_many`, `iris/protocol.rs:199-203`. -/
def diffLoop (o : MpcOps σ A B K) (st : σ) : List (A × Nat) → Except Err (List A)
  | [] => .ok []
  | (hwd, maskLen) :: rest => do
      let d ← getCmpDiff o st hwd maskLen
      let ds ← diffLoop o st rest
      pure (d :: ds)

/-- `compare_threshold`, `iris/protocol.rs:177-187`. -/
def compareThreshold (o : MpcOps σ A B K) (hwd : A) (maskOnes : Nat) : Proto σ B := do
  let st ← get
  let diff ← Proto.lift (getCmpDiff o st hwd maskOnes)
  o.getMsb diff

/-- `compare_threshold_many`, `iris/protocol.rs:189-206`. -/
def compareThresholdMany (o : MpcOps σ A B K) (hwds : List A) (maskLens : List Nat) : Proto σ (List B) :=
  if hwds.length ≠ maskLens.length then Proto.throw .invalidSize
  else do
    let st ← get
    let diffs ← Proto.lift (diffLoop o st (hwds.zip maskLens))
    o.getMsbMany diffs

/-- The `collect::<Result<Vec<_>, _>>` over the masks, `iris/protocol.rs:234-237`. -/
def combineAll (maskA : IrisCodeArray) : List IrisCodeArray → Except Err (List IrisCodeArray)
  | [] => .ok []
  | m :: ms => do
      let c ← combineMasks maskA m
      let cs ← combineAll maskA ms
      pure (c :: cs)

/-- `compare_iris_many`, `iris/protocol.rs:222-242`. -/
def compareIrisMany (o : MpcOps σ A B K) (a : List A) (b : List (List A)) (maskA : IrisCodeArray)
    (maskB : List IrisCodeArray) : Proto σ (List B) :=
  if b.length ≠ maskB.length ∨ b.length = 0 then Proto.throw .invalidSize
  else do
    let masks ← Proto.lift (combineAll maskA maskB)
    let maskLens := masks.map IrisCodeArray.countOnes
    let hwds ← hammingMany o a b masks
    compareThresholdMany o hwds maskLens

/-- `compare_iris`, `iris/protocol.rs:209-220`; `get_at(0)` panics on an empty vector. -/
def compareIris (o : MpcOps σ A B K) (a b : List A) (maskA maskB : IrisCodeArray) : Proto σ B := do
  let tmp ← compareIrisMany o a [b] maskA [maskB]
  Proto.lift (idx tmp 0)

/-- `msb_and_gates`, `iris/protocol.rs:244-252`; division by zero panics. -/
def msbAndGates (K amount chunkSize : Nat) : Except Err Nat := do
  let s ← usizeE (amount + chunkSize)
  if chunkSize = 0 then .error .panic
  else usizeE ((s - 1) / chunkSize * chunkSize * (K * 2 - 3))

/-- `num_and_triples`, `iris/protocol.rs:269-270`. -/
def numAndTriples (K amount chunkSize : Nat) : Except Err Nat := do
  let g ← msbAndGates K amount chunkSize
  usizeE (g + (amount + chunkSize - 2) / chunkSize * chunkSize)

/-- The loop over the chunks of the database, `iris/protocol.rs:275-278`. -/
def chunkLoop (o : MpcOps σ A B K) (iris : List A) (maskIris : IrisCodeArray) :
    List (List (List A) × List IrisCodeArray) → Proto σ (List B)
  | [] => pure []
  | (db, masks) :: rest => do
      let res ← compareIrisMany o iris db maskIris masks
      let more ← chunkLoop o iris maskIris rest
      pure (res ++ more)

/-- `iris_in_db`, `iris/protocol.rs:254-284`. -/
def irisInDb (o : MpcOps σ A B K) (iris : List A) (db : List (List A)) (maskIris : IrisCodeArray)
    (maskDb : List IrisCodeArray) (chunkSize : Nat) : Proto σ Bool :=
  if db.length ≠ maskDb.length ∨ db.length = 0 then Proto.throw .invalidSize
  else do
    let numAnd ← Proto.lift (numAndTriples K db.length chunkSize)
    o.precompute numAnd
    let dbChunks ← Proto.lift (chunksE chunkSize db)
    let maskChunks ← Proto.lift (chunksE chunkSize maskDb)
    let bools ← chunkLoop o iris maskIris (dbChunks.zip maskChunks)
    let res ← o.reduceBinaryOr bools chunkSize
    Proto.unwrap o.verify
    o.openBit res

end Iris

end Verif
