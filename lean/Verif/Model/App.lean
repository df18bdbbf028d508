import Verif.Model.Bincode
import Verif.Model.Iris
import Verif.Model.PlainMpc
import Verif.Model.MalAby3
import Verif.Model.Spdz
import Verif.Model.Swift3Verify

/-!
# The programs: creation of a database, matching against it

Models `iris-mpc/src/bin/create_sample_data.rs`, the four programs `iris-mpc/examples/{aby3,aby3_mal,spdzwise,swift3}.rs`,
`plain-reference/src/bin/{create_sample_data_plain,find_match}.rs`, and the random generation of irises in
`plain-reference/src/lib.rs`.

A table of the SQLite database is the list of its rows in the order of insertion; `id` is the position, starting with 1
(rows are never deleted), and `SELECT` returns the rows in this order. Errors of the database and of the file system,
argument parsing, printing and the network set-up are left out.
-/

namespace Verif

/-- `ChaCha12Rng` as the programs use it: `seed_from_u64`, `fill` of the 1600 bytes of an iris code array, samples of
`Bernoulli::new(0.10)` and `Bernoulli::new(0.05)`, and `gen` of ring elements. -/
structure AppRng where
  S : Type
  ofU64 : BitVec 64 → S
  fill : S → Vector Byte 1600 × S
  bern10 : S → Bool × S
  bern05 : S → Bool × S
  gen : (K : Nat) → S → BitVec K × S

variable {R : AppRng}

namespace IrisCodeArray

/-- `as_raw_slice`, `plain-reference/src/lib.rs:67-69`: the words as bytes, on a little-endian machine. -/
def raw (c : IrisCodeArray) : Bytes := c.toList.flatMap fun w => leBytes 8 w.toNat

/-- `as_raw_mut_slice().copy_from_slice(bytes)`, `plain-reference/src/lib.rs:70-72`; `copy_from_slice` panics if the
lengths differ. -/
def ofRaw (bs : Bytes) : Except Err IrisCodeArray :=
  if bs.length ≠ 1600 then .error .panic
  else .ok (Vector.ofFn fun i : Fin 200 => BitVec.ofNat 64 (ofLe ((bs.drop (8 * i.val)).take 8)))

/-- `random_rng`, `plain-reference/src/lib.rs:57-61`. -/
def randomRng (R : AppRng) (s : R.S) : Except Err (IrisCodeArray × R.S) := do
  let (bs, s) := R.fill s
  let c ← ofRaw bs.toList
  pure (c, s)

end IrisCodeArray

namespace IrisCode

/-- The loop of `random_rng`, `plain-reference/src/lib.rs:145-149`, `n` rounds from `i` on. -/
def thinLoop (R : AppRng) : Nat → Nat → IrisCodeArray → R.S → Except Err (IrisCodeArray × R.S)
  | 0, _, m, s => .ok (m, s)
  | n + 1, i, m, s => do
      let (b, s) := R.bern10 s
      let m ← if b then m.setBit i false else .ok m
      thinLoop R n (i + 1) m s

/-- `random_rng`, `plain-reference/src/lib.rs:136-152`. -/
def randomRng (R : AppRng) (s : R.S) : Except Err (IrisCode × R.S) := do
  let (code, s) ← IrisCodeArray.randomRng R s
  let (mask, s) ← thinLoop R irisCodeSize 0 IrisCodeArray.ones s
  pure (⟨code, mask⟩, s)

/-- The loop of `get_similar_iris`, `plain-reference/src/lib.rs:173-180`, `n` rounds from `i` on. -/
def similarLoop (R : AppRng) : Nat → Nat → IrisCode → R.S → Except Err (IrisCode × R.S)
  | 0, _, c, s => .ok (c, s)
  | n + 1, i, c, s => do
      let (b, s) := R.bern05 s
      let code ← if b then c.code.flipBit i else .ok c.code
      let (b, s) := R.bern05 s
      let mask ← if b then c.mask.flipBit i else .ok c.mask
      similarLoop R n (i + 1) ⟨code, mask⟩ s

/-- `get_similar_iris`, `plain-reference/src/lib.rs:169-183`. -/
def similar (R : AppRng) (c : IrisCode) (s : R.S) : Except Err (IrisCode × R.S) := similarLoop R irisCodeSize 0 c s

end IrisCode

namespace App

/-- A loop over a list that also threads the random number generator; what the iterations push is collected. -/
def mapRng {α β : Type} (f : α → R.S → Except Err (β × R.S)) : List α → R.S → Except Err (List β × R.S)
  | [], s => .ok ([], s)
  | x :: xs, s => do
      let (y, s) ← f x s
      let (ys, s) ← mapRng f xs s
      pure (y :: ys, s)

/-- `for _ in 0..num_items { codes.push(IrisCode::random_rng(&mut rng)) }`,
`create_sample_data.rs:61-65, 126-130, 210-214`. -/
def randomCodes (R : AppRng) : Nat → R.S → Except Err (List IrisCode × R.S)
  | 0, s => .ok ([], s)
  | n + 1, s => do
      let (c, s) ← IrisCode.randomRng R s
      let (cs, s) ← randomCodes R n s
      pure (c :: cs, s)

/-- `u16::from(bit)` and `T::from(bit)`. -/
def ofBit (b : Bool) : BitVec 16 := if b then 1 else 0

/-- The columns `code` and `mask` of the table `iris_codes`, common to all databases. -/
structure CodeCols where
  code : Bytes
  mask : Bytes

/-- Reading the columns `code` and `mask`: `find_match.rs:37-45, 64-74`, `examples/aby3.rs:166-175` and copies. -/
def readCode (r : CodeCols) : Except Err IrisCode := do
  let code ← IrisCodeArray.ofRaw r.code
  let mask ← IrisCodeArray.ofRaw r.mask
  pure ⟨code, mask⟩

/-- The iris codes in the database as `find_match.rs:61-80` reads them. -/
def readCodes : List CodeCols → Except Err (List IrisCode)
  | [] => .ok []
  | r :: rs => do
      let c ← readCode r
      let cs ← readCodes rs
      pure (c :: cs)

/-- `create_sample_data_plain.rs:38-57`: rows are added to what is in the table. -/
def createPlain (R : AppRng) (items : Nat) (s : R.S) (db : List CodeCols) : Except Err (List CodeCols × R.S) := do
  let (codes, s) ← randomCodes R items s
  pure (db ++ codes.map fun c => ⟨c.code.raw, c.mask.raw⟩, s)

/-- `find_match.rs:61-80` for the iris `q`. -/
def findMatchDb (q : IrisCode) (db : List CodeCols) : Except Err Bool := do
  let codes ← readCodes db
  findMatch q codes false

/-- The iris to be matched, and the generator after its generation: `examples/aby3.rs:158-182` and copies. The row with
`id = 1` is the first one; without it `query_row` reports an error. -/
def queryIris (R : AppRng) (seed : BitVec 64) (shouldMatch : Bool) (db : List CodeCols) :
    Except Err (IrisCode × R.S) :=
  let s := R.ofU64 seed
  if shouldMatch then
    match db.head? with
    | none => .error .other
    | some r => do
        let c ← readCode r
        c.similar R s
  else IrisCode.randomRng R s

/-! ## ABY3, semi-honest and malicious -/

/-- A row of `iris_codes`, `create_sample_data.rs:44-54`. -/
structure AbyRow extends CodeCols where
  shareA : Bytes
  shareB : Bytes
  shareC : Bytes

/-- `create_sample_data.rs:76-80`: the components pushed for one bit. -/
def abyBit (R : AppRng) (b : Bool) (s : R.S) : Except Err ((BitVec 16 × BitVec 16 × BitVec 16) × R.S) := do
  let (r1, s) := R.gen 16 s
  let (r2, s) := R.gen 16 s
  let shares := Aby3.share (ofBit b) r1 r2
  let s0 ← idx shares 0
  let s1 ← idx shares 1
  let s2 ← idx shares 2
  pure ((s0.a, s1.a, s2.a), s)

/-- `create_sample_data.rs:71-94`. -/
def abyRow (R : AppRng) (c : IrisCode) (s : R.S) : Except Err (AbyRow × R.S) := do
  let (cols, s) ← mapRng (abyBit R) c.code.bits s
  pure ({ code := c.code.raw, mask := c.mask.raw, shareA := Bincode.enc (cols.map (·.1)),
          shareB := Bincode.enc (cols.map (·.2.1)), shareC := Bincode.enc (cols.map (·.2.2)) }, s)

/-- `create_aby3_db`, `create_sample_data.rs:37-99`. -/
def createAby3 (R : AppRng) (items : Nat) (s : R.S) (db : List AbyRow) : Except Err (List AbyRow × R.S) := do
  let (codes, s) ← randomCodes R items s
  let (rows, s) ← mapRng (abyRow R) codes s
  pure (db ++ rows, s)

/-- The columns a party selects, `examples/aby3.rs:121-126`. -/
def abyCols (party : Nat) : Except Err (AbyRow → Bytes × Bytes) :=
  match party with
  | 0 => .ok fun r => (r.shareA, r.shareC)
  | 1 => .ok fun r => (r.shareB, r.shareA)
  | 2 => .ok fun r => (r.shareC, r.shareB)
  | i => .error (.idError i)

/-- One round of the loop, `examples/aby3.rs:131-148`. -/
def abyReadRow (sel : AbyRow → Bytes × Bytes) (r : AbyRow) : Except Err (List (AShare 16) × IrisCodeArray) := do
  let mask ← IrisCodeArray.ofRaw r.mask
  let shareA ← Bincode.deserialize (List (BitVec 16)) (sel r).1
  let shareB ← Bincode.deserialize (List (BitVec 16)) (sel r).2
  if shareA.length ≠ irisCodeSize ∨ shareB.length ≠ irisCodeSize then .error .invalidCodeSize
  else pure (List.zipWith AShare.mk shareA shareB, mask)

/-- A loop that collects the results of all rounds. -/
def readRows {α β : Type} (f : α → Except Err β) : List α → Except Err (List β)
  | [] => .ok []
  | r :: rs => do
      let x ← f r
      let xs ← readRows f rs
      pure (x :: xs)

/-- `read_db`, `examples/aby3.rs:117-151`, `examples/aby3_mal.rs:122-156`. -/
def readAby3 (party : Nat) (db : List AbyRow) : Except Err (List (List (AShare 16)) × List IrisCodeArray) := do
  let sel ← abyCols party
  let rows ← readRows (abyReadRow sel) db
  pure (rows.map (·.1), rows.map (·.2))

/-- One round of the loop, `examples/aby3.rs:189-200`. -/
def abyIrisBit (R : AppRng) (party : Nat) (code : IrisCodeArray) (i : Nat) (s : R.S) :
    Except Err (AShare 16 × R.S) := do
  let b ← code.getBit i
  let (r1, s) := R.gen 16 s
  let (r2, s) := R.gen 16 s
  let shares := Aby3.share (ofBit b) r1 r2
  if party > 2 then .error (.idError party)
  else do
    let x ← idx shares party
    pure (x, s)

/-- `get_iris_share`, `examples/aby3.rs:153-203`, `examples/aby3_mal.rs:158-218`. -/
def irisShareAby3 (R : AppRng) (seed : BitVec 64) (shouldMatch : Bool) (party : Nat) (db : List AbyRow) :
    Except Err (List (AShare 16) × IrisCodeArray) := do
  let (iris, s) ← queryIris R seed shouldMatch (db.map (·.toCodeCols))
  let mask ← IrisCodeArray.ofRaw iris.mask.raw
  let (shares, _) ← mapRng (abyIrisBit R party iris.code) (List.range irisCodeSize) s
  pure (shares, mask)

/-- `main`, `examples/aby3.rs:205-268`, one run; `osSeed` is the seed drawn from the operating system in
`preprocessing`. Every run has its own network and a new protocol object. -/
def mainAby3 (G : Prg) (R : AppRng) (seed : BitVec 64) (shouldMatch : Bool) (chunkSize : Nat) (db : List AbyRow)
    (osSeed : Bytes) (me : Party) : Proto (Aby3St G) Bool := do
  let (shares, masks) ← Proto.lift (readAby3 me.val db)
  let (iris, mask) ← Proto.lift (irisShareAby3 R seed shouldMatch me.val db)
  Proto.lift (Iris.new 16)
  Aby3.preprocess me osSeed
  Iris.irisInDb (Aby3.ops G 16 false me) iris shares mask masks chunkSize

/-- `main`, `examples/aby3_mal.rs:220-280`; the four strings are drawn from the operating system in `preprocessing`. -/
def mainMalAby3 (G : Prg) (H : Hash) (R : AppRng) (seed : BitVec 64) (shouldMatch : Bool) (chunkSize : Nat)
    (db : List AbyRow) (seed1 seed2 rand1 rand2 : Bytes) (me : Party) : Proto (JmpSt G) Bool := do
  let (shares, masks) ← Proto.lift (readAby3 me.val db)
  let (iris, mask) ← Proto.lift (irisShareAby3 R seed shouldMatch me.val db)
  Proto.lift (Iris.new 16)
  MalAby3.setupPrfFromSeed H me seed1 seed2 rand1 rand2
  Iris.irisInDb (MalAby3.ops G H 16 false me) iris shares mask masks chunkSize

/-! ## Swift3 -/

/-- A row of `iris_codes`, `create_sample_data.rs:108-119`. -/
structure Swift3Row extends CodeCols where
  shareA : Bytes
  shareB : Bytes
  shareC : Bytes
  shareD : Bytes

/-- `create_sample_data.rs:142-149`. -/
def swift3Bit (R : AppRng) (b : Bool) (s : R.S) :
    Except Err ((BitVec 16 × BitVec 16 × BitVec 16 × BitVec 16) × R.S) := do
  let (r1, s) := R.gen 16 s
  let (r2, s) := R.gen 16 s
  let (r3, s) := R.gen 16 s
  let shares := Swift3.share (ofBit b) r1 r2 r3
  let s0 ← idx shares 0
  let s1 ← idx shares 1
  let s2 ← idx shares 2
  pure ((s0.a, s1.a, s2.a, s0.c), s)

/-- `create_sample_data.rs:136-165`. -/
def swift3Row (R : AppRng) (c : IrisCode) (s : R.S) : Except Err (Swift3Row × R.S) := do
  let (cols, s) ← mapRng (swift3Bit R) c.code.bits s
  pure ({ code := c.code.raw, mask := c.mask.raw, shareA := Bincode.enc (cols.map (·.1)),
          shareB := Bincode.enc (cols.map (·.2.1)), shareC := Bincode.enc (cols.map (·.2.2.1)),
          shareD := Bincode.enc (cols.map (·.2.2.2)) }, s)

/-- `create_swift3_db`, `create_sample_data.rs:101-169`. -/
def createSwift3 (R : AppRng) (items : Nat) (s : R.S) (db : List Swift3Row) : Except Err (List Swift3Row × R.S) := do
  let (codes, s) ← randomCodes R items s
  let (rows, s) ← mapRng (swift3Row R) codes s
  pure (db ++ rows, s)

/-- The columns a party selects, `examples/swift3.rs:114-119`. -/
def swift3Cols (party : Nat) : Except Err (Swift3Row → Bytes × Bytes × Bytes) :=
  match party with
  | 0 => .ok fun r => (r.shareA, r.shareC, r.shareD)
  | 1 => .ok fun r => (r.shareB, r.shareA, r.shareD)
  | 2 => .ok fun r => (r.shareC, r.shareB, r.shareD)
  | i => .error (.idError i)

/-- One round of the loop, `examples/swift3.rs:124-145`. -/
def swift3ReadRow (sel : Swift3Row → Bytes × Bytes × Bytes) (r : Swift3Row) :
    Except Err (List (S3Share 16) × IrisCodeArray) := do
  let mask ← IrisCodeArray.ofRaw r.mask
  let shareA ← Bincode.deserialize (List (BitVec 16)) (sel r).1
  let shareB ← Bincode.deserialize (List (BitVec 16)) (sel r).2.1
  let shareC ← Bincode.deserialize (List (BitVec 16)) (sel r).2.2
  if shareA.length ≠ irisCodeSize ∨ shareB.length ≠ irisCodeSize ∨ shareC.length ≠ irisCodeSize then
    .error .invalidCodeSize
  else pure (List.zipWith (fun (p : BitVec 16 × BitVec 16) c => S3Share.mk p.1 p.2 c) (shareA.zip shareB) shareC, mask)

/-- `read_db`, `examples/swift3.rs:110-148`. -/
def readSwift3 (party : Nat) (db : List Swift3Row) : Except Err (List (List (S3Share 16)) × List IrisCodeArray) := do
  let sel ← swift3Cols party
  let rows ← readRows (swift3ReadRow sel) db
  pure (rows.map (·.1), rows.map (·.2))

/-- One round of the loop, `examples/swift3.rs:186-197`. -/
def swift3IrisBit (R : AppRng) (party : Nat) (code : IrisCodeArray) (i : Nat) (s : R.S) :
    Except Err (S3Share 16 × R.S) := do
  let b ← code.getBit i
  let (r1, s) := R.gen 16 s
  let (r2, s) := R.gen 16 s
  let (r3, s) := R.gen 16 s
  let shares := Swift3.share (ofBit b) r1 r2 r3
  if party > 2 then .error (.idError party)
  else do
    let x ← idx shares party
    pure (x, s)

/-- `get_iris_share`, `examples/swift3.rs:150-200`. -/
def irisShareSwift3 (R : AppRng) (seed : BitVec 64) (shouldMatch : Bool) (party : Nat) (db : List Swift3Row) :
    Except Err (List (S3Share 16) × IrisCodeArray) := do
  let (iris, s) ← queryIris R seed shouldMatch (db.map (·.toCodeCols))
  let mask ← IrisCodeArray.ofRaw iris.mask.raw
  let (shares, _) ← mapRng (swift3IrisBit R party iris.code) (List.range irisCodeSize) s
  pure (shares, mask)

/-- What the operating system supplies to one party of the Swift3 program: seeds and commitment randomness of the
set-up, and the generators of the verification. -/
structure Swift3Os (G : Prg) where
  s0 : Bytes
  s1 : Bytes
  s2 : Bytes
  r0 : Bytes
  r1 : Bytes
  r2 : Bytes
  rngMul : G.S
  rngAnd : G.S
  rngDot : G.S

/-- `main`, `examples/swift3.rs:202-263`. -/
def mainSwift3 (G : Prg) (H : Hash) (R : AppRng) (seed : BitVec 64) (shouldMatch : Bool) (chunkSize : Nat)
    (db : List Swift3Row) (os : Swift3Os G) (me : Party) : Proto (S3St G 16) Bool := do
  let (shares, masks) ← Proto.lift (readSwift3 me.val db)
  let (iris, mask) ← Proto.lift (irisShareSwift3 R seed shouldMatch me.val db)
  Proto.lift (Iris.new 16)
  Swift3.setupPrfFromSeed H me os.s0 os.s1 os.s2 os.r0 os.r1 os.r2
  Iris.irisInDb (Swift3.ops G H 16 false (Swift3.verify H me os.rngMul os.rngAnd os.rngDot) me) iris shares mask masks
    chunkSize

/-! ## SPDZ-wise -/

/-- A row of `iris_codes`, `create_sample_data.rs:178-191`. -/
structure SpdzRow extends CodeCols where
  shareA : Bytes
  macA : Bytes
  shareB : Bytes
  macB : Bytes
  shareC : Bytes
  macC : Bytes

/-- A row of `mac_key`, `create_sample_data.rs:194-203`. -/
structure KeyRow where
  key : Bytes
  shareA : Bytes
  shareB : Bytes
  shareC : Bytes

/-- The database with its two tables. -/
structure SpdzDb where
  keys : List KeyRow
  rows : List SpdzRow

/-- The components pushed for one bit, `create_sample_data.rs:246-258`. -/
structure SpdzCells where
  v1 : BitVec 64
  v2 : BitVec 64
  v3 : BitVec 64
  m1 : BitVec 64
  m2 : BitVec 64
  m3 : BitVec 64

/-- `create_sample_data.rs:246-258`. -/
def spdzBit (R : AppRng) (key : BitVec 64) (b : Bool) (s : R.S) : Except Err (SpdzCells × R.S) := do
  let (r1, s) := R.gen 64 s
  let (r2, s) := R.gen 64 s
  let (r3, s) := R.gen 64 s
  let (r4, s) := R.gen 64 s
  let shares := Spdz.share (ofBit b) key r1 r2 r3 r4
  let s0 ← idx shares 0
  let s1 ← idx shares 1
  let s2 ← idx shares 2
  pure (⟨s0.value.a, s1.value.a, s2.value.a, s0.mac.a, s1.mac.a, s2.mac.a⟩, s)

/-- `create_sample_data.rs:239-277`. -/
def spdzRow (R : AppRng) (key : BitVec 64) (c : IrisCode) (s : R.S) : Except Err (SpdzRow × R.S) := do
  let (cols, s) ← mapRng (spdzBit R key) c.code.bits s
  pure ({ code := c.code.raw, mask := c.mask.raw, shareA := Bincode.enc (cols.map (·.v1)),
          macA := Bincode.enc (cols.map (·.m1)), shareB := Bincode.enc (cols.map (·.v2)),
          macB := Bincode.enc (cols.map (·.m2)), shareC := Bincode.enc (cols.map (·.v3)),
          macC := Bincode.enc (cols.map (·.m3)) }, s)

/-- `create_spdzwise_db`, `create_sample_data.rs:171-281`. -/
def createSpdz (R : AppRng) (items : Nat) (s : R.S) (db : SpdzDb) : Except Err (SpdzDb × R.S) := do
  let (key, s) := R.gen 64 s
  let (codes, s) ← randomCodes R items s
  let (r1, s) := R.gen 64 s
  let (r2, s) := R.gen 64 s
  let shares := Aby3.share key r1 r2
  let s0 ← idx shares 0
  let s1 ← idx shares 1
  let s2 ← idx shares 2
  let keyRow : KeyRow := ⟨Bincode.enc key, Bincode.enc s0.a, Bincode.enc s1.a, Bincode.enc s2.a⟩
  let (rows, s) ← mapRng (spdzRow R key) codes s
  pure (⟨db.keys ++ [keyRow], db.rows ++ rows⟩, s)

/-- The columns of `mac_key` a party selects, `examples/spdzwise.rs:136-141`. -/
def keyCols (party : Nat) : Except Err (KeyRow → Bytes × Bytes) :=
  match party with
  | 0 => .ok fun r => (r.shareA, r.shareC)
  | 1 => .ok fun r => (r.shareB, r.shareA)
  | 2 => .ok fun r => (r.shareC, r.shareB)
  | i => .error (.idError i)

/-- The columns of `iris_codes` a party selects, `examples/spdzwise.rs:163-168`. -/
def spdzCols (party : Nat) : Except Err (SpdzRow → Bytes × Bytes × Bytes × Bytes) :=
  match party with
  | 0 => .ok fun r => (r.shareA, r.macA, r.shareC, r.macC)
  | 1 => .ok fun r => (r.shareB, r.macB, r.shareA, r.macA)
  | 2 => .ok fun r => (r.shareC, r.macC, r.shareB, r.macB)
  | i => .error (.idError i)

/-- One round of the loop, `examples/spdzwise.rs:172-204`. -/
def spdzReadRow (sel : SpdzRow → Bytes × Bytes × Bytes × Bytes) (r : SpdzRow) :
    Except Err (List (SShare 64) × IrisCodeArray) := do
  let mask ← IrisCodeArray.ofRaw r.mask
  let shareA ← Bincode.deserialize (List (BitVec 64)) (sel r).1
  let macA ← Bincode.deserialize (List (BitVec 64)) (sel r).2.1
  let shareB ← Bincode.deserialize (List (BitVec 64)) (sel r).2.2.1
  let macB ← Bincode.deserialize (List (BitVec 64)) (sel r).2.2.2
  if shareA.length ≠ irisCodeSize ∨ shareB.length ≠ irisCodeSize ∨ macA.length ≠ irisCodeSize ∨
      macB.length ≠ irisCodeSize then .error .invalidCodeSize
  else pure (List.zipWith (fun (p q : BitVec 64 × BitVec 64) => SShare.mk ⟨p.1, p.2⟩ ⟨q.1, q.2⟩) (shareA.zip shareB)
    (macA.zip macB), mask)

/-- `SharedDB`, `examples/spdzwise.rs:109-115`. -/
structure SpdzShared where
  shares : List (List (SShare 64))
  masks : List IrisCodeArray
  macKey : BitVec 64
  macKeyShare : SShare 64

/-- `read_db`, `examples/spdzwise.rs:131-207`. -/
def readSpdz (party : Nat) (db : SpdzDb) : Except Err SpdzShared := do
  let sel ← keyCols party
  match db.keys with
  | [] => .error .other
  | row :: more => do
      let shareA ← Bincode.deserialize (BitVec 64) (sel row).1
      let shareB ← Bincode.deserialize (BitVec 64) (sel row).2
      let macKey ← Bincode.deserialize (BitVec 64) row.key
      if more ≠ [] then .error .other
      else do
        let sel ← spdzCols party
        let rows ← readRows (spdzReadRow sel) db.rows
        pure ⟨rows.map (·.1), rows.map (·.2), macKey, ⟨AShare.zero 64, ⟨shareA, shareB⟩⟩⟩

/-- One round of the loop, `examples/spdzwise.rs:246-254`. -/
def spdzIrisBit (R : AppRng) (key : BitVec 64) (party : Nat) (code : IrisCodeArray) (i : Nat) (s : R.S) :
    Except Err (SShare 64 × R.S) := do
  let b ← code.getBit i
  let (r1, s) := R.gen 64 s
  let (r2, s) := R.gen 64 s
  let (r3, s) := R.gen 64 s
  let (r4, s) := R.gen 64 s
  let shares := Spdz.share (ofBit b) key r1 r2 r3 r4
  if party > 2 then .error (.idError party)
  else do
    let x ← idx shares party
    pure (x, s)

/-- `get_iris_share`, `examples/spdzwise.rs:209-258`. -/
def irisShareSpdz (R : AppRng) (seed : BitVec 64) (shouldMatch : Bool) (party : Nat) (db : SpdzDb) (key : BitVec 64) :
    Except Err (List (SShare 64) × IrisCodeArray) := do
  let (iris, s) ← queryIris R seed shouldMatch (db.rows.map (·.toCodeCols))
  let mask ← IrisCodeArray.ofRaw iris.mask.raw
  let (shares, _) ← mapRng (spdzIrisBit R key party iris.code) (List.range irisCodeSize) s
  pure (shares, mask)

/-- `main`, `examples/spdzwise.rs:260-323`, one run. -/
def mainSpdz (G : Prg) (H : Hash) (R : AppRng) (seed : BitVec 64) (shouldMatch : Bool) (chunkSize : Nat) (db : SpdzDb)
    (osSeed : Bytes) (me : Party) : Proto (SpdzSt G 64) Bool := do
  let shared ← Proto.lift (readSpdz me.val db)
  let (iris, mask) ← Proto.lift (irisShareSpdz R seed shouldMatch me.val db shared.macKey)
  Proto.lift (Iris.new 16)
  Spdz.preprocess me osSeed
  Spdz.setMacKey shared.macKeyShare
  Iris.irisInDb (Spdz.ops G H 16 false me) iris shared.shares mask shared.masks chunkSize

end App

end Verif
