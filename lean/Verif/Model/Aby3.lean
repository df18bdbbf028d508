import Verif.Model.AShare

/-!
# The semi-honest ABY3 backend, `iris-mpc/src/aby3/protocol.rs`
-/

namespace Verif

/-- `Aby3<N>`, `aby3/protocol.rs:20-23`; the network is the ambient `Prog`. -/
structure Aby3St (G : Prg) where
  prf : Prf G

namespace Aby3

variable {G : Prg} {K : Nat}

/-- `self.prf.gen_zero_share()`, `aby3/random/prf.rs:51-57`. -/
def genZero (K : Nat) : Proto (Aby3St G) (BitVec K) :=
  Proto.step fun s => ((s.prf.genZeroShare K).1, { s with prf := (s.prf.genZeroShare K).2 })

/-- `self.prf.gen_binary_zero_share()`, `aby3/random/prf.rs:59-65`. -/
def genBinZero (K : Nat) : Proto (Aby3St G) (BitVec K) :=
  Proto.step fun s => ((s.prf.genBinaryZeroShare K).1, { s with prf := (s.prf.genBinaryZeroShare K).2 })

/-- `setup_prf_from_seed`, `aby3/protocol.rs:57-63`. -/
def setupPrfFromSeed (me : Party) (seed : Bytes) : Proto (Aby3St G) Unit := do
  let response ← Proto.net (sendAndReceive me seed)
  let theirSeed ← Proto.lift (bytesToSeed response)
  Proto.step fun s => ((), { s with prf := Prf.new seed theirSeed })

/-- `preprocess` = `setup_prf`, `aby3/protocol.rs:52-55, 271-273`. `Prf::gen_seed()` draws the seed from
the operating system; it is a parameter here, so the theorems hold for every seed. -/
def preprocess (me : Party) (osSeed : Bytes) : Proto (Aby3St G) Unit := setupPrfFromSeed me osSeed

/-- `a2b_pre`, `aby3/protocol.rs:65-88`. -/
def a2bPre (me : Party) (x : AShare K) : AShare K × AShare K × AShare K :=
  match me with
  | 0 => (⟨x.a, 0⟩, ⟨0, 0⟩, ⟨0, x.b⟩)
  | 1 => (⟨0, x.b⟩, ⟨x.a, 0⟩, ⟨0, 0⟩)
  | 2 => (⟨0, 0⟩, ⟨0, x.b⟩, ⟨x.a, 0⟩)

/-- The loop of `mul_many`, `aby3/protocol.rs:156-161`. -/
def mulLoop : List (AShare K × AShare K) → Proto (Aby3St G) (List (BitVec K))
  | [] => pure []
  | (x, y) :: rest => do
      let rand ← genZero K
      let c := (x.mulLocal y).a + rand
      let cs ← mulLoop rest
      pure (c :: cs)

/-- `mul_many`, `aby3/protocol.rs:144-172`. -/
def mulMany (me : Party) (a b : List (AShare K)) : Proto (Aby3St G) (List (AShare K)) := do
  let sharesA ← mulLoop (a.zip b)
  let sharesB ← Proto.net (sendSliceAndReceiveIter me sharesA)
  pure (List.zipWith AShare.mk sharesA sharesB)

/-- `input`, `aby3/protocol.rs:286-304`; three parties. -/
def input (me : Party) (inp : Option (BitVec K)) (id : Nat) : Proto (Aby3St G) (AShare K) :=
  if id ≥ 3 then Proto.throw (.idError id)
  else do
    let shareA ← genZero K
    if id = me.val then
      match inp with
      | none => Proto.throw .value
      | some v => do
          let shareA := shareA + v
          let shareB ← Proto.net (sendAndReceiveValue me shareA)
          pure ⟨shareA, shareB⟩
    else do
      let shareB ← Proto.net (sendAndReceiveValue me shareA)
      pure ⟨shareA, shareB⟩

/-- `input_all`, `aby3/protocol.rs:307-328`. -/
def inputAll (me : Party) (inp : BitVec K) : Proto (Aby3St G) (List (AShare K)) := do
  let s0 ← genZero K
  let s1 ← genZero K
  let s2 ← genZero K
  let sharesA := [if me = 0 then s0 + inp else s0, if me = 1 then s1 + inp else s1,
    if me = 2 then s2 + inp else s2]
  let sharesB ← Proto.net (sendSliceAndReceiveIter me sharesA)
  pure (List.zipWith AShare.mk sharesA sharesB)

/-- `share`, `aby3/protocol.rs:330-340`: `a`, `b` are the two ring elements drawn from the `rng`. -/
def share (input a b : BitVec K) : List (AShare K) :=
  let c := input - a - b
  [⟨a, c⟩, ⟨b, a⟩, ⟨c, b⟩]

/-- `open`, `aby3/protocol.rs:342-345`. -/
def openShare (me : Party) (s : AShare K) : Proto (Aby3St G) (BitVec K) := do
  let c ← Proto.net (sendAndReceiveValue me s.b)
  pure (s.a + s.b + c)

/-- `open_many`, `aby3/protocol.rs:347-356`. -/
def openMany (me : Party) (ss : List (AShare K)) : Proto (Aby3St G) (List (BitVec K)) := do
  let cs ← Proto.net (sendSliceAndReceiveIter me (ss.map (·.b)))
  pure (List.zipWith (fun s c => c + s.a + s.b) ss cs)

/-- `open_bit`, `aby3/protocol.rs:358-361`. -/
def openBit (me : Party) (s : AShare 1) : Proto (Aby3St G) Bool := do
  let c ← Proto.net (sendAndReceiveValue me s.b)
  pure (bitVal (s.a ^^^ s.b ^^^ c))

/-- `open_bit_many`, `aby3/protocol.rs:363-372`. -/
def openBitMany (me : Party) (ss : List (AShare 1)) : Proto (Aby3St G) (List Bool) := do
  let cs ← Proto.net (sendSliceAndReceiveIter me (ss.map (·.b)))
  pure (List.zipWith (fun s c => bitVal (c ^^^ s.a ^^^ s.b)) ss cs)

/-- `mul`, `aby3/protocol.rs:402-411`. -/
def mul (me : Party) (a b : AShare K) : Proto (Aby3St G) (AShare K) := do
  let rand ← genZero K
  let ca := (a.mulLocal b).a + rand
  let cb ← Proto.net (sendAndReceiveValue me ca)
  pure ⟨ca, cb⟩

/-- The accumulation `rand += (a * b).a` / `c += a * b`, `aby3/protocol.rs:424-426, 450-452`. -/
def dotAcc (rand : BitVec K) (ps : List (AShare K × AShare K)) : BitVec K :=
  ps.foldl (fun acc p => acc + (p.1.mulLocal p.2).a) rand

/-- `dot`, `aby3/protocol.rs:417-432`. -/
def dot (me : Party) (a b : List (AShare K)) : Proto (Aby3St G) (AShare K) :=
  if a.length ≠ b.length then Proto.throw .invalidSize
  else do
    let rand ← genZero K
    let ca := dotAcc rand (a.zip b)
    let cb ← Proto.net (sendAndReceiveValue me ca)
    pure ⟨ca, cb⟩

/-- The loop of `dot_many`, `aby3/protocol.rs:445-454`. -/
def dotLoop : List (List (AShare K) × List (AShare K)) → Proto (Aby3St G) (List (BitVec K))
  | [] => pure []
  | (a, b) :: rest => do
      let rand ← genZero K
      if a.length ≠ b.length then Proto.throw .invalidSize
      else do
        let cs ← dotLoop rest
        pure (dotAcc rand (a.zip b) :: cs)

/-- `dot_many`, `aby3/protocol.rs:434-466`. -/
def dotMany (me : Party) (a b : List (List (AShare K))) : Proto (Aby3St G) (List (AShare K)) :=
  if a.length ≠ b.length then Proto.throw .invalidSize
  else do
    let sharesA ← dotLoop (a.zip b)
    let sharesB ← Proto.net (sendSliceAndReceiveIter me sharesA)
    pure (List.zipWith AShare.mk sharesA sharesB)

/-- The masked accumulation, `aby3/protocol.rs:485-490`: `zip` with the 12800 bits of the mask. -/
def maskedAcc (rand : BitVec K) (ps : List ((AShare K × AShare K) × Bool)) : BitVec K :=
  ps.foldl (fun acc p => if p.2 then acc + (p.1.1.mulLocal p.1.2).a else acc) rand

/-- The loop of `masked_dot_many`, `aby3/protocol.rs:480-492`. -/
def maskedDotLoop (a : List (AShare K)) :
    List (List (AShare K) × IrisCodeArray) → Proto (Aby3St G) (List (BitVec K))
  | [] => pure []
  | (b, mask) :: rest => do
      let rand ← genZero K
      if a.length ≠ b.length then Proto.throw .invalidSize
      else do
        let cs ← maskedDotLoop a rest
        pure (maskedAcc rand ((a.zip b).zip mask.bits) :: cs)

/-- `masked_dot_many`, `aby3/protocol.rs:468-504`. -/
def maskedDotMany (me : Party) (a : List (AShare K)) (b : List (List (AShare K)))
    (masks : List IrisCodeArray) : Proto (Aby3St G) (List (AShare K)) :=
  if a.length ≠ irisCodeSize then Proto.throw .invalidSize
  else do
    let sharesA ← maskedDotLoop a (b.zip masks)
    let sharesB ← Proto.net (sendSliceAndReceiveIter me sharesA)
    pure (List.zipWith AShare.mk sharesA sharesB)

/-- `and`, `aby3/protocol.rs:556-565`. -/
def and (me : Party) (a b : AShare K) : Proto (Aby3St G) (AShare K) := do
  let rand ← genBinZero K
  let ca := (a.andLocal b).a ^^^ rand
  let cb ← Proto.net (sendAndReceiveValue me ca)
  pure ⟨ca, cb⟩

/-- The loop of `and_many`, `aby3/protocol.rs:576-581`. -/
def andLoop : List (AShare K × AShare K) → Proto (Aby3St G) (List (BitVec K))
  | [] => pure []
  | (x, y) :: rest => do
      let rand ← genBinZero K
      let c := (x.andLocal y).a ^^^ rand
      let cs ← andLoop rest
      pure (c :: cs)

/-- `and_many`, `aby3/protocol.rs:567-593`. -/
def andMany (me : Party) (a b : List (AShare K)) : Proto (Aby3St G) (List (AShare K)) :=
  if a.length ≠ b.length then Proto.throw .invalidSize
  else do
    let sharesA ← andLoop (a.zip b)
    let sharesB ← Proto.net (sendSliceAndReceiveIter me sharesA)
    pure (List.zipWith AShare.mk sharesA sharesB)

/-- `BinaryMpcTrait<T, Share<T>> for Aby3`, `aby3/protocol.rs:552-617`, for all widths. -/
def fam (G : Prg) (me : Party) : BinFam (Aby3St G) AShare where
  ops K := { xor := AShare.xor, shl := AShare.shl, and := Aby3.and me, andMany := Aby3.andMany me }
  zero := AShare.zero
  mapLists := AShare.mapLists

/-- `arithmetic_to_binary`, `aby3/protocol.rs:595-598`. -/
def a2b (me : Party) (x : AShare K) : Proto (Aby3St G) (AShare K) :=
  ((fam G me).ops K).binaryAdd3 K (a2bPre me x).1 (a2bPre me x).2.1 (a2bPre me x).2.2

/-- `arithmetic_to_binary_many`, `aby3/protocol.rs:600-616`. -/
def a2bMany (me : Party) (xs : List (AShare K)) : Proto (Aby3St G) (List (AShare K)) :=
  ((fam G me).ops K).binaryAdd3Many K (xs.map fun x => (a2bPre me x).1)
    (xs.map fun x => (a2bPre me x).2.1) (xs.map fun x => (a2bPre me x).2.2)

/-- `get_msb`, `aby3/protocol.rs:506-509`. -/
def getMsb (me : Party) (a : AShare K) : Proto (Aby3St G) (AShare 1) := do
  let bits ← a2b me a
  pure bits.getMsb

/-- `get_msb_many`, `aby3/protocol.rs:511-531`. -/
def getMsbMany (me : Party) (xs : List (AShare K)) : Proto (Aby3St G) (List (AShare 1)) :=
  (fam G me).msbAdderMany (xs.map fun x => (a2bPre me x).1) (xs.map fun x => (a2bPre me x).2.1)
    (xs.map fun x => (a2bPre me x).2.2)

/-- `binary_or`, `aby3/protocol.rs:533-535`. -/
def binaryOr (me : Party) (a b : AShare 1) : Proto (Aby3St G) (AShare 1) := ((fam G me).ops 1).or a b

/-- `reduce_binary_or`, `aby3/protocol.rs:537-545`. -/
def reduceBinaryOr (me : Party) (a : List (AShare 1)) (chunkSize : Nat) : Proto (Aby3St G) (AShare 1) :=
  (fam G me).reduceBinaryOr a chunkSize

/-- `verify`, `aby3/protocol.rs:547-549`. -/
def verify : Proto (Aby3St G) Unit := pure ()

end Aby3

end Verif
