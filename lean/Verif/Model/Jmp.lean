import Verif.Model.Hash
import Verif.Model.Aby3

/-!
# Joint message passing

The part of the state and the methods that `aby3_mal/protocol.rs` and `spdzwise/protocol.rs` have in common
(textually identical): values are sent by one of the two parties that know them, the other one only hashes them,
and `jmp_verify` compares the hashes.
-/

namespace Verif

/-- `MalAby3`, `aby3_mal/protocol.rs:24-29` (without the network), and the fields `aby3.prf`, `send_queue_prev`,
`rcv_queue_next` of `SpdzWise`, `spdzwise/protocol.rs:27-35`. -/
structure JmpSt (G : Prg) where
  prf : Prf G
  sendQueuePrev : Bytes
  rcvQueueNext : Bytes

namespace Jmp

variable {G : Prg} {K : Nat}

/-- `self.prf.gen_rand()`, `aby3/random/prf.rs:44-49`. -/
def genRand (K : Nat) : Proto (JmpSt G) (AShare K) :=
  Proto.step fun s => ((s.prf.genRand K).1, { s with prf := (s.prf.genRand K).2 })

/-- `(0..len).map(|_| self.prf.gen_rand()).collect()`. -/
def genRandMany (K : Nat) : Nat → Proto (JmpSt G) (List (AShare K))
  | 0 => pure []
  | n + 1 => do
      let x ← genRand K
      let xs ← genRandMany K n
      pure (x :: xs)

/-- `self.prf.gen_rands::<R::Seed>()`, `aby3/random/prf.rs:35-42`. -/
def genSeeds : Proto (JmpSt G) (Bytes × Bytes) :=
  Proto.step fun s => (((G.genSeed s.prf.my).1, (G.genSeed s.prf.next).1),
    { s with prf := ⟨(G.genSeed s.prf.my).2, (G.genSeed s.prf.next).2⟩ })

/-- The ABY3 code that only uses the `prf` field. -/
def viaPrf {α : Type} (p : Proto (Aby3St G) α) : Proto (JmpSt G) α :=
  Proto.zoom (fun s => ⟨s.prf⟩) (fun s t => { s with prf := t.prf }) p

/-- `jmp_send`, `aby3_mal/protocol.rs:48-50`, `spdzwise/protocol.rs:164-166`. -/
def jmpSend (me : Party) (x : BitVec K) : Proto (JmpSt G) Unit := Proto.net (sendValueNext me x)

/-- `jmp_buffer`, `aby3_mal/protocol.rs:53-55`, `spdzwise/protocol.rs:169-171`. -/
def jmpBuffer (x : BitVec K) : Proto (JmpSt G) Unit :=
  Proto.step fun s => ((), { s with sendQueuePrev := s.sendQueuePrev ++ toBytes x })

/-- `jmp_send_many`, `aby3_mal/protocol.rs:58-60`, `spdzwise/protocol.rs:174-176`. -/
def jmpSendMany (me : Party) (xs : List (BitVec K)) : Proto (JmpSt G) Unit := Proto.net (sendVecNext me xs)

/-- `jmp_buffer_many`, `aby3_mal/protocol.rs:62-66`, `spdzwise/protocol.rs:178-182`. -/
def jmpBufferMany (xs : List (BitVec K)) : Proto (JmpSt G) Unit :=
  Proto.step fun s => ((), { s with sendQueuePrev := xs.foldl (fun q x => q ++ toBytes x) s.sendQueuePrev })

/-- `jmp_receive`, `aby3_mal/protocol.rs:68-72`, `spdzwise/protocol.rs:184-188`. -/
def jmpReceive (K : Nat) (me : Party) : Proto (JmpSt G) (BitVec K) := do
  let value ← Proto.net (receiveValuePrev K me)
  Proto.step fun s => (value, { s with rcvQueueNext := s.rcvQueueNext ++ toBytes value })

/-- `jmp_receive_many`, `aby3_mal/protocol.rs:74-82`, `spdzwise/protocol.rs:190-198`. -/
def jmpReceiveMany (K : Nat) (me : Party) (len : Nat) : Proto (JmpSt G) (List (BitVec K)) := do
  let values ← Proto.net (receiveVecPrev K me len)
  Proto.step fun s => (values, { s with rcvQueueNext := values.foldl (fun q x => q ++ toBytes x) s.rcvQueueNext })

/-- `jmp_send_receive`, `aby3_mal/protocol.rs:84-92`, `spdzwise/protocol.rs:200-208`. -/
def jmpSendReceive (me : Party) (send buffer : BitVec K) : Proto (JmpSt G) (BitVec K) := do
  jmpBuffer buffer
  jmpSend me send
  jmpReceive K me

/-- `jmp_send_receive_many`, `aby3_mal/protocol.rs:94-103`, `spdzwise/protocol.rs:210-219`. -/
def jmpSendReceiveMany (me : Party) (send buffer : List (BitVec K)) : Proto (JmpSt G) (List (BitVec K)) := do
  jmpBufferMany buffer
  jmpSendMany me send
  jmpReceiveMany K me send.length

/-- `jmp_verify`, `aby3_mal/protocol.rs:105-120`, `spdzwise/protocol.rs:230-246`; `clear_and_hash`,
`aby3_mal/protocol.rs:1350-1357`, `spdzwise/protocol.rs:221-228`. -/
def jmpVerify (H : Hash) (me : Party) : Proto (JmpSt G) Unit := do
  let (sendPrev', hashNext) ← Proto.step fun s : JmpSt G =>
    ((H.h s.sendQueuePrev, H.h s.rcvQueueNext), { s with sendQueuePrev := [], rcvQueueNext := [] })
  Proto.net (sendPrev me sendPrev')
  let rcvNext ← Proto.net (recvNext me)
  if rcvNext ≠ hashNext then Proto.throw .jmpVerify else pure ()

/-- `coin`, `aby3_mal/protocol.rs:122-145`, `spdzwise/protocol.rs:248-271`: the seed both as bytes and as
`RingElement<u8>`s. -/
def coin (me : Party) : Proto (JmpSt G) Bytes := do
  let (seed1, seed2) ← genSeeds
  let seed3 ← jmpSendReceiveMany (K := 8) me seed2 seed1
  pure (List.zipWith (fun s1 (p : Byte × Byte) => s1 ^^^ (p.2 ^^^ p.1)) seed1 (seed2.zip seed3))

/-- `reconstruct`, `aby3_mal/protocol.rs:873-878`. -/
def reconstruct (me : Party) (s : AShare K) : Proto (JmpSt G) (BitVec K) := do
  let c ← jmpSendReceive me s.b s.a
  pure (s.a + s.b + c)

/-- `reconstruct_many`, `aby3_mal/protocol.rs:881-905`. -/
def reconstructMany (me : Party) (ss : List (AShare K)) : Proto (JmpSt G) (List (BitVec K)) := do
  let cs ← jmpSendReceiveMany me (ss.map (·.b)) (ss.map (·.a))
  pure (List.zipWith (fun s c => c + s.a + s.b) ss cs)

/-- `reconstruct_binary_many`, `aby3_mal/protocol.rs:908-932`. -/
def reconstructBinaryMany (me : Party) (ss : List (AShare K)) : Proto (JmpSt G) (List (BitVec K)) := do
  let cs ← jmpSendReceiveMany me (ss.map (·.b)) (ss.map (·.a))
  pure (List.zipWith (fun s c => c ^^^ s.a ^^^ s.b) ss cs)

/-- `open`, `aby3_mal/protocol.rs:1069-1077`. -/
def openShare (H : Hash) (me : Party) (s : AShare K) : Proto (JmpSt G) (BitVec K) := do
  jmpVerify H me
  let c ← jmpSendReceive me s.b s.a
  jmpVerify H me
  pure (s.a + s.b + c)

/-- `open_many`, `aby3_mal/protocol.rs:1079-1103`. -/
def openMany (H : Hash) (me : Party) (ss : List (AShare K)) : Proto (JmpSt G) (List (BitVec K)) := do
  jmpVerify H me
  let cs ← jmpSendReceiveMany me (ss.map (·.b)) (ss.map (·.a))
  jmpVerify H me
  pure (List.zipWith (fun s c => c + s.a + s.b) ss cs)

/-- `open_bit`, `aby3_mal/protocol.rs:1105-1113`. -/
def openBit (H : Hash) (me : Party) (s : AShare 1) : Proto (JmpSt G) Bool := do
  jmpVerify H me
  let c ← jmpSendReceive me s.b s.a
  jmpVerify H me
  pure (bitVal (s.a ^^^ s.b ^^^ c))

/-- `open_bit_many`, `aby3_mal/protocol.rs:1115-1139`. -/
def openBitMany (H : Hash) (me : Party) (ss : List (AShare 1)) : Proto (JmpSt G) (List Bool) := do
  jmpVerify H me
  let cs ← jmpSendReceiveMany me (ss.map (·.b)) (ss.map (·.a))
  jmpVerify H me
  pure (List.zipWith (fun s c => bitVal (c ^^^ s.a ^^^ s.b)) ss cs)

end Jmp

end Verif
