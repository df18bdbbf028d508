import Verif.Model.Jmp
import Verif.Model.Iris

/-!
# The maliciously secure ABY3 backend, `iris-mpc/src/aby3_mal/protocol.rs`
-/

namespace Verif

/-- `T::VerificationShare`, `types/sharable.rs:90, 185-191, 358-364`: 64 bits for `Bit` and the types of 8, 16, 32 bits, 128 bits
for those of 64 and 128 bits. -/
def verifWidth (K : Nat) : Nat := if K ≤ 32 then 64 else 128

namespace MalAby3

open Jmp

variable {G : Prg} {K : Nat}

/-- `aby_mul_many`, `aby3_mal/protocol.rs:147-176`; the loop is that of ABY3. -/
def abyMulMany (me : Party) (a b : List (AShare K)) : Proto (JmpSt G) (List (AShare K)) := do
  let sharesA ← viaPrf (Aby3.mulLoop (a.zip b))
  let sharesB ← Proto.net (sendSliceAndReceiveVec me sharesA)
  pure (List.zipWith AShare.mk sharesA sharesB)

/-- `aby_dot_many`, `aby3_mal/protocol.rs:178-213`; the loop is that of ABY3. -/
def abyDotMany (me : Party) (a b : List (List (AShare K))) : Proto (JmpSt G) (List (AShare K)) :=
  if a.length ≠ b.length then Proto.throw .invalidSize
  else do
    let sharesA ← viaPrf (Aby3.dotLoop (a.zip b))
    let sharesB ← Proto.net (sendSliceAndReceiveVec me sharesA)
    pure (List.zipWith AShare.mk sharesA sharesB)

/-- `coin` followed by `R::from_seed(seed)` and `rng.gen::<UShare<T>>()`,
`aby3_mal/protocol.rs:246-249, 339-342, 482-485, 593-595`. -/
def coinElem (V : Nat) (me : Party) : Proto (JmpSt G) (BitVec V) := do
  let seed ← coin me
  pure (G.gen V (G.ofSeed seed)).1

/-- `get_mul_triple`, `aby3_mal/protocol.rs:215-292`, with `V = UShare::<T>::K`. -/
def getMulTriple (H : Hash) (V K : Nat) (me : Party) : Proto (JmpSt G) (AShare K × AShare K × AShare K) :=
  if V - K < 40 then Proto.throw .panic
  else do
    let a ← genRand V
    let a' ← genRand V
    let b ← genRand V
    let cs ← abyMulMany me [a, a'] [b, b]
    let c0 ← Proto.lift (idx cs 0)
    let c1 ← Proto.lift (idx cs 1)
    let r ← coinElem V me
    let v ← reconstruct me ((a.mulConst r).sub a')
    jmpVerify H me
    let w := ((b.mulConst v).sub (c0.mulConst r)).add c1
    Proto.net (hashZeroVerify H me [w])
    pure (a.fromVerif K, b.fromVerif K, c0.fromVerif K)

/-- The checked values of `get_mul_triple_many`, `aby3_mal/protocol.rs:369-369` (and the two other arms). -/
def tripleCheck {V : Nat} (r : BitVec V) (b : List (AShare V)) (v : List (BitVec V)) (c0 c1 : List (AShare V)) :
    List (AShare V) :=
  List.zipWith (fun (p : AShare V × BitVec V) (q : AShare V × AShare V) =>
    ((p.1.mulConst p.2).sub (q.1.mulConst r)).add q.2) (b.zip v) (c0.zip c1)

/-- `get_mul_triple_many`, `aby3_mal/protocol.rs:294-432`. -/
def getMulTripleMany (H : Hash) (V K : Nat) (me : Party) (len : Nat) :
    Proto (JmpSt G) (List (AShare K) × List (AShare K) × List (AShare K)) :=
  if V - K < 40 then Proto.throw .panic
  else do
    let a ← genRandMany V len
    let b ← genRandMany V len
    let a' ← genRandMany V len
    let cs ← abyMulMany me (a ++ a') (b ++ b)
    let r ← coinElem V me
    let v ← reconstructMany me (List.zipWith (fun x y => (x.mulConst r).sub y) a a')
    jmpVerify H me
    Proto.net (hashZeroVerify H me (tripleCheck r b v (cs.take len) (cs.drop len)))
    pure (a.map (·.fromVerif K), b.map (·.fromVerif K), (cs.take len).map (·.fromVerif K))

/-- The accumulation `w += b * v`, `aby3_mal/protocol.rs:493-496`. -/
def dotCheckAcc {V : Nat} (w : AShare V) (ps : List (BitVec V × AShare V)) : AShare V :=
  ps.foldl (fun acc p => acc.add (p.2.mulConst p.1)) w

/-- `dot_sacrifice`, `aby3_mal/protocol.rs:434-534`. -/
def dotSacrifice (H : Hash) (V : Nat) (me : Party) (a b : List (AShare K)) : Proto (JmpSt G) (AShare K) :=
  if V - K < 40 then Proto.throw .panic
  else do
    let av := a.map (·.toVerif V)
    let bv := b.map (·.toVerif V)
    let a' ← genRandMany V a.length
    let cs ← abyDotMany me [av, a'] [bv, bv]
    let c0 ← Proto.lift (idx cs 0)
    let c1 ← Proto.lift (idx cs 1)
    let r ← coinElem V me
    let v ← reconstructMany me (List.zipWith (fun x y => (x.mulConst r).sub y) av a')
    jmpVerify H me
    let w := dotCheckAcc ((c0.neg.mulConst r).add c1) (v.zip bv)
    Proto.net (hashZeroVerify H me [w])
    pure (c0.fromVerif K)

/-- Drawing the random vectors of `dot_sacrifice_many`, `aby3_mal/protocol.rs:584-591`. -/
def genRandVecs (V : Nat) : List Nat → Proto (JmpSt G) (List (List (AShare V)))
  | [] => pure []
  | n :: ns => do
      let x ← genRandMany V n
      let xs ← genRandVecs V ns
      pure (x :: xs)

/-- The checked values of `dot_sacrifice_many`, `aby3_mal/protocol.rs:620-630` (and the two other arms): the opened
values are consumed from one iterator (`expect("Sizes are checked")`). -/
def dotCheckLoop {V : Nat} (r : BitVec V) : List (BitVec V) → List (List (AShare V) × (AShare V × AShare V)) →
    Except Err (List (AShare V))
  | _, [] => .ok []
  | v, (b, c0, c1) :: rest =>
      if v.length < b.length then .error .panic
      else do
        let ws ← dotCheckLoop r (v.drop b.length) rest
        pure (dotCheckAcc ((c0.neg.mulConst r).add c1) ((v.take b.length).zip b) :: ws)

/-- `dot_sacrifice_many`, `aby3_mal/protocol.rs:536-699`. -/
def dotSacrificeMany (H : Hash) (V : Nat) (me : Party) (a b : List (List (AShare K))) :
    Proto (JmpSt G) (List (AShare K)) :=
  if V - K < 40 then Proto.throw .panic
  else do
    let av := a.map fun l => l.map (·.toVerif V)
    let bv := b.map fun l => l.map (·.toVerif V)
    let a' ← genRandVecs V (bv.map List.length)
    let cs ← abyDotMany me (av ++ a') (bv ++ bv)
    let r ← coinElem V me
    let v ← reconstructMany me
      (List.zipWith (fun xs ys => List.zipWith (fun x y => (x.mulConst r).sub y) xs ys) av a').flatten
    jmpVerify H me
    let ws ← Proto.lift (dotCheckLoop r v (bv.zip ((cs.take a.length).zip (cs.drop a.length))))
    Proto.net (hashZeroVerify H me ws)
    pure ((cs.take a.length).map (·.fromVerif K))

/-! ## Set-up -/

/-- `send_seed_opening`, `aby3_mal/protocol.rs:701-725`. -/
def sendSeedOpening (me : Party) (o1 o2 : CommitOpening 8) : Prog Unit := do
  sendNext me (ringSliceToBytes o1.values ++ o1.rand)
  sendPrev me (ringSliceToBytes o2.values ++ o2.rand)

/-- `verify_commitment`, `aby3_mal/protocol.rs:727-733`. -/
def verifyCommitment (H : Hash) (data rand comm : Bytes) : Bool :=
  CommitOpening.verify H (⟨data, rand⟩ : CommitOpening 8) comm

/-- `setup_prf_from_seed`, `aby3_mal/protocol.rs:741-821`; `rand1`, `rand2` are the commitment randomness drawn from
`ChaCha12Rng::from_entropy()`. -/
def setupPrfFromSeed (H : Hash) (me : Party) (seed1 seed2 rand1 rand2 : Bytes) : Proto (JmpSt G) Unit := do
  let comm1 : Commitment 8 := Commitment.commit H seed1 rand1
  let comm2 : Commitment 8 := Commitment.commit H seed2 rand2
  Proto.net (sendNext me comm1.comm)
  Proto.net (sendPrev me comm2.comm)
  let rcvComm1 ← Proto.net (recvNext me)
  let rcvComm2 ← Proto.net (recvPrev me)
  if rcvComm1.length ≠ Commitment.commSize ∨ rcvComm2.length ≠ Commitment.commSize then
    Proto.throw .invalidMessageSize
  else do
    Proto.net (sendSeedOpening me comm1.opening comm2.opening)
    let msg1 ← Proto.net (recvNext me)
    let msg2 ← Proto.net (recvPrev me)
    if msg1.length ≠ seed1.length + Commitment.randSize ∨ msg2.length ≠ seed1.length + Commitment.randSize then
      Proto.throw .invalidMessageSize
    else if verifyCommitment H (msg1.take seed1.length) (msg1.drop seed1.length) rcvComm1 = false then
      Proto.throw (.invalidCommitment ((me.val + 1) % 3))
    else if verifyCommitment H (msg2.take seed1.length) (msg2.drop seed1.length) rcvComm2 = false then
      Proto.throw (.invalidCommitment ((me.val + 2) % 3))
    else
      let key1 := List.zipWith (fun a b => b ^^^ a) seed1 (msg1.take seed1.length)
      let key2 := List.zipWith (fun a b => b ^^^ a) seed2 (msg2.take seed1.length)
      Proto.step fun s => ((), { s with prf := Prf.new key1 key2 })

/-! ## Input and arithmetic -/

/-- `reconstruct_id`, `aby3_mal/protocol.rs:934-956`. -/
def reconstructId (me : Party) (s : AShare K) (id : Nat) : Proto (JmpSt G) (Option (BitVec K)) :=
  if id ≥ 3 then Proto.throw (.idError id)
  else if me.val = id then do
    let c ← jmpReceive K me
    pure (some (s.a + s.b + c))
  else if me.val = (id + 2) % 3 then do
    jmpSend me s.b
    pure none
  else do
    jmpBuffer s.a
    pure none

/-- `input`, `aby3_mal/protocol.rs:1000-1041`. -/
def input (me : Party) (inp : Option (BitVec K)) (id : Nat) : Proto (JmpSt G) (AShare K) :=
  if id ≥ 3 then Proto.throw (.idError id)
  else do
    let share ← genRand K
    let opened ← reconstructId me share id
    if id = me.val then
      match inp with
      | none => Proto.throw .value
      | some x =>
          match opened with
          | none => Proto.throw .panic
          | some o => do
              let value := x - o
              Proto.net (sendValueNext me value)
              Proto.net (sendValuePrev me value)
              pure ⟨share.a + value, share.b⟩
    else if me.val = (id + 1) % 3 then do
      let value ← Proto.net (receiveValuePrev K me)
      Proto.net (sendValueNext me value)
      let value' ← Proto.net (receiveValueNext K me)
      if value ≠ value' then Proto.throw .verify
      else pure ⟨share.a, share.b + value⟩
    else do
      let value ← Proto.net (receiveValueNext K me)
      Proto.net (sendValuePrev me value)
      let value' ← Proto.net (receiveValuePrev K me)
      if value ≠ value' then Proto.throw .verify
      else pure share

/-- `input_all`, `aby3_mal/protocol.rs:1044-1055`. -/
def inputAll (me : Party) (inp : BitVec K) : Proto (JmpSt G) (List (AShare K)) := do
  let s0 ← input me (if me = 0 then some inp else none) 0
  let s1 ← input me (if me = 1 then some inp else none) 1
  let s2 ← input me (if me = 2 then some inp else none) 2
  pure [s0, s1, s2]

/-- `share`, `aby3_mal/protocol.rs:1057-1067` (as in ABY3; the MAC key is ignored). -/
def share (input a b : BitVec K) : List (AShare K) := Aby3.share input a b

/-- `mul`, `aby3_mal/protocol.rs:1169-1187`. -/
def mul (H : Hash) (me : Party) (a b : AShare K) : Proto (JmpSt G) (AShare K) := do
  let (x, y, z) ← getMulTriple H (verifWidth K) K me
  let uv ← reconstructMany me [a.sub x, b.sub y]
  let u ← Proto.lift (idx uv 0)
  let v ← Proto.lift (idx uv 1)
  pure (((z.add (b.mulConst u)).add (a.mulConst v)).subConst (u * v) me)

/-- `dot`, `aby3_mal/protocol.rs:1193-1200`. -/
def dot (H : Hash) (me : Party) (a b : List (AShare K)) : Proto (JmpSt G) (AShare K) :=
  if a.length ≠ b.length then Proto.throw .invalidSize else dotSacrifice H (verifWidth K) me a b

/-- `dot_many`, `aby3_mal/protocol.rs:1202-1213`. -/
def dotMany (H : Hash) (me : Party) (a b : List (List (AShare K))) : Proto (JmpSt G) (List (AShare K)) :=
  if a.length ≠ b.length then Proto.throw .invalidSize else dotSacrificeMany H (verifWidth K) me a b

/-! ## Binary operations -/

/-- `pack_exact`, `aby3_mal/protocol.rs:848-858`. -/
def packExact (K : Nat) (l : List (AShare 1)) : AShare K :=
  ⟨packWord K (l.map (·.a)), packWord K (l.map (·.b))⟩

/-- `pack`, `aby3_mal/protocol.rs:860-870`. -/
def pack (K : Nat) (l : List (AShare 1)) : List (AShare K) := (chunksOf K l).map (packExact K)

/-- `and`, `aby3_mal/protocol.rs:1250-1273`. -/
def and (H : Hash) (me : Party) (a b : AShare K) : Proto (JmpSt G) (AShare K) := do
  let (x, y, z) ← getMulTripleMany H (verifWidth 1) 1 me K
  let uv ← reconstructBinaryMany me [a.xor (packExact K x), b.xor (packExact K y)]
  let u ← Proto.lift (idx uv 0)
  let v ← Proto.lift (idx uv 1)
  pure ((((packExact K z).xor (b.andConst u)).xor (a.andConst v)).xorConst (u &&& v) me)

/-- `and_many`, `aby3_mal/protocol.rs:1275-1324`. -/
def andMany (H : Hash) (me : Party) (a b : List (AShare K)) : Proto (JmpSt G) (List (AShare K)) :=
  if a.length ≠ b.length then Proto.throw .invalidSize
  else do
    let (x, y, z) ← getMulTripleMany H (verifWidth 1) 1 me (K * a.length)
    let uv ← reconstructBinaryMany me
      (List.zipWith AShare.xor a (pack K x) ++ List.zipWith AShare.xor b (pack K y))
    pure (List.zipWith (fun z (q : (AShare K × AShare K) × (BitVec K × BitVec K)) =>
        ((z.xor (q.1.2.andConst q.2.1)).xor (q.1.1.andConst q.2.2)).xorConst (q.2.1 &&& q.2.2) me)
      (pack K z) ((a.zip b).zip ((uv.take a.length).zip (uv.drop a.length))))

/-- `BinaryMpcTrait<T, Share<T>> for MalAby3`, `aby3_mal/protocol.rs:1244-1348`. -/
def binOps (G : Prg) (H : Hash) (K : Nat) (me : Party) : BinOps (JmpSt G) (AShare K) :=
  { xor := AShare.xor, shl := AShare.shl, and := and H me, andMany := andMany H me }

/-- `arithmetic_to_binary`, `aby3_mal/protocol.rs:1326-1329`; `a2b_pre`, `aby3_mal/protocol.rs:823-846`, is that of
ABY3. -/
def a2b (H : Hash) (me : Party) (x : AShare K) : Proto (JmpSt G) (AShare K) :=
  (binOps G H K me).binaryAdd3 K (Aby3.a2bPre me x).1 (Aby3.a2bPre me x).2.1 (Aby3.a2bPre me x).2.2

/-- `arithmetic_to_binary_many`, `aby3_mal/protocol.rs:1331-1347`. -/
def a2bMany (H : Hash) (me : Party) (xs : List (AShare K)) : Proto (JmpSt G) (List (AShare K)) :=
  (binOps G H K me).binaryAdd3Many K (xs.map fun x => (Aby3.a2bPre me x).1)
    (xs.map fun x => (Aby3.a2bPre me x).2.1) (xs.map fun x => (Aby3.a2bPre me x).2.2)

/-- `get_msb`, `aby3_mal/protocol.rs:1215-1218`. -/
def getMsb (H : Hash) (me : Party) (a : AShare K) : Proto (JmpSt G) (AShare 1) := do
  let bits ← a2b H me a
  pure bits.getMsb

/-- `get_msb_many`, `aby3_mal/protocol.rs:1220-1224`. -/
def getMsbMany (H : Hash) (me : Party) (a : List (AShare K)) : Proto (JmpSt G) (List (AShare 1)) := do
  let bits ← a2bMany H me a
  pure (bits.map AShare.getMsb)

/-- `reduce_binary_or`, `aby3_mal/protocol.rs:1230-1237`; `chunk_size * 128` in `usize`. -/
def reduceBinaryOr (H : Hash) (me : Party) (a : List (AShare 1)) (chunkSize : Nat) :
    Proto (JmpSt G) (AShare 1) := do
  let cs ← Proto.lift (usizeE (chunkSize * 128))
  (binOps G H 1 me).orTree cs a

/-- The methods used by the iris protocol; `masked_dot_many` is the provided one (`traits/mpc_trait.rs:51-80`),
`precompute_and_triples` the provided no-op, `verify` is `Ok(())` (`aby3_mal/protocol.rs:1239-1241`). -/
def ops (G : Prg) (H : Hash) (K : Nat) (signed : Bool) (me : Party) : MpcOps (JmpSt G) (AShare K) (AShare 1) K where
  signed := signed
  maskedDotMany := defaultMaskedDotMany (AShare.zero K) (dotMany H me)
  filterReduceAddTwice := AShare.filterReduceAddTwice
  add := AShare.add
  sub := AShare.sub
  mulConst := AShare.mulConst
  subConst _ a c := a.subConst c me
  getMsb := getMsb H me
  getMsbMany := getMsbMany H me
  reduceBinaryOr := reduceBinaryOr H me
  precompute _ := pure ()
  verify := pure ()
  openBit := openBit H me

end MalAby3

end Verif
