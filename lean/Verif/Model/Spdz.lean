import Verif.Model.Triples
import Verif.Model.MalAby3

/-!
# The SPDZ-wise backend, `iris-mpc/src/spdzwise/protocol.rs`

Arithmetic values are shared together with a MAC `r · x` over the verification ring of `V` bits; AND gates use
plain ABY3 shares whose triples are buffered and checked later against precomputed random triples.
-/

namespace Verif

/-- `spdzwise::share::Share<U>`, `spdzwise/share.rs:10-15`. A `VecShare<U>` (`spdzwise/vecshare.rs:10-15`, two
parallel vectors of equal length) is a list of these. -/
@[ext] structure SShare (V : Nat) where
  value : AShare V
  mac : AShare V

namespace SShare

variable {V : Nat}

/-- `Zero`, `spdzwise/share.rs:50-56`. -/
def zero (V : Nat) : SShare V := ⟨AShare.zero V, AShare.zero V⟩

/-- `Add`, `spdzwise/share.rs:39-48`; the method `add`, `spdzwise/protocol.rs:938-955`. -/
def add (x y : SShare V) : SShare V := ⟨x.value.add y.value, x.mac.add y.mac⟩

/-- `sub`, `spdzwise/protocol.rs:982-999`. -/
def sub (x y : SShare V) : SShare V := ⟨x.value.sub y.value, x.mac.sub y.mac⟩

/-- The filtered fold of `filter_reduce_add_twice`, `spdzwise/vecshare.rs:57-74`. -/
def filterSum (mask : IrisCodeArray) (xs : List (SShare V)) : SShare V :=
  (xs.zip mask.bits).foldl (fun acc p => if p.2 then acc.add p.1 else acc) (zero V)

/-- `filter_reduce_add_twice`, `spdzwise/vecshare.rs:49-80`. The code folds both vectors in one pass. -/
def filterReduceAddTwice (a b : List (SShare V)) (mask : IrisCodeArray) : Except Err (SShare V × SShare V) :=
  if a.isEmpty ∨ a.length ≠ b.length then .error .invalidCodeSize
  else .ok (filterSum mask a, filterSum mask b)

end SShare

/-- `SpdzWise<N, U>`, `spdzwise/protocol.rs:27-35`, with `V = U::Share::K`; the generators and the two message
queues are in `jmp`. -/
structure SpdzSt (G : Prg) (V : Nat) where
  jmp : JmpSt G
  macKey : AShare V
  verifyQueue : List (SShare V)
  prec : Triples
  buffer : Triples

/-- `T::to_verificationshare`, `types/sharable.rs:130-132, 179-181, 348-350`: an `as` cast, which extends the sign for
the signed types. -/
def toVerifShare {K : Nat} (signed : Bool) (V : Nat) (x : BitVec K) : BitVec V :=
  if signed then x.signExtend V else x.setWidth V

namespace Spdz

variable {G : Prg} {V K : Nat}

/-- `SpdzWise::new`, `spdzwise/protocol.rs:62-76`; `Prf::default()` (`aby3/random/prf.rs:13-20`) is `prf`. -/
def init (prf : Prf G) : SpdzSt G V := ⟨⟨prf, [], []⟩, AShare.zero V, [], Triples.empty, Triples.empty⟩

/-- Methods that only use the generators and the message queues. -/
def viaJmp {α : Type} (p : Proto (JmpSt G) α) : Proto (SpdzSt G V) α :=
  Proto.zoom (fun s => s.jmp) (fun s t => { s with jmp := t }) p

/-- Methods of the field `aby3`. -/
def viaAby {α : Type} (p : Proto (Aby3St G) α) : Proto (SpdzSt G V) α := viaJmp (Jmp.viaPrf p)

/-- `self.verifyqueue.push` for each element. -/
def queueAll (xs : List (SShare V)) : Proto (SpdzSt G V) Unit :=
  Proto.step fun s => ((), { s with verifyQueue := s.verifyQueue ++ xs })

/-- `verify_macs`, `spdzwise/protocol.rs:135-159`: the linear combination that has to be zero. -/
def macZero (me : Party) : Proto (SpdzSt G V) (AShare V) := do
  let s ← get
  let rands ← viaJmp (Jmp.genRandMany V s.verifyQueue.length)
  let queue ← Proto.step fun s : SpdzSt G V => (s.verifyQueue, { s with verifyQueue := [] })
  let res ← viaAby (Aby3.dotMany me [queue.map (·.value), queue.map (·.mac)] [rands, rands])
  let res0 ← Proto.lift (idx res 0)
  let res1 ← Proto.lift (idx res 1)
  let mul ← viaAby (Aby3.mul me res0 s.macKey)
  pure (mul.sub res1)

/-- `verify_macs`, `spdzwise/protocol.rs:130-161`; `hash_based_zero_verify`, `spdzwise/protocol.rs:91-128`. -/
def verifyMacs (H : Hash) (me : Party) : Proto (SpdzSt G V) Unit := do
  let s ← get
  if s.verifyQueue.isEmpty then pure ()
  else do
    let zero ← macZero me
    Proto.net (hashZeroVerify H me [zero])

/-- `swap_bit`, `spdzwise/protocol.rs:274-291`, on one component of the shares. (Every caller passes positions
below `128 · len`, so the bounds checks cannot fail.) -/
def swapBitC (l : List (BitVec 128)) (i j : Nat) : List (BitVec 128) :=
  let bi := getBit (l.getD (i / 128) 0) (i % 128)
  let bj := getBit (l.getD (j / 128) 0) (j % 128)
  let x := bi ^^^ bj
  (l.modify (i / 128) (· ^^^ ringShl x (i % 128))).modify (j / 128) (· ^^^ ringShl x (j % 128))

/-- `swap_bit`, `spdzwise/protocol.rs:274-291`: the two components are treated alike and independently. -/
def swapBit (a : List (AShare 128)) (i j : Nat) : List (AShare 128) := AShare.mapLists (fun l => swapBitC l i j) a

/-- The loop of `permute`, `spdzwise/protocol.rs:312-318`: `n` positions from `j` on are left;
`rng.gen_range(j..bitlen)` is `j` plus a number below `bitlen - j`. -/
def permuteLoop (G : Prg) : Nat → Nat → G.S → List (AShare 128) × List (AShare 128) × List (AShare 128) →
    List (AShare 128) × List (AShare 128) × List (AShare 128)
  | 0, _, _, t => t
  | n + 1, j, s, (a, b, c) =>
      let i := j + (G.genRange (n + 1) s).1
      permuteLoop G n (j + 1) (G.genRange (n + 1) s).2 (swapBit a i j, swapBit b i j, swapBit c i j)

/-- `permute`, `spdzwise/protocol.rs:293-321`. -/
def permute (me : Party) (a b c : List (AShare 128)) :
    Proto (SpdzSt G V) (List (AShare 128) × List (AShare 128) × List (AShare 128)) :=
  if a.length ≠ b.length ∨ a.length ≠ c.length then Proto.throw .invalidSize
  else do
    let seed ← viaJmp (Jmp.coin me)
    pure (permuteLoop G (a.length * 128) 0 (G.ofSeed seed) (a, b, c))

/-- `aby3_open_bin_many`, `spdzwise/protocol.rs:537-553`. -/
def openBinMany (me : Party) (ss : List (AShare K)) : Proto (SpdzSt G V) (List (BitVec K)) := do
  let cs ← Proto.net (sendSliceAndReceiveIter me (ss.map (·.b)))
  pure (List.zipWith (fun s c => c ^^^ s.a ^^^ s.b) ss cs)

/-- `aby3_jmp_open_bin_many`, `spdzwise/protocol.rs:555-586`. -/
def jmpOpenBinMany (H : Hash) (me : Party) (ss : List (AShare K)) : Proto (SpdzSt G V) (List (BitVec K)) := do
  let cs ← viaJmp (Jmp.jmpSendReceiveMany me (ss.map (·.b)) (ss.map (·.a)))
  viaJmp (Jmp.jmpVerify H me)
  pure (List.zipWith (fun s c => c ^^^ s.a ^^^ s.b) ss cs)

/-- The bytes hashed for one checked value of `verify_triples`, `spdzwise/protocol.rs:422-427, 439-444, 455-460`. -/
def binZeroBytes (me : Party) (w : AShare K) : Bytes :=
  let neg := w.a ^^^ w.b
  match me with
  | 0 => hashBytes w.a ++ hashBytes neg ++ hashBytes w.b
  | 1 => hashBytes w.b ++ hashBytes w.a ++ hashBytes neg
  | 2 => hashBytes neg ++ hashBytes w.b ++ hashBytes w.a

/-- The checked value of one pair of triples, `spdzwise/protocol.rs:419-420, 436-437, 453`. -/
def tripleCheck (me : Party) (a b c z : AShare 128) (p q : BitVec 128) : AShare 128 :=
  (((z.xor c).xor (a.andConst q)).xor (b.andConst p)).xorConst (p &&& q) me

/-- The loops over the triples, `spdzwise/protocol.rs:412-464`. -/
def tripleChecks (me : Party) (a b c z : List (AShare 128)) (p q : List (BitVec 128)) : List (AShare 128) :=
  List.zipWith (fun (t : AShare 128 × AShare 128 × AShare 128) (u : AShare 128 × BitVec 128 × BitVec 128) =>
    tripleCheck me t.2.1 t.2.2 t.1 u.1 u.2.1 u.2.2) (c.zip (a.zip b)) (z.zip (p.zip q))

/-- Broadcast and comparison of the digests, `spdzwise/protocol.rs:466-479`. -/
def binHashZeroVerify (H : Hash) (me : Party) (ws : List (AShare K)) : Prog Unit := do
  let hashes ← broadcast me (H.h (ws.flatMap (binZeroBytes me)))
  let h0 ← Prog.ofExcept (idx hashes 0)
  let h1 ← Prog.ofExcept (idx hashes 1)
  let h2 ← Prog.ofExcept (idx hashes 2)
  if h0 ≠ h1 ∨ h0 ≠ h2 then .fail .verify else pure ()

/-- `verify_triples`, `spdzwise/protocol.rs:389-464`: the values that have to be zero; the `debug_assert_eq!`s on
the lengths panic. -/
def triplesZero (H : Hash) (me : Party) (a b c x y z : List (AShare 128)) : Proto (SpdzSt G V) (List (AShare 128)) :=
  if a.length ≠ b.length ∨ a.length ≠ c.length ∨ a.length ≠ x.length ∨ a.length ≠ y.length ∨ a.length ≠ z.length then
    Proto.throw .panic
  else do
    let pq := List.zipWith (fun a x => x.xor a) a x ++ List.zipWith (fun b y => y.xor b) b y
    let pqOpen ← jmpOpenBinMany H me pq
    pure (tripleChecks me a b c z (pqOpen.take a.length) (pqOpen.drop a.length))

/-- `verify_triples`, `spdzwise/protocol.rs:380-480`. -/
def verifyTriples (H : Hash) (me : Party) (a b c x y z : List (AShare 128)) : Proto (SpdzSt G V) Unit := do
  let ws ← triplesZero H me a b c x y z
  Proto.net (binHashZeroVerify H me ws)

/-- `N = 1usize << (20 - 7)`, `spdzwise/protocol.rs:333, 493`. -/
def minTriples : Nat := 2 ^ 13

/-- `generate_triples`, `spdzwise/protocol.rs:323-378`. -/
def generateTriples (H : Hash) (me : Party) (num : Nat) : Proto (SpdzSt G V) Triples := do
  let n := max num minTriples
  let a ← viaJmp (Jmp.genRandMany 128 (2 * n + 1))
  let b ← viaJmp (Jmp.genRandMany 128 (2 * n + 1))
  let c ← viaAby (Aby3.andMany me a b)
  let (xs, ys, zs) ← permute me (a.drop n) (b.drop n) (c.drop n)
  let (x, xs) ← Proto.lift (popE xs)
  let (y, ys) ← Proto.lift (popE ys)
  let (z, zs) ← Proto.lift (popE zs)
  let opened ← openBinMany me [x, y, z]
  let o0 ← Proto.lift (idx opened 0)
  let o1 ← Proto.lift (idx opened 1)
  let o2 ← Proto.lift (idx opened 2)
  if (o0 &&& o1) ≠ o2 then Proto.throw .verify
  else do
    verifyTriples H me (a.take n) (b.take n) (c.take n) xs ys zs
    Proto.lift (Triples.new (a.take n) (b.take n) (c.take n))

/-- `verify_triple_queue`, `spdzwise/protocol.rs:482-509`. -/
def verifyTripleQueue (H : Hash) (me : Party) : Proto (SpdzSt G V) Unit := do
  let s ← get
  let len := s.buffer.len
  if len = 0 then pure ()
  else do
    let (a, b, c) ← Proto.step fun s : SpdzSt G V => (s.buffer.getAll.1, { s with buffer := s.buffer.getAll.2 })
    let len_ := max len minTriples
    let s ← get
    let ((x, y, z), prec) ← Proto.lift (s.prec.get len_)
    Proto.step fun s : SpdzSt G V => ((), { s with prec := prec })
    let (x, y, z) ← permute me x y z
    if len_ > len then verifyTriples H me a b c (x.take len) (y.take len) (z.take len)
    else verifyTriples H me a b c x y z

/-- `preprocess`, `spdzwise/protocol.rs:741-750`; the seed comes from the operating system. -/
def preprocess (me : Party) (osSeed : Bytes) : Proto (SpdzSt G V) Unit := viaAby (Aby3.preprocess me osSeed)

/-- `precompute_and_triples`, `spdzwise/protocol.rs:752-761`. (The addition `amount + 127` is not checked for
overflow of `usize` here.) -/
def precompute (H : Hash) (me : Party) (amount : Nat) : Proto (SpdzSt G V) Unit := do
  let s ← get
  let ands := s.prec.len
  let amount := (amount + 127) / 128
  if ands ≤ amount then do
    let new ← generateTriples H me (amount - ands)
    let s ← get
    let prec ← Proto.lift (s.prec.extend new)
    Proto.step fun s : SpdzSt G V => ((), { s with prec := prec })
  else pure ()

/-- `set_mac_key`, `spdzwise/protocol.rs:763-766`. -/
def setMacKey (key : SShare V) : Proto (SpdzSt G V) Unit := Proto.step fun s => ((), { s with macKey := key.mac })

/-- `set_new_mac_key`, `spdzwise/protocol.rs:768-770`. -/
def setNewMacKey : Proto (SpdzSt G V) Unit := do
  let key ← viaJmp (Jmp.genRand V)
  Proto.step fun s => ((), { s with macKey := key })

/-- `input`, `spdzwise/protocol.rs:795-818`. -/
def input (signed : Bool) (me : Party) (inp : Option (BitVec K)) (id : Nat) : Proto (SpdzSt G V) (SShare V) := do
  let value ← viaAby (Aby3.input me (inp.map (toVerifShare signed V)) id)
  let s ← get
  let mac ← viaAby (Aby3.mul me value s.macKey)
  queueAll [⟨value, mac⟩]
  pure ⟨value, mac⟩

/-- `input_all`, `spdzwise/protocol.rs:821-832`. -/
def inputAll (signed : Bool) (me : Party) (inp : BitVec K) : Proto (SpdzSt G V) (List (SShare V)) := do
  let s0 ← input signed me (if me = 0 then some inp else none) 0
  let s1 ← input signed me (if me = 1 then some inp else none) 1
  let s2 ← input signed me (if me = 2 then some inp else none) 2
  pure [s0, s1, s2]

/-- `share`, `spdzwise/protocol.rs:834-867`; `a, b, a', b'` are the ring elements drawn from the `rng`. -/
def share (inp : BitVec K) (macKey a b a' b' : BitVec V) : List (SShare V) :=
  let x := toVerif V inp
  let rz := macKey * x
  List.zipWith SShare.mk (Aby3.share x a b) (Aby3.share rz a' b')

/-- `open`, `spdzwise/protocol.rs:869-881`. -/
def openShare (H : Hash) (K : Nat) (me : Party) (s : SShare V) : Proto (SpdzSt G V) (BitVec K) := do
  queueAll [s]
  verifyMacs H me
  let result ← viaAby (Aby3.openShare me s.value)
  pure (fromVerif K result)

/-- `open_many`, `spdzwise/protocol.rs:883-900`. -/
def openMany (H : Hash) (K : Nat) (me : Party) (ss : List (SShare V)) : Proto (SpdzSt G V) (List (BitVec K)) := do
  queueAll ss
  verifyMacs H me
  let result ← viaAby (Aby3.openMany me (ss.map (·.value)))
  pure (result.map (fromVerif K))

/-- `open_bit`, `spdzwise/protocol.rs:902-910`; the same code as in `aby3_mal`. -/
def openBit (H : Hash) (me : Party) (s : AShare 1) : Proto (SpdzSt G V) Bool := viaJmp (Jmp.openBit H me s)

/-- `open_bit_many`, `spdzwise/protocol.rs:912-936`. -/
def openBitMany (H : Hash) (me : Party) (ss : List (AShare 1)) : Proto (SpdzSt G V) (List Bool) :=
  viaJmp (Jmp.openBitMany H me ss)

/-- `add_const`, `spdzwise/protocol.rs:957-980`; `macKey` is `self.get_r()`. -/
def addConst (signed : Bool) (me : Party) (macKey : AShare V) (a : SShare V) (b : BitVec K) : SShare V :=
  let b := toVerifShare signed V b
  ⟨a.value.addConst b me, a.mac.add (macKey.mulConst b)⟩

/-- `sub_const`, `spdzwise/protocol.rs:1001-1024`. -/
def subConst (signed : Bool) (me : Party) (macKey : AShare V) (a : SShare V) (b : BitVec K) : SShare V :=
  let b := toVerifShare signed V b
  ⟨a.value.subConst b me, a.mac.sub (macKey.mulConst b)⟩

/-- `mul_const`, `spdzwise/protocol.rs:1041-1058`. -/
def mulConst (signed : Bool) (a : SShare V) (b : BitVec K) : SShare V :=
  let b := toVerifShare signed V b
  ⟨a.value.mulConst b, a.mac.mulConst b⟩

/-- `mul`, `spdzwise/protocol.rs:1026-1039`. -/
def mul (me : Party) (a b : SShare V) : Proto (SpdzSt G V) (SShare V) := do
  let values ← viaAby (Aby3.mulMany me [a.value, a.mac] [b.value, b.value])
  let v ← Proto.lift (idx values 0)
  let m ← Proto.lift (idx values 1)
  queueAll [⟨v, m⟩]
  pure ⟨v, m⟩

/-- `dot`, `spdzwise/protocol.rs:1060-1085`. -/
def dot (me : Party) (a b : List (SShare V)) : Proto (SpdzSt G V) (SShare V) :=
  if a.length ≠ b.length then Proto.throw .invalidSize
  else do
    let res ← viaAby (Aby3.dotMany me [a.map (·.value), a.map (·.mac)] [b.map (·.value), b.map (·.value)])
    let v ← Proto.lift (idx res 0)
    let m ← Proto.lift (idx res 1)
    queueAll [⟨v, m⟩]
    pure ⟨v, m⟩

/-- The loop of `dot_many`, `spdzwise/protocol.rs:1100-1120`. -/
def dotLoop : List (List (SShare V) × List (SShare V)) → Proto (SpdzSt G V) (List (BitVec V) × List (BitVec V))
  | [] => pure ([], [])
  | (a, b) :: rest =>
      if a.length ≠ b.length then Proto.throw .invalidSize
      else do
        let rand ← viaAby (Aby3.genZero V)
        let rand2 ← viaAby (Aby3.genZero V)
        let (cs, ms) ← dotLoop rest
        pure (Aby3.dotAcc rand ((a.map (·.value)).zip (b.map (·.value))) :: cs,
          Aby3.dotAcc rand2 ((a.map (·.mac)).zip (b.map (·.value))) :: ms)

/-- Resharing of values and MACs, `spdzwise/protocol.rs:1122-1144, 1180-1202`. -/
def reshareQueue (me : Party) (cs ms : List (BitVec V)) : Proto (SpdzSt G V) (List (SShare V)) := do
  let (cb, mb) ← Proto.net (sendSlicesAndReceiveIters me cs ms)
  let res := List.zipWith (fun (p q : BitVec V × BitVec V) => SShare.mk ⟨p.1, q.1⟩ ⟨p.2, q.2⟩) (cs.zip ms) (cb.zip mb)
  queueAll res
  pure res

/-- `dot_many`, `spdzwise/protocol.rs:1087-1145`. -/
def dotMany (me : Party) (a b : List (List (SShare V))) : Proto (SpdzSt G V) (List (SShare V)) :=
  if a.length ≠ b.length then Proto.throw .invalidSize
  else do
    let (cs, ms) ← dotLoop (a.zip b)
    reshareQueue me cs ms

/-- The loop of `masked_dot_many`, `spdzwise/protocol.rs:1161-1178`. -/
def maskedDotLoop (a : List (SShare V)) : List (List (SShare V) × IrisCodeArray) →
    Proto (SpdzSt G V) (List (BitVec V) × List (BitVec V))
  | [] => pure ([], [])
  | (b, mask) :: rest => do
      let rand ← viaAby (Aby3.genZero V)
      let rand2 ← viaAby (Aby3.genZero V)
      let (cs, ms) ← maskedDotLoop a rest
      pure (Aby3.maskedAcc rand (((a.map (·.value)).zip (b.map (·.value))).zip mask.bits) :: cs,
        Aby3.maskedAcc rand2 (((a.map (·.mac)).zip (b.map (·.value))).zip mask.bits) :: ms)

/-- `masked_dot_many`, `spdzwise/protocol.rs:1147-1203`. -/
def maskedDotMany (me : Party) (a : List (SShare V)) (b : List (List (SShare V))) (masks : List IrisCodeArray) :
    Proto (SpdzSt G V) (List (SShare V)) :=
  if a.length ≠ irisCodeSize then Proto.throw .invalidSize
  else do
    let (cs, ms) ← maskedDotLoop a (b.zip masks)
    reshareQueue me cs ms

/-- `and`, `spdzwise/protocol.rs:1280-1286`; `aby3_and`, `spdzwise/protocol.rs:511-521`. -/
def and (me : Party) (a b : AShare K) : Proto (SpdzSt G V) (AShare K) := do
  let c ← viaAby (Aby3.and me a b)
  let s ← get
  let buffer ← Proto.lift (s.buffer.addT a b c)
  Proto.step fun s : SpdzSt G V => (c, { s with buffer := buffer })

/-- `and_many`, `spdzwise/protocol.rs:1288-1298`; `aby3_and_many`, `spdzwise/protocol.rs:525-535`. -/
def andMany (me : Party) (a b : List (AShare K)) : Proto (SpdzSt G V) (List (AShare K)) := do
  let c ← viaAby (Aby3.andMany me a b)
  let s ← get
  let buffer ← Proto.lift (s.buffer.addMany a b c)
  Proto.step fun s : SpdzSt G V => (c, { s with buffer := buffer })

/-- `BinaryMpcTrait<T, Aby3Share<T>> for SpdzWise`, `spdzwise/protocol.rs:1273-1322`, for all widths. -/
def fam (G : Prg) (V : Nat) (me : Party) : BinFam (SpdzSt G V) AShare where
  ops K := { xor := AShare.xor, shl := AShare.shl, and := Spdz.and me, andMany := Spdz.andMany me }
  zero := AShare.zero
  mapLists := AShare.mapLists

/-- `arithmetic_to_binary`, `spdzwise/protocol.rs:1300-1303`. -/
def a2b (me : Party) (x : AShare K) : Proto (SpdzSt G V) (AShare K) :=
  ((fam G V me).ops K).binaryAdd3 K (Aby3.a2bPre me x).1 (Aby3.a2bPre me x).2.1 (Aby3.a2bPre me x).2.2

/-- `arithmetic_to_binary_many`, `spdzwise/protocol.rs:1305-1321`. -/
def a2bMany (me : Party) (xs : List (AShare K)) : Proto (SpdzSt G V) (List (AShare K)) :=
  ((fam G V me).ops K).binaryAdd3Many K (xs.map fun x => (Aby3.a2bPre me x).1)
    (xs.map fun x => (Aby3.a2bPre me x).2.1) (xs.map fun x => (Aby3.a2bPre me x).2.2)

/-- `get_msb`, `spdzwise/protocol.rs:1205-1213`. -/
def getMsb (H : Hash) (K : Nat) (me : Party) (a : SShare V) : Proto (SpdzSt G V) (AShare 1) := do
  queueAll [a]
  verifyMacs H me
  let bits ← a2b me (a.value.fromVerif K)
  pure bits.getMsb

/-- `get_msb_many`, `spdzwise/protocol.rs:1215-1247`. -/
def getMsbMany (H : Hash) (K : Nat) (me : Party) (a : List (SShare V)) : Proto (SpdzSt G V) (List (AShare 1)) := do
  queueAll a
  verifyMacs H me
  let xs := a.map fun s => s.value.fromVerif K
  (fam G V me).msbAdderMany (xs.map fun x => (Aby3.a2bPre me x).1) (xs.map fun x => (Aby3.a2bPre me x).2.1)
    (xs.map fun x => (Aby3.a2bPre me x).2.2)

/-- `binary_or`, `spdzwise/protocol.rs:1249-1255`. -/
def binaryOr (me : Party) (a b : AShare 1) : Proto (SpdzSt G V) (AShare 1) := ((fam G V me).ops 1).or a b

/-- `reduce_binary_or`, `spdzwise/protocol.rs:1257-1265`. -/
def reduceBinaryOr (me : Party) (a : List (AShare 1)) (chunkSize : Nat) : Proto (SpdzSt G V) (AShare 1) :=
  (fam G V me).reduceBinaryOr a chunkSize

/-- `verify`, `spdzwise/protocol.rs:1267-1270`. -/
def verify (H : Hash) (me : Party) : Proto (SpdzSt G V) Unit := do
  verifyMacs H me
  verifyTripleQueue H me

/-- `MpcTrait<T, TShare<T>, Aby3Share<Bit>> for SpdzWise<N, T::VerificationShare>`, `spdzwise/protocol.rs:728-1271`. -/
def ops (G : Prg) (H : Hash) (K : Nat) (signed : Bool) (me : Party) :
    MpcOps (SpdzSt G (verifWidth K)) (SShare (verifWidth K)) (AShare 1) K where
  signed := signed
  maskedDotMany := maskedDotMany me
  filterReduceAddTwice := SShare.filterReduceAddTwice
  add := SShare.add
  sub := SShare.sub
  mulConst := mulConst signed
  subConst st a b := subConst signed me st.macKey a b
  getMsb := getMsb H K me
  getMsbMany := getMsbMany H K me
  reduceBinaryOr := reduceBinaryOr me
  precompute := precompute H me
  verify := verify H me
  openBit := openBit H me

end Spdz

end Verif
