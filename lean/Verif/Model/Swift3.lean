import Verif.Model.Dzkp
import Verif.Model.Iris
import Verif.Model.MalAby3

/-!
# The Swift3 backend, `iris-mpc/src/swift3/protocol.rs`

Everything except the verification of the zero-knowledge proofs (`verify`), which is in `Model/Swift3Verify.lean`.
-/

namespace Verif

/-- `swift3::share::Share<T>`, `swift3/share.rs:19-30`: with `c = x + α1 + α2 + α3` held by everybody, the parties hold
`(α1, α3, c)`, `(α2, α1, c)`, `(α3, α2, c)`. -/
@[ext] structure S3Share (K : Nat) where
  a : BitVec K
  b : BitVec K
  c : BitVec K

namespace S3Share

variable {K : Nat}

/-- `Zero`, `swift3/share.rs:443-456`. -/
def zero (K : Nat) : S3Share K := ⟨0, 0, 0⟩

/-- `Add`, `swift3/share.rs:86-126`. -/
def add (x y : S3Share K) : S3Share K := ⟨x.a + y.a, x.b + y.b, x.c + y.c⟩

/-- `Sub`, `swift3/share.rs:128-174`. -/
def sub (x y : S3Share K) : S3Share K := ⟨x.a - y.a, x.b - y.b, x.c - y.c⟩

/-- `Neg`, `swift3/share.rs:262-273`. -/
def neg (x : S3Share K) : S3Share K := ⟨-x.a, -x.b, -x.c⟩

/-- `Mul<RingElement>`, `swift3/share.rs:176-260`. -/
def mulConst (x : S3Share K) (k : BitVec K) : S3Share K := ⟨x.a * k, x.b * k, x.c * k⟩

/-- `BitXor`, `swift3/share.rs:281-321`. -/
def xor (x y : S3Share K) : S3Share K := ⟨x.a ^^^ y.a, x.b ^^^ y.b, x.c ^^^ y.c⟩

/-- `BitAnd<RingElement>`, `swift3/share.rs:323-407`. -/
def andConst (x : S3Share K) (k : BitVec K) : S3Share K := ⟨x.a &&& k, x.b &&& k, x.c &&& k⟩

/-- `Not`, `swift3/share.rs:409-420`: all three components are complemented. -/
def not (x : S3Share K) : S3Share K := ⟨~~~x.a, ~~~x.b, ~~~x.c⟩

/-- `Shl<u32>`, `swift3/share.rs:422-441`. -/
def shl (x : S3Share K) (n : Nat) : S3Share K := ⟨ringShl x.a n, ringShl x.b n, ringShl x.c n⟩

/-- `get_msb`, `swift3/share.rs:58-65`. -/
def getMsb (x : S3Share K) : S3Share 1 := ⟨Verif.getMsb x.a, Verif.getMsb x.b, Verif.getMsb x.c⟩

/-- `add_const`, `swift3/share.rs:67-74`. -/
def addConst (x : S3Share K) (k : BitVec K) : S3Share K := { x with c := x.c + k }

/-- `sub_const`, `swift3/share.rs:76-83`. -/
def subConst (x : S3Share K) (k : BitVec K) : S3Share K := { x with c := x.c - k }

/-- Componentwise treatment of a list of shares, used by `pack` (`swift3/protocol.rs:1602-1621`), `reduce_or!`
(`:44-61`) and `reduce_or_u8` (`:1630-1658`). -/
def mapLists {L : Nat} (f : List (BitVec K) → List (BitVec L)) (l : List (S3Share K)) : List (S3Share L) :=
  List.zipWith (fun a (p : BitVec L × BitVec L) => ⟨a, p.1, p.2⟩) (f (l.map (·.a)))
    ((f (l.map (·.b))).zip (f (l.map (·.c))))

/-- The filtered fold, `swift3/vecshare.rs:24-33`. -/
def filterSum (xs : List (S3Share K)) (mask : IrisCodeArray) : S3Share K :=
  ((xs.zip mask.bits).filter (·.2)).foldl (fun acc p => acc.add p.1) (zero K)

/-- `filter_reduce_add_twice`, `swift3/vecshare.rs:16-36`. -/
def filterReduceAddTwice (a b : List (S3Share K)) (mask : IrisCodeArray) : Except Err (S3Share K × S3Share K) :=
  if a.isEmpty ∨ a.length ≠ b.length then .error .invalidCodeSize
  else .ok (filterSum a mask, filterSum b mask)

/-- The two components used as a replicated share, `mul_pre`, `swift3/protocol.rs:179-192`. -/
def toAby (x : S3Share K) : AShare K := ⟨x.a, x.b⟩

end S3Share

/-- `Prf`, `swift3/random/prf.rs:7-11`. -/
structure S3Prf (G : Prg) where
  p1 : G.S
  p2 : G.S
  pp : G.S

/-- `Prf::new`, `swift3/random/prf.rs:24-30`. -/
def S3Prf.new {G : Prg} (k1 k2 kp : Bytes) : S3Prf G := ⟨G.ofSeed k1, G.ofSeed k2, G.ofSeed kp⟩

/-- `Swift3<N, U>`, `swift3/protocol.rs:29-40`, with `U` of `K` bits. -/
structure S3St (G : Prg) (K : Nat) where
  prf : S3Prf G
  sendQNext : Bytes
  sendQPrev : Bytes
  rcvQNext : Bytes
  rcvQPrev : Bytes
  andProof : ZProof Bool
  mulProof : ZProof (BitVec K)
  dotProof : DProof K

namespace Swift3

variable {G : Prg} {K L : Nat}

/-- `new`, `swift3/protocol.rs:67-86`. -/
def new (prf : S3Prf G) : S3St G K := ⟨prf, [], [], [], [], .empty, .empty, .empty⟩

/-- `self.prf.gen_1()`, `swift3/random/prf.rs:37-42`. -/
def gen1 (L : Nat) : Proto (S3St G K) (BitVec L) :=
  Proto.step fun s => ((G.gen L s.prf.p1).1, { s with prf := { s.prf with p1 := (G.gen L s.prf.p1).2 } })

/-- `self.prf.gen_2()`, `swift3/random/prf.rs:44-49`. -/
def gen2 (L : Nat) : Proto (S3St G K) (BitVec L) :=
  Proto.step fun s => ((G.gen L s.prf.p2).1, { s with prf := { s.prf with p2 := (G.gen L s.prf.p2).2 } })

/-- `self.prf.gen_p()`, `swift3/random/prf.rs:51-56`. -/
def genP (L : Nat) : Proto (S3St G K) (BitVec L) :=
  Proto.step fun s => ((G.gen L s.prf.pp).1, { s with prf := { s.prf with pp := (G.gen L s.prf.pp).2 } })

/-- `self.prf.gen_for_zero_share()`, `swift3/random/prf.rs:58-66`. -/
def genForZeroShare (L : Nat) : Proto (S3St G K) (AShare L) := do
  let a ← gen1 L
  let b ← gen2 L
  pure ⟨a, b⟩

/-! ## Joint message passing -/

/-- `jmp_send`, `swift3/protocol.rs:138-140`. -/
def jmpSend (me : Party) (x : BitVec L) (id : Nat) : Proto (S3St G K) Unit := Proto.net (sendValue me x id)

/-- `jmp_send_many`, `swift3/protocol.rs:143-149`. -/
def jmpSendMany (me : Party) (xs : List (BitVec L)) (id : Nat) : Proto (S3St G K) Unit := Proto.net (sendVec me xs id)

/-- `jmp_queue`, `swift3/protocol.rs:151-161`. -/
def jmpQueue (me : Party) (x : BitVec L) (id : Nat) : Proto (S3St G K) Unit :=
  if id = (me.val + 1) % 3 then Proto.step fun s => ((), { s with sendQNext := s.sendQNext ++ toBytes x })
  else if id = (me.val + 2) % 3 then Proto.step fun s => ((), { s with sendQPrev := s.sendQPrev ++ toBytes x })
  else Proto.throw (.idError id)

/-- `jmp_queue_many`, `swift3/protocol.rs:163-177`. -/
def jmpQueueMany (me : Party) (xs : List (BitVec L)) (id : Nat) : Proto (S3St G K) Unit :=
  if id = (me.val + 1) % 3 then
    Proto.step fun s => ((), { s with sendQNext := xs.foldl (fun q x => q ++ toBytes x) s.sendQNext })
  else if id = (me.val + 2) % 3 then
    Proto.step fun s => ((), { s with sendQPrev := xs.foldl (fun q x => q ++ toBytes x) s.sendQPrev })
  else Proto.throw (.idError id)

/-- `jmp_receive`, `swift3/protocol.rs:1090-1105`. -/
def jmpReceive (L : Nat) (me : Party) (id : Nat) : Proto (S3St G K) (BitVec L) := do
  let value ← Proto.net (receiveValue L me id)
  if id = (me.val + 1) % 3 then Proto.step fun s => (value, { s with rcvQPrev := s.rcvQPrev ++ toBytes value })
  else if id = (me.val + 2) % 3 then Proto.step fun s => (value, { s with rcvQNext := s.rcvQNext ++ toBytes value })
  else Proto.throw (.idError id)

/-- `jmp_receive_many`, `swift3/protocol.rs:1107-1130`. -/
def jmpReceiveMany (L : Nat) (me : Party) (id len : Nat) : Proto (S3St G K) (List (BitVec L)) := do
  let values ← Proto.net (receiveVec L me id len)
  if id = (me.val + 1) % 3 then
    Proto.step fun s => (values, { s with rcvQPrev := values.foldl (fun q x => q ++ toBytes x) s.rcvQPrev })
  else if id = (me.val + 2) % 3 then
    Proto.step fun s => (values, { s with rcvQNext := values.foldl (fun q x => q ++ toBytes x) s.rcvQNext })
  else Proto.throw (.idError id)

/-- `jmp_verify`, `swift3/protocol.rs:1141-1166`; `clear_and_hash`, `:1132-1139`. -/
def jmpVerify (H : Hash) (me : Party) : Proto (S3St G K) Unit := do
  let nextId := (me.val + 1) % 3
  let prevId := (me.val + 2) % 3
  let (sendNext, sendPrev, hashNext, hashPrev) ← Proto.step fun s : S3St G K =>
    ((H.h s.sendQNext, H.h s.sendQPrev, H.h s.rcvQNext, H.h s.rcvQPrev),
      { s with sendQNext := [], sendQPrev := [], rcvQNext := [], rcvQPrev := [] })
  Proto.net (netSend me nextId sendNext)
  Proto.net (netSend me prevId sendPrev)
  let rcvPrev ← Proto.net (netRecv me prevId)
  let rcvNext ← Proto.net (netRecv me nextId)
  if rcvPrev ≠ hashPrev ∨ rcvNext ≠ hashNext then Proto.throw .jmpVerify else pure ()

/-! ## Joint sharing of a value known to two parties -/

/-- The order of the senders, `swift3/protocol.rs:1178-1180, 1225-1227, 1307-1309, 1354-1356`. -/
def orderSenders (sender1 sender2 : Nat) : Nat × Nat :=
  if sender2 ≠ (sender1 + 1) % 3 then (sender2, sender1) else (sender1, sender2)

/-- `jshare`, `swift3/protocol.rs:1168-1212`, and `jshare_binary`, `:1297-1341`. The two differ in how `beta` is computed
from the mask `α1`, the mask `αp` and the input: `mix α1 αp x`. -/
def jshareWith (mix : BitVec L → BitVec L → BitVec L → BitVec L) (me : Party) (input : Option (BitVec L))
    (sender1 sender2 receiver : Nat) : Proto (S3St G K) (S3Share L) :=
  let snd := orderSenders sender1 sender2
  if (snd.1 = me.val ∨ snd.2 = me.val) ∧ input = none then Proto.throw .value
  else do
    let alphaP ← genP L
    if me.val = snd.1 then
      let alpha1 ← gen1 L
      let beta := mix alpha1 alphaP (input.getD 0)
      jmpSend me beta receiver
      pure ⟨alpha1, alphaP, beta⟩
    else if me.val = snd.2 then
      let alpha1 ← gen2 L
      let beta := mix alpha1 alphaP (input.getD 0)
      jmpQueue me beta receiver
      pure ⟨alphaP, alpha1, beta⟩
    else if me.val = receiver then
      let beta ← jmpReceive L me snd.1
      pure ⟨alphaP, alphaP, beta⟩
    else Proto.throw .panic

/-- `beta` in `jshare`, `swift3/protocol.rs:1194-1195, 1200-1201`. -/
def mixAdd (alpha1 alphaP x : BitVec L) : BitVec L := alpha1 + alphaP + alphaP + x

/-- `beta` in `jshare_binary`, `swift3/protocol.rs:1323-1324, 1329-1330`. -/
def mixXor (alpha1 _alphaP x : BitVec L) : BitVec L := alpha1 ^^^ x

/-- `jshare`, `swift3/protocol.rs:1168-1212`. -/
def jshare (me : Party) (input : Option (BitVec L)) (sender1 sender2 receiver : Nat) : Proto (S3St G K) (S3Share L) :=
  jshareWith mixAdd me input sender1 sender2 receiver

/-- `jshare_binary`, `swift3/protocol.rs:1297-1341`. -/
def jshareBinary (me : Party) (input : Option (BitVec L)) (sender1 sender2 receiver : Nat) :
    Proto (S3St G K) (S3Share L) :=
  jshareWith mixXor me input sender1 sender2 receiver

/-- The loop of the first sender, `swift3/protocol.rs:1247-1255, 1376-1384`: triples `(alpha_1, alpha_p, beta)`. -/
def jshareLoop1 (mix : BitVec L → BitVec L → BitVec L → BitVec L) :
    List (BitVec L) → Proto (S3St G K) (List (BitVec L × BitVec L × BitVec L))
  | [] => pure []
  | inp :: rest => do
      let alphaP ← genP L
      let alpha1 ← gen1 L
      let more ← jshareLoop1 mix rest
      pure ((alpha1, alphaP, mix alpha1 alphaP inp) :: more)

/-- The loop of the second sender, `swift3/protocol.rs:1270-1278, 1399-1407`. -/
def jshareLoop2 (mix : BitVec L → BitVec L → BitVec L → BitVec L) :
    List (BitVec L) → Proto (S3St G K) (List (BitVec L × BitVec L × BitVec L))
  | [] => pure []
  | inp :: rest => do
      let alphaP ← genP L
      let alpha1 ← gen2 L
      let more ← jshareLoop2 mix rest
      pure ((alpha1, alphaP, mix alpha1 alphaP inp) :: more)

/-- The loop of the receiver, `swift3/protocol.rs:1286-1289, 1415-1418`. -/
def jshareLoopR : List (BitVec L) → Proto (S3St G K) (List (S3Share L))
  | [] => pure []
  | beta :: rest => do
      let alphaP ← genP L
      let more ← jshareLoopR rest
      pure (⟨alphaP, alphaP, beta⟩ :: more)

/-- `jshare_many`, `swift3/protocol.rs:1214-1295`, and `jshare_binary_many`, `:1343-1424`. -/
def jshareManyWith (mix : BitVec L → BitVec L → BitVec L → BitVec L) (me : Party) (input : Option (List (BitVec L)))
    (sender1 sender2 receiver len : Nat) : Proto (S3St G K) (List (S3Share L)) :=
  let snd := orderSenders sender1 sender2
  if (snd.1 = me.val ∨ snd.2 = me.val) ∧ input = none then Proto.throw .value
  else if me.val = snd.1 then
    if (input.getD []).length ≠ len then Proto.throw .invalidSize
    else do
      let ts ← jshareLoop1 mix (input.getD [])
      jmpSendMany me (ts.map (·.2.2)) receiver
      pure (ts.map fun t => ⟨t.1, t.2.1, t.2.2⟩)
  else if me.val = snd.2 then
    if (input.getD []).length ≠ len then Proto.throw .invalidSize
    else do
      let ts ← jshareLoop2 mix (input.getD [])
      jmpQueueMany me (ts.map (·.2.2)) receiver
      pure (ts.map fun t => ⟨t.2.1, t.1, t.2.2⟩)
  else if me.val = receiver then do
    let betas ← jmpReceiveMany L me snd.1 len
    jshareLoopR betas
  else Proto.throw .panic

/-! ## Multiplication: the replicated product of the masks -/

/-- `aby_mul`, `swift3/protocol.rs:875-894`. -/
def abyMul (me : Party) (a b : AShare K) : Proto (S3St G K) (AShare K) := do
  let r ← genForZeroShare K
  let ca := (a.mulLocal b).a + (r.a - r.b)
  let cb ← Proto.net (sendAndReceiveValue me ca)
  Proto.step fun s => (⟨ca, cb⟩, { s with mulProof := s.mulProof.registerMul a b r ⟨ca, cb⟩ })

/-- `aby_and`, `swift3/protocol.rs:896-920`. -/
def abyAnd (me : Party) (a b : AShare L) : Proto (S3St G K) (AShare L) := do
  let r ← genForZeroShare L
  let ca := (a.andLocal b).a ^^^ (r.a ^^^ r.b)
  let cb ← Proto.net (sendAndReceiveValue me ca)
  Proto.step fun s => (⟨ca, cb⟩, { s with andProof := s.andProof.registerAnd a b r ⟨ca, cb⟩ })

/-- The first loop of `aby_and_many`, `swift3/protocol.rs:935-942`: the new components and the random values. -/
def abyAndLoop : List (AShare L × AShare L) → Proto (S3St G K) (List (BitVec L × AShare L))
  | [] => pure []
  | (a, b) :: rest => do
      let r ← genForZeroShare L
      let more ← abyAndLoop rest
      pure (((a.andLocal b).a ^^^ (r.a ^^^ r.b), r) :: more)

/-- The registration loop of `aby_and_many`, `swift3/protocol.rs:954-966`. -/
def registerAnds (z : ZProof Bool) (gs : List (((AShare L × AShare L) × AShare L) × AShare L)) : ZProof Bool :=
  gs.foldl (fun z g => z.registerAnd g.1.1.1 g.1.1.2 g.2 g.1.2) z

/-- `aby_and_many`, `swift3/protocol.rs:922-969`. -/
def abyAndMany (me : Party) (a b : List (AShare L)) : Proto (S3St G K) (List (AShare L)) := do
  let cr ← abyAndLoop (a.zip b)
  let sharesA := cr.map (·.1)
  let rs := cr.map (·.2)
  let sharesB ← Proto.net (sendSliceAndReceiveVec me sharesA)
  let res := List.zipWith AShare.mk sharesA sharesB
  Proto.step fun s => (res, { s with andProof := registerAnds s.andProof (((a.zip b).zip res).zip rs) })

/-- `aby_dot`, `swift3/protocol.rs:971-1011`. -/
def abyDot (me : Party) (a b : List (AShare K)) : Proto (S3St G K) (AShare K) := do
  let r ← genForZeroShare K
  let ca := Aby3.dotAcc (r.a - r.b) (a.zip b)
  let cb ← Proto.net (sendAndReceiveValue me ca)
  Proto.step fun s => (⟨ca, cb⟩, { s with dotProof := s.dotProof.registerDot (a.zip b) r ⟨ca, cb⟩ })

/-- The first loop of `aby_dot_many`, `swift3/protocol.rs:1033-1063`. -/
def abyDotLoop : List (List (AShare K) × List (AShare K)) → Proto (S3St G K) (List (BitVec K × AShare K))
  | [] => pure []
  | (a, b) :: rest => do
      let r ← genForZeroShare K
      let more ← abyDotLoop rest
      pure ((Aby3.dotAcc (r.a - r.b) (a.zip b), r) :: more)

/-- The registration loop of `aby_dot_many`, `swift3/protocol.rs:1070-1085`. -/
def registerDots (z : DProof K) (gs : List ((List (AShare K × AShare K) × AShare K) × AShare K)) : DProof K :=
  gs.foldl (fun z g => z.registerDot g.1.1 g.2 g.1.2) z

/-- `aby_dot_many`, `swift3/protocol.rs:1013-1088`. -/
def abyDotMany (me : Party) (a b : List (List (AShare K))) : Proto (S3St G K) (List (AShare K)) := do
  let cr ← abyDotLoop (a.zip b)
  let sharesA := cr.map (·.1)
  let rs := cr.map (·.2)
  let sharesB ← Proto.net (sendSliceAndReceiveVec me sharesA)
  let res := List.zipWith AShare.mk sharesA sharesB
  Proto.step fun s => (res, { s with
    dotProof := registerDots s.dotProof ((((a.zip b).map fun p => p.1.zip p.2).zip res).zip rs) })

/-! ## Multiplication: from the product of the masks to a sharing of the product -/

/-- What a party computes locally before the exchange: `y_a`, `y_b`, `z_c`, `r1`, `r2`. -/
structure Post (L : Nat) where
  ya : BitVec L
  yb : BitVec L
  zc : BitVec L
  r1 : BitVec L
  r2 : BitVec L

/-- The local part of `mul_post`, `swift3/protocol.rs:205-214`. -/
def mulPostLocal (a b : S3Share K) (de : AShare K) : Proto (S3St G K) (Post K) := do
  let r1 ← gen1 K
  let r2 ← gen2 K
  pure ⟨-a.a * b.c - b.a * a.c + de.a - r1, -a.b * b.c - b.b * a.c + de.b - r2, a.c * b.c, r1, r2⟩

/-- The local part of `and_post`, `swift3/protocol.rs:259-268`, and of one iteration of the loops of `and_post_many`,
`:326-340, 354-369, 387-402`. -/
def andPostLocal (a b : S3Share L) (de : AShare L) : Proto (S3St G K) (Post L) := do
  let r1 ← gen1 L
  let r2 ← gen2 L
  pure ⟨(a.a &&& b.c) ^^^ (b.a &&& a.c) ^^^ de.a ^^^ r1, (a.b &&& b.c) ^^^ (b.b &&& a.c) ^^^ de.b ^^^ r2, a.c &&& b.c,
    r1, r2⟩

/-- The accumulation loop of `dot_post`, `swift3/protocol.rs:442-449`, and of `dot_post_many`, `:515-521, 553-560,
596-603`, on `(y_a, y_b, z_c)`. -/
def dotPostAcc (acc : BitVec K × BitVec K × BitVec K) (ps : List (S3Share K × S3Share K)) :
    BitVec K × BitVec K × BitVec K :=
  ps.foldl (fun acc p =>
    (acc.1 - (p.1.a * p.2.c + p.2.a * p.1.c), acc.2.1 - (p.1.b * p.2.c + p.2.b * p.1.c), acc.2.2 + p.1.c * p.2.c)) acc

/-- The local part of `dot_post`, `swift3/protocol.rs:433-449`, and of one iteration of the loops of `dot_post_many`. -/
def dotPostLocal (a b : List (S3Share K)) (de : AShare K) : Proto (S3St G K) (Post K) := do
  let r1 ← gen1 K
  let r2 ← gen2 K
  let y := dotPostAcc (de.a - r1, de.b - r2, 0) (a.zip b)
  pure ⟨y.1, y.2.1, y.2.2, r1, r2⟩

/-- The exchange in `mul_post`, `swift3/protocol.rs:216-245`, and `dot_post`, `:451-480`. -/
def postArith (me : Party) (p : Post K) : Proto (S3St G K) (S3Share K) := do
  let share ← match me with
    | 0 => do
        jmpSend me p.ya 2
        jmpSend me p.yb 1
        jshare me none 1 2 0
    | 1 => do
        jmpQueue me p.yb 2
        let y3 ← jmpReceive K me 0
        jshare me (some (p.yb + p.ya + y3 + p.zc)) 1 2 0
    | 2 => do
        jmpQueue me p.ya 1
        let y1 ← jmpReceive K me 0
        jshare me (some (y1 + p.yb + p.ya + p.zc)) 1 2 0
  pure (share.sub ⟨p.r1, p.r2, 0⟩)

/-- The exchange in `and_post`, `swift3/protocol.rs:270-301`. -/
def postBinary (me : Party) (p : Post L) : Proto (S3St G K) (S3Share L) := do
  let share ← match me with
    | 0 => do
        jmpSend me p.ya 2
        jmpSend me p.yb 1
        jshareBinary me none 1 2 0
    | 1 => do
        jmpQueue me p.yb 2
        let y3 ← jmpReceive L me 0
        jshareBinary me (some (p.yb ^^^ p.ya ^^^ y3 ^^^ p.zc)) 1 2 0
    | 2 => do
        jmpQueue me p.ya 1
        let y1 ← jmpReceive L me 0
        jshareBinary me (some (y1 ^^^ p.yb ^^^ p.ya ^^^ p.zc)) 1 2 0
  pure (share.xor ⟨p.r1, p.r2, 0⟩)

/-- The exchange in `and_post_many`, `swift3/protocol.rs:341-347, 370-380, 403-413` (with `comb := ^`, `out := ^`), and in
`dot_post_many`, `:527-537, 566-579, 609-622` (with `comb := +`, `out := -`). -/
def postManyWith (mix comb : BitVec L → BitVec L → BitVec L) (jmix : BitVec L → BitVec L → BitVec L → BitVec L)
    (out : S3Share L → S3Share L → S3Share L) (me : Party) (ps : List (Post L)) (len : Nat) :
    Proto (S3St G K) (List (S3Share L)) := do
  let rs : List (S3Share L) := ps.map fun p => ⟨p.r1, p.r2, 0⟩
  let resp ← match me with
    | 0 => do
        jmpSendMany me (ps.map (·.ya)) 2
        jmpSendMany me (ps.map (·.yb)) 1
        jshareManyWith jmix me none 1 2 0 len
    | 1 => do
        let zr := ps.map fun p => mix (mix p.ya p.zc) p.yb
        jmpQueueMany me (ps.map (·.yb)) 2
        let y3s ← jmpReceiveMany L me 0 len
        jshareManyWith jmix me (some (List.zipWith comb zr y3s)) 1 2 0 len
    | 2 => do
        let zr := ps.map fun p => mix (mix p.yb p.zc) p.ya
        jmpQueueMany me (ps.map (·.ya)) 1
        let y1s ← jmpReceiveMany L me 0 len
        jshareManyWith jmix me (some (List.zipWith comb zr y1s)) 1 2 0 len
  pure (List.zipWith out resp rs)

/-- `mul_post`, `swift3/protocol.rs:194-246`. -/
def mulPost (me : Party) (a b : S3Share K) (de : AShare K) : Proto (S3St G K) (S3Share K) := do
  let p ← mulPostLocal a b de
  postArith me p

/-- `and_post`, `swift3/protocol.rs:248-302`. -/
def andPost (me : Party) (a b : S3Share L) (de : AShare L) : Proto (S3St G K) (S3Share L) := do
  let p ← andPostLocal a b de
  postBinary me p

/-- `dot_post`, `swift3/protocol.rs:421-481`. -/
def dotPost (me : Party) (a b : List (S3Share K)) (de : AShare K) : Proto (S3St G K) (S3Share K) := do
  let p ← dotPostLocal a b de
  postArith me p

/-- The loops of `and_post_many`, `swift3/protocol.rs:326-340, 354-369, 387-402`. -/
def andPostLoop : List (AShare L × (S3Share L × S3Share L)) → Proto (S3St G K) (List (Post L))
  | [] => pure []
  | (de, (a, b)) :: rest => do
      let p ← andPostLocal a b de
      let more ← andPostLoop rest
      pure (p :: more)

/-- The loops of `dot_post_many`, `swift3/protocol.rs:506-526, 543-566, 585-608`. -/
def dotPostLoop : List (AShare K × (List (S3Share K) × List (S3Share K))) → Proto (S3St G K) (List (Post K))
  | [] => pure []
  | (de, (a, b)) :: rest => do
      let p ← dotPostLocal a b de
      let more ← dotPostLoop rest
      pure (p :: more)

/-- `and_post_many`, `swift3/protocol.rs:304-419`. -/
def andPostMany (me : Party) (a b : List (S3Share L)) (de : List (AShare L)) : Proto (S3St G K) (List (S3Share L)) := do
  let ps ← andPostLoop (de.zip (a.zip b))
  postManyWith (· ^^^ ·) (· ^^^ ·) mixXor S3Share.xor me ps a.length

/-- `dot_post_many`, `swift3/protocol.rs:483-629`. -/
def dotPostMany (me : Party) (a b : List (List (S3Share K))) (de : List (AShare K)) :
    Proto (S3St G K) (List (S3Share K)) := do
  let ps ← dotPostLoop (de.zip (a.zip b))
  postManyWith (· + ·) (· + ·) mixAdd S3Share.sub me ps a.length

/-! ## The operations -/

/-- `mul`, `swift3/protocol.rs:2212-2216`. -/
def mul (me : Party) (a b : S3Share K) : Proto (S3St G K) (S3Share K) := do
  let de ← abyMul me a.toAby b.toAby
  mulPost me a b de

/-- `dot`, `swift3/protocol.rs:2222-2239`. -/
def dot (me : Party) (a b : List (S3Share K)) : Proto (S3St G K) (S3Share K) :=
  if a.length ≠ b.length then Proto.throw .invalidSize
  else do
    let de ← abyDot me (a.map S3Share.toAby) (b.map S3Share.toAby)
    dotPost me a b de

/-- `dot_many`, `swift3/protocol.rs:2241-2270`: only the outer lengths are compared; `zip` cuts the inner ones to the
shorter. -/
def dotMany (me : Party) (a b : List (List (S3Share K))) : Proto (S3St G K) (List (S3Share K)) :=
  if a.length ≠ b.length then Proto.throw .invalidSize
  else do
    let d := (a.zip b).map fun p => (p.1.zip p.2).map fun q => q.1.toAby
    let e := (a.zip b).map fun p => (p.1.zip p.2).map fun q => q.2.toAby
    let de ← abyDotMany me d e
    dotPostMany me a b de

/-- `and`, `swift3/protocol.rs:2319-2323`. -/
def and (me : Party) (a b : S3Share L) : Proto (S3St G K) (S3Share L) := do
  let de ← abyAnd me a.toAby b.toAby
  andPost me a b de

/-- `and_many`, `swift3/protocol.rs:2325-2346`. -/
def andMany (me : Party) (a b : List (S3Share L)) : Proto (S3St G K) (List (S3Share L)) :=
  if a.length ≠ b.length then Proto.throw .invalidSize
  else do
    let de ← abyAndMany me (a.map S3Share.toAby) (b.map S3Share.toAby)
    andPostMany me a b de

/-- `BinaryMpcTrait<T, Share<T>> for Swift3`, `swift3/protocol.rs:2314-2370`, for all widths. -/
def fam (G : Prg) (K : Nat) (me : Party) : BinFam (S3St G K) S3Share where
  ops L := { xor := S3Share.xor, shl := S3Share.shl, and := Swift3.and me, andMany := Swift3.andMany me }
  zero := S3Share.zero
  mapLists := S3Share.mapLists

/-- `a2b_pre`, `swift3/protocol.rs:88-111`. -/
def a2bPre (me : Party) (x : S3Share K) : S3Share K × S3Share K × S3Share K :=
  match me with
  | 0 => (⟨x.c - x.a, 0, 0⟩, ⟨0, 0, 0⟩, ⟨0, -x.b, 0⟩)
  | 1 => (⟨0, x.c - x.b, 0⟩, ⟨-x.a, 0, 0⟩, ⟨0, 0, 0⟩)
  | 2 => (⟨0, 0, 0⟩, ⟨0, -x.b, 0⟩, ⟨-x.a, 0, 0⟩)

/-- `arithmetic_to_binary`, `swift3/protocol.rs:2348-2351`. -/
def a2b (me : Party) (x : S3Share K) : Proto (S3St G K) (S3Share K) :=
  ((fam G K me).ops K).binaryAdd3 K (a2bPre me x).1 (a2bPre me x).2.1 (a2bPre me x).2.2

/-- `arithmetic_to_binary_many`, `swift3/protocol.rs:2353-2369`. -/
def a2bMany (me : Party) (xs : List (S3Share K)) : Proto (S3St G K) (List (S3Share K)) :=
  ((fam G K me).ops K).binaryAdd3Many K (xs.map fun x => (a2bPre me x).1) (xs.map fun x => (a2bPre me x).2.1)
    (xs.map fun x => (a2bPre me x).2.2)

/-- `get_msb`, `swift3/protocol.rs:2272-2275`. -/
def getMsb (me : Party) (a : S3Share K) : Proto (S3St G K) (S3Share 1) := do
  let bits ← a2b me a
  pure bits.getMsb

/-- `get_msb_many`, `swift3/protocol.rs:2277-2281`. -/
def getMsbMany (me : Party) (a : List (S3Share K)) : Proto (S3St G K) (List (S3Share 1)) := do
  let bits ← a2bMany me a
  pure (bits.map S3Share.getMsb)

/-- `binary_or`, `swift3/protocol.rs:2283-2285`. -/
def binaryOr (me : Party) (a b : S3Share 1) : Proto (S3St G K) (S3Share 1) := ((fam G K me).ops 1).or a b

/-- `reduce_binary_or`, `swift3/protocol.rs:2287-2295`. -/
def reduceBinaryOr (me : Party) (a : List (S3Share 1)) (chunkSize : Nat) : Proto (S3St G K) (S3Share 1) :=
  (fam G K me).reduceBinaryOr a chunkSize

/-- `input`, `swift3/protocol.rs:1940-2026`. -/
def input (me : Party) (inp : Option (BitVec K)) (id : Nat) : Proto (S3St G K) (S3Share K) :=
  if id = me.val ∧ inp = none then Proto.throw .value
  else match id, me with
    | 0, 0 => do
        let alpha1 ← gen1 K
        let alpha2 ← genP K
        let alpha3 ← gen2 K
        let beta := inp.getD 0 + (alpha2 + alpha1 + alpha3)
        Proto.net (sendValue me beta 1)
        jmpSend me beta 2
        pure ⟨alpha1, alpha3, beta⟩
    | 0, 1 => do
        let alpha1 ← gen2 K
        let alpha2 ← genP K
        let beta ← Proto.net (receiveValue K me 0)
        jmpQueue me beta 2
        pure ⟨alpha2, alpha1, beta⟩
    | 0, 2 => do
        let alpha2 ← genP K
        let alpha3 ← gen1 K
        let beta ← jmpReceive K me 0
        pure ⟨alpha3, alpha2, beta⟩
    | 1, 1 => do
        let alpha1 ← gen2 K
        let alpha2 ← gen1 K
        let alpha3 ← genP K
        let beta := inp.getD 0 + (alpha3 + alpha1 + alpha2)
        Proto.net (sendValue me beta 2)
        jmpSend me beta 0
        pure ⟨alpha2, alpha1, beta⟩
    | 1, 2 => do
        let alpha2 ← gen2 K
        let alpha3 ← genP K
        let beta ← Proto.net (receiveValue K me 1)
        jmpQueue me beta 0
        pure ⟨alpha3, alpha2, beta⟩
    | 1, 0 => do
        let alpha1 ← gen1 K
        let alpha3 ← genP K
        let beta ← jmpReceive K me 1
        pure ⟨alpha1, alpha3, beta⟩
    | 2, 2 => do
        let alpha1 ← genP K
        let alpha2 ← gen2 K
        let alpha3 ← gen1 K
        let beta := inp.getD 0 + (alpha1 + alpha2 + alpha3)
        Proto.net (sendValue me beta 1)
        jmpSend me beta 0
        pure ⟨alpha3, alpha2, beta⟩
    | 2, 1 => do
        let alpha1 ← genP K
        let alpha2 ← gen1 K
        let beta ← Proto.net (receiveValue K me 2)
        jmpQueue me beta 0
        pure ⟨alpha2, alpha1, beta⟩
    | 2, 0 => do
        let alpha1 ← genP K
        let alpha3 ← gen2 K
        let beta ← jmpReceive K me 2
        pure ⟨alpha1, alpha3, beta⟩
    | _, _ => Proto.throw .panic

/-- `share`, `swift3/protocol.rs:2042-2054`: the three masks are drawn from the `rng`. -/
def share (input alpha1 alpha2 alpha3 : BitVec K) : List (S3Share K) :=
  let beta := input + alpha1 + alpha2 + alpha3
  [⟨alpha1, alpha3, beta⟩, ⟨alpha2, alpha1, beta⟩, ⟨alpha3, alpha2, beta⟩]

/-- The exchange of the missing component, `swift3/protocol.rs:2062-2076` (`open`) and `:2132-2146` (`open_bit`). -/
def openExchange (me : Party) (s : S3Share L) : Proto (S3St G K) (BitVec L) :=
  match me with
  | 0 => do
      jmpSend me s.a 2
      jmpSend me s.b 1
      jmpReceive L me 1
  | 1 => do
      jmpSend me s.a 0
      jmpQueue me s.b 2
      jmpReceive L me 0
  | 2 => do
      jmpQueue me s.b 0
      jmpQueue me s.a 1
      jmpReceive L me 0

/-- The exchange in `open_many`, `swift3/protocol.rs:2099-2113`, and `open_bit_many`, `:2169-2183`. -/
def openExchangeMany (me : Party) (ss : List (S3Share L)) : Proto (S3St G K) (List (BitVec L)) :=
  let a := ss.map (·.a)
  let b := ss.map (·.b)
  match me with
  | 0 => do
      jmpSendMany me a 2
      jmpSendMany me b 1
      jmpReceiveMany L me 1 ss.length
  | 1 => do
      jmpSendMany me a 0
      jmpQueueMany me b 2
      jmpReceiveMany L me 0 ss.length
  | 2 => do
      jmpQueueMany me b 0
      jmpQueueMany me a 1
      jmpReceiveMany L me 0 ss.length

/-- `open`, `swift3/protocol.rs:2056-2081`. -/
def openShare (H : Hash) (me : Party) (s : S3Share K) : Proto (S3St G K) (BitVec K) := do
  jmpVerify H me
  let rcv ← openExchange me s
  jmpVerify H me
  pure (s.c - s.a - s.b - rcv)

/-- `open_many`, `swift3/protocol.rs:2083-2124`. -/
def openMany (H : Hash) (me : Party) (ss : List (S3Share K)) : Proto (S3St G K) (List (BitVec K)) := do
  jmpVerify H me
  let rcv ← openExchangeMany me ss
  jmpVerify H me
  pure (List.zipWith (fun r s => s.c - s.a - s.b - r) rcv ss)

/-- `open_bit`, `swift3/protocol.rs:2126-2151`. -/
def openBit (H : Hash) (me : Party) (s : S3Share 1) : Proto (S3St G K) Bool := do
  jmpVerify H me
  let rcv ← openExchange me s
  jmpVerify H me
  pure (bitVal (s.c ^^^ s.a ^^^ s.b ^^^ rcv))

/-- `open_bit_many`, `swift3/protocol.rs:2153-2194`. -/
def openBitMany (H : Hash) (me : Party) (ss : List (S3Share 1)) : Proto (S3St G K) (List Bool) := do
  jmpVerify H me
  let rcv ← openExchangeMany me ss
  jmpVerify H me
  pure (List.zipWith (fun r s => bitVal (s.c ^^^ s.a ^^^ s.b ^^^ r)) rcv ss)

/-! ## Set-up -/

/-- `ids`, `swift3/protocol.rs:1479-1484, 1665-1670`: the other two parties. -/
def otherIds : Party → Nat × Nat
  | 0 => (1, 2)
  | 1 => (0, 2)
  | 2 => (0, 1)

/-- `setup_prf_from_seed`, `swift3/protocol.rs:1477-1600`, with `send_seed_commitment`, `:113-135`, and
`send_seed_opening`, `:1426-1460`; `rands` is the commitment randomness drawn from `ChaCha12Rng::from_entropy()`. -/
def setupPrfFromSeed (H : Hash) (me : Party) (s0 s1 s2 r0 r1 r2 : Bytes) : Proto (S3St G K) Unit := do
  let ids := otherIds me
  let comm1 : Commitment 8 := Commitment.commit H s0 r0
  let comm2 : Commitment 8 := Commitment.commit H s1 r1
  let comm3 : Commitment 8 := Commitment.commit H s2 r2
  Proto.net (netSend me ids.1 (comm1.comm ++ comm3.comm))
  Proto.net (netSend me ids.2 (comm2.comm ++ comm3.comm))
  let msg1 ← Proto.net (netRecv me ids.1)
  let msg2 ← Proto.net (netRecv me ids.2)
  let cs := Commitment.commSize
  if msg1.length ≠ 2 * cs ∨ msg2.length ≠ 2 * cs then Proto.throw .invalidMessageSize
  else
    let rcvComm1 := msg1.take cs
    let rcvComm2 := msg1.drop cs
    let rcvComm3 := msg2.take cs
    let rcvComm4 := msg2.drop cs
    Proto.net (netSend me ids.1 (ringSliceToBytes comm1.opening.values ++ comm1.opening.rand ++
      ringSliceToBytes comm3.opening.values ++ comm3.opening.rand))
    Proto.net (netSend me ids.2 (ringSliceToBytes comm2.opening.values ++ comm2.opening.rand ++
      ringSliceToBytes comm3.opening.values ++ comm3.opening.rand))
    let msg1 ← Proto.net (netRecv me ids.1)
    let msg2 ← Proto.net (netRecv me ids.2)
    let ss := s0.length
    let rs := Commitment.randSize
    if msg1.length ≠ 2 * (ss + rs) ∨ msg2.length ≠ 2 * (ss + rs) then Proto.throw .invalidMessageSize
    else
      let open1 := msg1.take ss
      let rand1 := (msg1.drop ss).take rs
      let open2 := (msg1.drop (ss + rs)).take ss
      let rand2 := msg1.drop (2 * ss + rs)
      let open3 := msg2.take ss
      let rand3 := (msg2.drop ss).take rs
      let open4 := (msg2.drop (ss + rs)).take ss
      let rand4 := msg2.drop (2 * ss + rs)
      if MalAby3.verifyCommitment H open1 rand1 rcvComm1 = false ∨
          MalAby3.verifyCommitment H open2 rand2 rcvComm2 = false then Proto.throw (.invalidCommitment ids.1)
      else if MalAby3.verifyCommitment H open3 rand3 rcvComm3 = false ∨
          MalAby3.verifyCommitment H open4 rand4 rcvComm4 = false then Proto.throw (.invalidCommitment ids.2)
      else
        let seed1 := List.zipWith (fun a b => b ^^^ a) s0 open1
        let seed2 := List.zipWith (fun a b => b ^^^ a) s1 open3
        let seed3 := List.zipWith (fun a (p : Byte × Byte) => p.1 ^^^ a ^^^ p.2) s2 (open2.zip open4)
        Proto.step fun s => ((), { s with
          prf := if me.val = 1 then S3Prf.new seed2 seed1 seed3 else S3Prf.new seed1 seed2 seed3 })

/-- The part of `MpcTrait`, `swift3/protocol.rs:1911-2312`, used by the iris protocol; `masked_dot_many` and `precompute`
are not overridden. `verify` is a parameter here (see `Model/Swift3Verify.lean`). -/
def ops (G : Prg) (H : Hash) (K : Nat) (signed : Bool) (verify : Proto (S3St G K) Unit) (me : Party) :
    MpcOps (S3St G K) (S3Share K) (S3Share 1) K where
  signed := signed
  maskedDotMany := defaultMaskedDotMany (S3Share.zero K) (dotMany me)
  filterReduceAddTwice := S3Share.filterReduceAddTwice
  add := S3Share.add
  sub := S3Share.sub
  mulConst := S3Share.mulConst
  subConst _ a k := a.subConst k
  getMsb := getMsb me
  getMsbMany := getMsbMany me
  reduceBinaryOr := reduceBinaryOr me
  precompute _ := pure ()
  verify := verify
  openBit := openBit H me

end Swift3

end Verif
