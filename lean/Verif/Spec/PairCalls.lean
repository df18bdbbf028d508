import Verif.Spec.Pair
import Verif.Spec.Sharing

/-!
# Specification: the checked calls of a query of the malicious ABY3 backend

A query of the malicious ABY3 backend checks its inner products and its AND gates call by call. `logOps` are the methods of
the backend that in addition keep a list of these calls: the inputs and the state when the call starts, and the messages
received during it. The list is bookkeeping: it influences nothing else (`C74_log_is_passive`). As in `Spec/Pair.lean`, the
corrupt party is `i.prev`. `CallForged` says which calls the corrupt party has got past the checks with a wrong result.
-/

namespace Verif

/-- The program `p`, returning also the messages it has received from each party, in their order. -/
def Prog.withRcvd {α : Type} : Prog α → Prog (α × (Party → List Bytes))
  | .ret a => .ret (a, fun _ => [])
  | .fail e => .fail e
  | .send d m k => .send d m k.withRcvd
  | .recv j k => .recv j fun m => (k m).withRcvd >>= fun o => .ret (o.1, push j m o.2)

namespace MalAby3

open Jmp

variable {G : Prg} {K : Nat}

/-- What is called: `n` AND gates, inner products of the vectors `x` and `y`, the opening of a bit. -/
inductive Kind (K : Nat)
  | ands (n : Nat)
  | dots (x y : List (List (AShare K)))
  | opening (s : AShare 1)

/-- A call of one party: what is called in which state, and the messages received during the call. -/
structure Call (G : Prg) (K : Nat) where
  kind : Kind K
  st : JmpSt G
  rcvd : Party → List Bytes

/-- The state of a party with the list of its calls. -/
abbrev LogSt (G : Prg) (K : Nat) := JmpSt G × List (Call G K)

/-- `p`, with an entry in the list of calls. -/
def logged {α : Type} (kind : Kind K) (p : Proto (JmpSt G) α) : Proto (LogSt G K) α :=
  fun s => (p s.1).withRcvd >>= fun o => .ret (o.1.1, o.1.2, s.2 ++ [⟨kind, s.1, o.2⟩])

/-- `binOps` with a list of calls. -/
def logBinOps (G : Prg) (K : Nat) (H : Hash) (L : Nat) (me : Party) : BinOps (LogSt G K) (AShare L) :=
  { xor := AShare.xor, shl := AShare.shl
    and := fun a b => logged (.ands L) (and H me a b)
    andMany := fun a b => logged (.ands (L * a.length)) (andMany H me a b) }

/-- `ops` with a list of calls. -/
def logOps (G : Prg) (H : Hash) (K : Nat) (signed : Bool) (me : Party) : MpcOps (LogSt G K) (AShare K) (AShare 1) K where
  signed := signed
  maskedDotMany := defaultMaskedDotMany (AShare.zero K) fun x y => logged (.dots x y) (dotMany H me x y)
  filterReduceAddTwice := AShare.filterReduceAddTwice
  add := AShare.add
  sub := AShare.sub
  mulConst := AShare.mulConst
  subConst _ a c := a.subConst c me
  getMsb a := do
    let bits ← (logBinOps G K H K me).binaryAdd3 K (Aby3.a2bPre me a).1 (Aby3.a2bPre me a).2.1 (Aby3.a2bPre me a).2.2
    pure bits.getMsb
  getMsbMany a := do
    let bits ← (logBinOps G K H K me).binaryAdd3Many K (a.map fun x => (Aby3.a2bPre me x).1)
      (a.map fun x => (Aby3.a2bPre me x).2.1) (a.map fun x => (Aby3.a2bPre me x).2.2)
    pure (bits.map AShare.getMsb)
  reduceBinaryOr a chunkSize := do
    let cs ← Proto.lift (usizeE (chunkSize * 128))
    (logBinOps G K H 1 me).orTree cs a
  precompute _ := pure ()
  verify := pure ()
  openBit s := logged (.opening s) (openBit H me s)

/-- The states of the three parties, from those of the honest parties `i` and `i.next`: the generators of the corrupt party
are theirs (`i` uses the same as its predecessor, and the predecessor the same as `i.next`). -/
def joint (i : Party) (s s' : JmpSt G) : Party → JmpSt G :=
  fun k => if k = i then s else if k = i.next then s' else ⟨⟨s.prf.next, s'.prf.my⟩, [], []⟩

/-- The shares of the three parties, from those of the honest parties. -/
def jointShare (i : Party) (s s' : AShare K) : Party → AShare K :=
  fun k => if k = i then s else if k = i.next then s' else ⟨s.b, s'.a⟩

/-- The same for lists of lists. -/
def jointVecs (i : Party) (l l' : List (List (AShare K))) : Party → List (List (AShare K)) :=
  fun k => List.zipWith (List.zipWith fun s s' => jointShare i s s' k) l l'

/-- The errors `es` (of the `n` results, then of the `n` values that serve to check them) are not noticed with the coin `r`,
and some result is wrong modulo `2^K`. -/
def Unnoticed {V : Nat} (K n : Nat) (r : BitVec V) (es : List (BitVec V)) : Prop :=
  (∃ e ∈ es.take n, e.setWidth K ≠ 0) ∧ es.drop n = (es.take n).map (r * ·)

/-- The corrupt party has got the multiplication triples of `n` AND gates past the checks although a triple is wrong, or the
values opened before the call: the strings compared by the joint message passing collide, or those compared by the zero
check, or the coin does not reveal the errors. `s`, `s'` are the states of the honest parties before the call, `msgs` the
messages of the corrupt party to `i`; everything else is what the parties compute from these. -/
def TriplesForged (H : Hash) (i : Party) (n : Nat) (s s' : JmpSt G) (msgs : List Bytes) : Prop :=
  ∃ (a b a' : Party → List (AShare (verifWidth 1))) (cs : Party → List (BitVec (verifWidth 1))) (st1 : Party → JmpSt G)
    (A A' z : List (BitVec (verifWidth 1))) (m1 m2 : Bytes) (rest : List Bytes),
    (∀ k, tripleManyDraws (verifWidth 1) n (joint i s s' k) = .ret ((a k, b k, a' k, cs k), st1 k)) ∧
    Rels SharesOf A a ∧ Rels SharesOf A' a' ∧
    msgs = ringSliceToBytes z :: m1 :: m2 :: rest ∧ z.length = n + n ∧
    (Collision H (s.rcvQueueNext ++ m1 ++ m2)
        (s'.sendQueuePrev ++ ringSliceToBytes (K := 8) (G.genSeed (st1 i.next).prf.my).1 ++ ringSliceToBytes
          ((List.zipWith (fun x y => (x.mulConst (coinVal (verifWidth 1) st1)).sub y) (a i.next) (a' i.next)).map (·.a))) ∨
      Collision H
        ((checkShares (coinVal (verifWidth 1) st1) (List.zipWith (fun x y => x * coinVal (verifWidth 1) st1 - y) A A') (b i)
          ((List.zipWith AShare.mk (cs i) z).take n) ((List.zipWith AShare.mk (cs i) z).drop n)).flatMap (zeroBytes i))
        ((checkShares (coinVal (verifWidth 1) st1) (List.zipWith (fun x y => x * coinVal (verifWidth 1) st1 - y) A A')
          (b i.next) ((List.zipWith AShare.mk (cs i.next) (cs i)).take n)
          ((List.zipWith AShare.mk (cs i.next) (cs i)).drop n)).flatMap (zeroBytes i.next)) ∨
      Unnoticed 1 n (coinVal (verifWidth 1) st1) (errors z (cs i.prev)))

/-- The same for the inner products of the vectors `x` and `y`, shared by the parties as `x k` and `y k`. -/
def DotsForged (H : Hash) (i : Party) (x y : Party → List (List (AShare K))) (s s' : JmpSt G) (msgs : List Bytes) : Prop :=
  ∃ (a' : Party → List (List (AShare (verifWidth K)))) (cs : Party → List (BitVec (verifWidth K))) (st1 : Party → JmpSt G)
    (X A' : List (List (BitVec (verifWidth K)))) (z : List (BitVec (verifWidth K))) (m1 m2 : Bytes) (rest : List Bytes),
    (∀ k, dotManyDraws (verifWidth K) ((x k).map fun l => l.map (·.toVerif (verifWidth K)))
      ((y k).map fun l => l.map (·.toVerif (verifWidth K))) (joint i s s' k) = .ret ((a' k, cs k), st1 k)) ∧
    (Rels (Rels SharesOf) X fun k => (x k).map fun l => l.map (·.toVerif (verifWidth K))) ∧ Rels (Rels SharesOf) A' a' ∧
    msgs = ringSliceToBytes z :: m1 :: m2 :: rest ∧ z.length = X.length + X.length ∧
    (Collision H (s.rcvQueueNext ++ m1 ++ m2)
        (s'.sendQueuePrev ++ ringSliceToBytes (K := 8) (G.genSeed (st1 i.next).prf.my).1 ++
          ringSliceToBytes ((List.zipWith (List.zipWith fun x y => (x.mulConst (coinVal (verifWidth K) st1)).sub y)
            ((x i.next).map fun l => l.map (·.toVerif (verifWidth K))) (a' i.next)).flatten.map (·.a))) ∨
      Collision H
        ((dotCheckShares (coinVal (verifWidth K) st1)
          (List.zipWith (List.zipWith fun x y => x * coinVal (verifWidth K) st1 - y) X A')
          ((y i).map fun l => l.map (·.toVerif (verifWidth K))) ((List.zipWith AShare.mk (cs i) z).take X.length)
          ((List.zipWith AShare.mk (cs i) z).drop X.length)).flatMap (zeroBytes i))
        ((dotCheckShares (coinVal (verifWidth K) st1)
          (List.zipWith (List.zipWith fun x y => x * coinVal (verifWidth K) st1 - y) X A')
          ((y i.next).map fun l => l.map (·.toVerif (verifWidth K)))
          ((List.zipWith AShare.mk (cs i.next) (cs i)).take X.length)
          ((List.zipWith AShare.mk (cs i.next) (cs i)).drop X.length)).flatMap (zeroBytes i.next)) ∨
      Unnoticed K X.length (coinVal (verifWidth K) st1) (errors z (cs i.prev)))

/-- The opening of a bit: the values opened before, or the message with the missing component of the bit, collide with what
`i.next` has hashed. `s'.a` is the component missing to `i`. -/
def OpeningForged (H : Hash) (bit' : AShare 1) (s s' : JmpSt G) (msgs : List Bytes) : Prop :=
  Collision H s.rcvQueueNext s'.sendQueuePrev ∨
    ∃ m rest, msgs = m :: rest ∧ Collision H m (toBytes bit'.a)

/-- The corrupt party `i.prev` has forged the call `c` of the honest party `i`, which is the call `c'` of `i.next`. -/
def CallForged (H : Hash) (i : Party) (c c' : Call G K) : Prop :=
  match c.kind, c'.kind with
  | .ands n, .ands _ => TriplesForged H i n c.st c'.st (c.rcvd i.prev)
  | .dots x y, .dots x' y' => DotsForged H i (jointVecs i x x') (jointVecs i y y') c.st c'.st (c.rcvd i.prev)
  | .opening _, .opening b' => OpeningForged H b' c.st c'.st (c.rcvd i.prev)
  | _, _ => False

/-- The corrupt party has forged some call. -/
def SomeForged (H : Hash) (i : Party) (calls calls' : List (Call G K)) : Prop :=
  ∃ (t : Nat) (c c' : Call G K), calls[t]? = some c ∧ calls'[t]? = some c' ∧ CallForged H i c c'

end MalAby3

end Verif
