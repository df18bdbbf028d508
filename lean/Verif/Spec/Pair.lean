import Verif.Spec.Adversary
import Verif.Spec.Jmp
import Verif.Model.MalAby3
import Verif.Model.Spdz

/-!
# Specification: two honest parties that finish, and a corrupt one

The corrupt party is `i.prev`; the honest ones are `i`, which receives from the corrupt party what that would send
to its successor, and `i.next`.
-/

namespace Verif

/-- Both honest parties have finished the protocol `p` with the results `out`, having received `rcvd` and sent `sent`:
`rcvd l k` are the messages `l` has received from `k`, `sent k l` those `k` has sent to `l`. What an honest party has
received from the other was sent by it; nothing is said about the messages of the corrupt party `c`. -/
structure HonestViews {α : Type} (p : Party → Prog α) (c : Party) (rcvd sent : Party → Party → List Bytes)
    (out : Party → α) : Prop where
  run : ∀ k, k ≠ c → Local (p k) (rcvd k) (sent k) (.ret (out k))
  chan : ∀ k l, k ≠ c → l ≠ c → k ≠ l → rcvd l k <+: sent k l

/-- The two honest parties `i` and `i.next` hold their parts of a replicated sharing of `x`. -/
def PairOf {K : Nat} (i : Party) (x : BitVec K) (s s' : AShare K) : Prop := s.a + s.b + s'.a = x ∧ s'.b = s.a

/-- The same for lists. -/
def PairsOf {K : Nat} (i : Party) (xs : List (BitVec K)) (l l' : List (AShare K)) : Prop :=
  l.length = l'.length ∧ List.Forall₂ (fun x (p : AShare K × AShare K) => PairOf i x p.1 p.2) xs (l.zip l')

/-- The two honest parties `i` and `i.next` hold their parts of a replicated XOR sharing of `x`. -/
def BinPairOf {K : Nat} (i : Party) (x : BitVec K) (s s' : AShare K) : Prop := s.a ^^^ s.b ^^^ s'.a = x ∧ s'.b = s.a

/-- The same for lists. -/
def BinPairsOf {K : Nat} (i : Party) (xs : List (BitVec K)) (l l' : List (AShare K)) : Prop :=
  l.length = l'.length ∧ List.Forall₂ (fun x (p : AShare K × AShare K) => BinPairOf i x p.1 p.2) xs (l.zip l')

namespace Jmp

variable {G : Prg}

/-- The common coin `coin` tosses in the joint state `st`, as a ring element. -/
def coinVal (V : Nat) (st : Party → JmpSt G) : BitVec V :=
  (G.gen V (G.ofSeed (coinOf fun k => (G.genSeed (st k).prf.my).1))).1

/-- The common coin, from the states of the honest parties `i` and `i.next`; `i` shares a generator with its predecessor. -/
def pairSeed (i : Party) (s s' : JmpSt G) : Bytes :=
  coinOf fun k => if k = i then (G.genSeed s.prf.my).1 else if k = i.next then (G.genSeed s'.prf.my).1
    else (G.genSeed s.prf.next).1

end Jmp

namespace MalAby3

open Jmp

variable {G : Prg} {K : Nat}

/-- What a party does in `get_mul_triple` before it communicates: it draws its shares of `a`, `a'` and `b`, and computes
its components of the two products. -/
def tripleDraws (V : Nat) : Proto (JmpSt G) (AShare V × AShare V × AShare V × List (BitVec V)) := do
  let a ← genRand V
  let a' ← genRand V
  let b ← genRand V
  let cs ← viaPrf (Aby3.mulLoop ([a, a'].zip [b, b]))
  pure (a, a', b, cs)

/-- The same for `get_mul_triple_many` with `n` triples: `a`, `b`, `a'` and the components of `2 n` products. -/
def tripleManyDraws (V n : Nat) :
    Proto (JmpSt G) (List (AShare V) × List (AShare V) × List (AShare V) × List (BitVec V)) := do
  let a ← genRandMany V n
  let b ← genRandMany V n
  let a' ← genRandMany V n
  let cs ← viaPrf (Aby3.mulLoop ((a ++ a').zip (b ++ b)))
  pure (a, b, a', cs)

/-- The same for `dot_sacrifice`, with the vectors `x` and `y` extended to `V` bits. -/
def dotDraws (V : Nat) (x y : List (AShare V)) : Proto (JmpSt G) (List (AShare V) × List (BitVec V)) := do
  let a' ← genRandMany V x.length
  let cs ← viaPrf (Aby3.dotLoop ([x, a'].zip [y, y]))
  pure (a', cs)

/-- The same for `dot_sacrifice_many`. -/
def dotManyDraws (V : Nat) (x y : List (List (AShare V))) :
    Proto (JmpSt G) (List (List (AShare V)) × List (BitVec V)) := do
  let a' ← genRandVecs V (y.map List.length)
  let cs ← viaPrf (Aby3.dotLoop ((x ++ a').zip (y ++ y)))
  pure (a', cs)

/-- The share of the value that must be zero. -/
def checkShare {V : Nat} (r v : BitVec V) (b c0 c1 : AShare V) : AShare V :=
  ((b.mulConst v).sub (c0.mulConst r)).add c1

/-- The shares of the values that must be zero in `get_mul_triple_many`. -/
def checkShares {V : Nat} (r : BitVec V) (v : List (BitVec V)) (b c0 c1 : List (AShare V)) : List (AShare V) :=
  List.zipWith (fun (p : BitVec V × AShare V) (q : AShare V × AShare V) => checkShare r p.1 p.2 q.1 q.2)
    (v.zip b) (c0.zip c1)

/-- The same for one dot product: `r a - a'` is opened to `v`. -/
def dotCheckShare {V : Nat} (r : BitVec V) (v : List (BitVec V)) (b : List (AShare V)) (c0 c1 : AShare V) : AShare V :=
  dotCheckAcc ((c0.neg.mulConst r).add c1) (v.zip b)

/-- The same for many dot products. -/
def dotCheckShares {V : Nat} (r : BitVec V) (v : List (List (BitVec V))) (b : List (List (AShare V)))
    (c0 c1 : List (AShare V)) : List (AShare V) :=
  List.zipWith (fun (p : List (BitVec V) × List (AShare V)) (q : AShare V × AShare V) =>
    dotCheckShare r p.1 p.2 q.1 q.2) (v.zip b) (c0.zip c1)

/-- What a party computes from the opened differences `u`, `v` in `mul`. -/
def mulShare (me : Party) (a b z : AShare K) (u v : BitVec K) : AShare K :=
  ((z.add (b.mulConst u)).add (a.mulConst v)).subConst (u * v) me

/-- The differences between the components `z` sent by the corrupt party and the ones `κ` it should have sent. -/
def errors {V : Nat} (z κ : List (BitVec V)) : List (BitVec V) := List.zipWith (· - ·) z κ

end MalAby3

namespace Spdz

open Jmp

variable {G : Prg} {V : Nat}

/-- What a party does in `generate_triples` before it communicates, with `2 n + 1` words: it draws its shares of `a` and
`b` and computes its components of `a & b`. -/
def andDraws (n : Nat) : Proto (JmpSt G) (List (AShare 128) × List (AShare 128) × List (BitVec 128)) := do
  let a ← genRandMany 128 (2 * n + 1)
  let b ← genRandMany 128 (2 * n + 1)
  let cs ← viaPrf (Aby3.andLoop (a.zip b))
  pure (a, b, cs)

/-- What `permute` makes of one list of shares with the given coin. -/
def shuffled (G : Prg) (seed : Bytes) (l : List (AShare 128)) : List (AShare 128) :=
  (permuteLoop G (l.length * 128) 0 (G.ofSeed seed) (l, l, l)).1

/-- The same for a list of words. -/
def shuffledWords (G : Prg) (seed : Bytes) (l : List (BitVec 128)) : List (BitVec 128) :=
  (shuffled G seed (l.map fun w => ⟨w, w⟩)).map (·.a)

/-- The shares opened by `verify_triples`. -/
def pqShares (a b x y : List (AShare 128)) : List (AShare 128) :=
  List.zipWith (fun a x => x.xor a) a x ++ List.zipWith (fun b y => y.xor b) b y

/-- What the words shared by the honest parties `i` (`l`) and `i.next` (`l'`) are. -/
def pairWords (l l' : List (AShare 128)) : List (BitVec 128) := List.zipWith (fun s s' => s.a ^^^ s.b ^^^ s'.a) l l'

/-- The shuffled precomputed words against which `w` words are checked. -/
def checkers (G : Prg) (seed : Bytes) (w : Nat) (l : List (AShare 128)) : List (AShare 128) :=
  (shuffled G seed (l.take (max w 8192))).take w

/-- The strings hashed in `verify_triple_queue` by the honest parties `i` and `i.next` in the states `s` and `s'`, where
`ms` are the messages `i` gets from the corrupt party, contain a collision: the first pair are the messages compared by
the joint message passing (the common coin and the opened words), the second pair the encodings of the values that must
be zero. -/
def queueCollision (H : Hash) (i : Party) (s s' : SpdzSt G V) (ms : List Bytes) : Prop :=
  let seed := pairSeed i s.jmp s'.jmp
  let check (l : List (AShare 128)) := checkers G seed s.buffer.len l
  let p := List.zipWith (· ^^^ ·) (pairWords s.buffer.a s'.buffer.a) (pairWords (check s.prec.a) (check s'.prec.a))
  let q := List.zipWith (· ^^^ ·) (pairWords s.buffer.b s'.buffer.b) (pairWords (check s.prec.b) (check s'.prec.b))
  (∃ m1 m2 rest, ms = m1 :: m2 :: rest ∧
    Collision H (s.jmp.rcvQueueNext ++ m1 ++ m2)
      (s'.jmp.sendQueuePrev ++ ringSliceToBytes (K := 8) (G.genSeed s'.jmp.prf.my).1 ++
        ringSliceToBytes ((pqShares s'.buffer.a s'.buffer.b (check s'.prec.a) (check s'.prec.b)).map (·.a)))) ∨
  Collision H
    ((tripleChecks i s.buffer.a s.buffer.b s.buffer.c (check s.prec.c) p q).flatMap (binZeroBytes i))
    ((tripleChecks i.next s'.buffer.a s'.buffer.b s'.buffer.c (check s'.prec.c) p q).flatMap (binZeroBytes i.next))

/-- The differences between the components `z` sent by the corrupt party and the ones `κ` it should have sent. -/
def xorErrors (z κ : List (BitVec 128)) : List (BitVec 128) := List.zipWith (· ^^^ ·) z κ

end Spdz

end Verif
