import Verif.Spec.Pair
import Verif.Spec.Swift3
import Verif.Spec.Dzkp

/-!
# Specification: Swift3 with a corrupt party

As in `Spec/Pair.lean`, the corrupt party is `i.prev`, and `i` and `i.next` are honest.
-/

namespace Verif

/-- The honest parties `i` (share `s`) and `i.next` (share `s'`) hold their parts of a Swift3 sharing of `x`: they agree on
the masked value and on the mask they both know, and the masked value is `x` plus the three masks. -/
def S3PairOf {K : Nat} (x : BitVec K) (s s' : S3Share K) : Prop :=
  s.c = x + s.a + s.b + s'.a ∧ s'.c = s.c ∧ s'.b = s.a

/-- The same with exclusive or. -/
def S3BinPairOf {K : Nat} (x : BitVec K) (s s' : S3Share K) : Prop :=
  s.c = x ^^^ s.a ^^^ s.b ^^^ s'.a ∧ s'.c = s.c ∧ s'.b = s.a

/-- The same for lists. -/
def S3PairsOf {K : Nat} (xs : List (BitVec K)) (l l' : List (S3Share K)) : Prop :=
  l.length = l'.length ∧ List.Forall₂ (fun x (p : S3Share K × S3Share K) => S3PairOf x p.1 p.2) xs (l.zip l')

/-- The same for lists, with exclusive or. -/
def S3BinPairsOf {K : Nat} (xs : List (BitVec K)) (l l' : List (S3Share K)) : Prop :=
  l.length = l'.length ∧ List.Forall₂ (fun x (p : S3Share K × S3Share K) => S3BinPairOf x p.1 p.2) xs (l.zip l')

/-- The same for lists of vectors. -/
def S3PairssOf {K : Nat} (xss : List (List (BitVec K))) (l l' : List (List (S3Share K))) : Prop :=
  l.length = l'.length ∧
    List.Forall₂ (fun xs (p : List (S3Share K) × List (S3Share K)) => S3PairsOf xs p.1 p.2) xss (l.zip l')

namespace Swift3

variable {G : Prg} {K : Nat}

/-- What `i` (state `s`) and `i.next` (state `s'`) have received from the corrupt party in joint message passing is what the
other one has recorded as sent. -/
def Agree (s s' : S3St G K) : Prop := s.rcvQNext = s'.sendQPrev ∧ s'.rcvQPrev = s.sendQNext

/-- One of the two comparisons of queues passes because of a collision: these are the strings hashed by the honest
parties. -/
def QueueCollision (H : Hash) (s s' : S3St G K) : Prop :=
  Collision H s.rcvQNext s'.sendQPrev ∨ Collision H s'.rcvQPrev s.sendQNext

/-- A message of the corrupt party to `i` (one of `msgs`) collides with the bytes `x` the other honest party has hashed, or
a message to `i.next` (one of `msgs'`) with `x'`. -/
def OpenCollision (H : Hash) (msgs msgs' : List Bytes) (x x' : Bytes) : Prop :=
  (∃ m ∈ msgs, Collision H m x) ∨ ∃ m ∈ msgs', Collision H m x'

/-- The generators the honest parties have in common: the one of `i` and `i.next`, and the common one. -/
def PairPrf (p p' : S3Prf G) : Prop := p.p1 = p'.p2 ∧ p.pp = p'.pp

/-- One of the gates of the corrupt party that the honest parties have registered (the views of `i` and `i.next` together)
is wrong. -/
def WrongGate (s s' : S3St G K) : Prop :=
  (∃ q, WrongAnd s.andProof.verifyPrev s'.andProof.verifyNext q) ∨
  (∃ q, WrongMul s.mulProof.verifyPrev s'.mulProof.verifyNext q) ∨
  ∃ q, WrongDot s.dotProof.verifyPrev s'.dotProof.verifyNext q

/-- The honest parties have registered the same number of gates. -/
def SameCount {α : Type} (z z' : ZProof α) : Prop :=
  ∃ n, (z.proof.length = n ∧ z.verifyPrev.length = n ∧ z.verifyNext.length = n) ∧
    (z'.proof.length = n ∧ z'.verifyPrev.length = n ∧ z'.verifyNext.length = n)

/-- The views that `i` and `i.next` have of a dot product of the corrupt party have the same sizes, which fit to those
recorded (the gates from `maxDot` on have full size). -/
def ViewsFit (z z' : DProof K) : Prop :=
  ∀ q x y, z.verifyPrev[q]? = some x → z'.verifyNext[q]? = some y →
    ∃ n, x.Sized n ∧ y.Sized n ∧ n ≤ z.dotSize ∧ (z.maxDot ≤ q → n = z.dotSize)

/-- The same for dot products, with the same sizes. -/
def SameDotCount (z z' : DProof K) : Prop :=
  ∃ n, (z.proof.length = n ∧ z.verifyPrev.length = n ∧ z.verifyNext.length = n) ∧
    (z'.proof.length = n ∧ z'.verifyPrev.length = n ∧ z'.verifyNext.length = n) ∧
    z'.dotSize = z.dotSize ∧ z'.maxDot = z.maxDot ∧ ViewsFit z z'

/-- The states of the honest parties fit together: same generators, as many bytes received from the corrupt party as
recorded by the other one, same numbers of gates. Nothing is said about what the corrupt party has sent. -/
structure PairOk (s s' : S3St G K) : Prop where
  prf : PairPrf s.prf s'.prf
  rcv : s.rcvQNext.length = s'.sendQPrev.length ∧ s'.rcvQPrev.length = s.sendQNext.length
  ands : SameCount s.andProof s'.andProof
  muls : SameCount s.mulProof s'.mulProof
  dots : SameDotCount s.dotProof s'.dotProof

/-- Nothing the corrupt party has sent so far is wrong. -/
def Clean (s s' : S3St G K) : Prop := Agree s s' ∧ ¬ WrongGate s s'

end Swift3

end Verif
