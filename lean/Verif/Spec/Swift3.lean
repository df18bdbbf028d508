import Verif.Spec.Sharing
import Verif.Model.Swift3

/-!
# Specification: Swift3 sharings, registered gates, consistent joint state
-/

namespace Verif

/-- The three parties hold a Swift3 sharing of `x`: everybody holds the masked value `x + α1 + α2 + α3`, where `α1`,
`α2`, `α3` are the first components of the parties, and the second component of every party is the first component of
its predecessor. -/
def S3SharesOf {K : Nat} (x : BitVec K) (s : Party → S3Share K) : Prop :=
  (∀ i, (s i).c = x + (s 0).a + (s 1).a + (s 2).a) ∧ ∀ i, (s i).b = (s i.prev).a

/-- The same with exclusive or. -/
def S3BinSharesOf {K : Nat} (x : BitVec K) (s : Party → S3Share K) : Prop :=
  (∀ i, (s i).c = x ^^^ (s 0).a ^^^ (s 1).a ^^^ (s 2).a) ∧ ∀ i, (s i).b = (s i.prev).a

/-- The generators: each pair of neighbours has one in common, and all three parties have one in common. -/
def S3PrfOk {G : Prg} (p : Party → S3Prf G) : Prop :=
  (∀ i, (p i).p1 = (p i.next).p2) ∧ ∀ i j, (p i).pp = (p j).pp

/-- What a party has received from one neighbour and will check against the other is what that other party has recorded
as sent. -/
def S3QueuesOk {G : Prg} {K : Nat} (st : Party → S3St G K) : Prop :=
  (∀ i, (st i).rcvQPrev = (st i.prev).sendQNext) ∧ ∀ i, (st i).rcvQNext = (st i.next).sendQPrev

/-- The gate of a prover `p` and the two views of it, at its successor and at its predecessor: the views add up to the
gate, and the gate is correct, `a0 b0 + a0 b1 + a1 b0 + r = s` (over bits). -/
def AndGateOk (p vp vn : ZInput Bool) : Prop :=
  p = ⟨vp.a0 ^^ vn.a0, vp.a1 ^^ vn.a1, vp.b0 ^^ vn.b0, vp.b1 ^^ vn.b1, vp.r ^^ vn.r, vp.s ^^ vn.s⟩ ∧
    ((p.a0 && p.b0) ^^ (p.a0 && p.b1) ^^ (p.a1 && p.b0) ^^ p.r) = p.s

/-- The same for a multiplication in the ring of `K` bits. -/
def MulGateOk {K : Nat} (p vp vn : ZInput (BitVec K)) : Prop :=
  p = ⟨vp.a0 + vn.a0, vp.a1 + vn.a1, vp.b0 + vn.b0, vp.b1 + vn.b1, vp.r + vn.r, vp.s + vn.s⟩ ∧
    p.a0 * p.b0 + p.a0 * p.b1 + p.a1 * p.b0 + p.r = p.s

/-- The four vectors of a dot-product gate have length `n`. -/
def DInput.Sized {K : Nat} (n : Nat) (p : DInput K) : Prop :=
  p.a0.length = n ∧ p.a1.length = n ∧ p.b0.length = n ∧ p.b1.length = n

/-- The same for a dot product. -/
def DotGateOk {K : Nat} (p vp vn : DInput K) : Prop :=
  (∃ n, p.Sized n ∧ vp.Sized n ∧ vn.Sized n) ∧
    p = ⟨List.zipWith (· + ·) vp.a0 vn.a0, List.zipWith (· + ·) vp.a1 vn.a1, List.zipWith (· + ·) vp.b0 vn.b0,
      List.zipWith (· + ·) vp.b1 vn.b1, vp.r + vn.r, vp.s + vn.s⟩ ∧
    (List.zipWith (· * ·) p.a0 p.b0).sum + (List.zipWith (· * ·) p.a0 p.b1).sum +
      (List.zipWith (· * ·) p.a1 p.b0).sum + p.r = p.s

/-- Three lists of the same length, of triples related by `ok`. -/
def Gates {I : Type} (ok : I → I → I → Prop) (p vp vn : List I) : Prop :=
  ∃ gs : List (I × I × I), (∀ g ∈ gs, ok g.1 g.2.1 g.2.2) ∧ p = gs.map (·.1) ∧ vp = gs.map (·.2.1) ∧
    vn = gs.map (·.2.2)

/-- The sizes recorded with the dot-product gates: every gate fits, and those from `maxDot` on have full size. -/
def DProof.SizesOk {K : Nat} (z : DProof K) : Prop :=
  ∀ k g, z.proof[k]? = some g → ∃ n, g.Sized n ∧ n ≤ z.dotSize ∧ (z.maxDot ≤ k → n = z.dotSize)

/-- How many dot products are registered, and the size of the largest one. -/
structure DotCount where
  n : Nat
  size : Nat

/-- One more dot product, of vectors of length `len`. -/
def DotCount.add (w : DotCount) (len : Nat) : DotCount := ⟨w.n + 1, max w.size len⟩

/-- More dot products, of the given sizes. -/
def DotCount.addMany (w : DotCount) (lens : List Nat) : DotCount := lens.foldl DotCount.add w

/-- Consistent joint state of honest parties: correlated generators, matching queues, and correct and consistently
registered gates: `u` AND gates, `v` multiplications and `w` dot products. -/
structure S3Ok {G : Prg} {K : Nat} (u v : Nat) (w : DotCount) (st : Party → S3St G K) : Prop where
  prf : S3PrfOk fun i => (st i).prf
  queues : S3QueuesOk st
  ands : ∀ i, Gates AndGateOk (st i).andProof.proof (st i.next).andProof.verifyPrev (st i.prev).andProof.verifyNext ∧
    (st i).andProof.proof.length = u
  muls : ∀ i, Gates MulGateOk (st i).mulProof.proof (st i.next).mulProof.verifyPrev (st i.prev).mulProof.verifyNext ∧
    (st i).mulProof.proof.length = v
  dots : ∀ i, Gates DotGateOk (st i).dotProof.proof (st i.next).dotProof.verifyPrev (st i.prev).dotProof.verifyNext ∧
    (st i).dotProof.proof.length = w.n
  sizes : ∀ i, (st i).dotProof.SizesOk ∧ (st i).dotProof.dotSize = w.size ∧
    (st i).dotProof.maxDot = (st 0).dotProof.maxDot

end Verif
