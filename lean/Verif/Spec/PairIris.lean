import Verif.Spec.PairMac
import Verif.Model.Iris

/-!
# Specification: a query of the SPDZ-wise backend with a corrupt party

As in `Spec/Pair.lean`, the corrupt party is `i.prev`. A query checks the MACs of a chunk of the database in
`compare_iris_many`, before it extracts the sign bits. `ChunkForged` says that this check has passed although the corrupt
party has changed an inner product of the chunk.
-/

namespace Verif

namespace Spdz

open Jmp MalAby3

variable {G : Prg} {K : Nat}

/-- What party `k` has in its MAC queue when the check of a chunk starts: the inner products and the differences of the
distances and the thresholds. -/
def chunkQueue (H : Hash) (sg : Bool) (k : Party) (a : List (SShare (verifWidth K))) (b : List (List (SShare (verifWidth K))))
    (masks : List IrisCodeArray) (st : SpdzSt G (verifWidth K)) (dots : List (SShare (verifWidth K))) :
    Except Err (List (SShare (verifWidth K))) := do
  let hwds ← Iris.hammingLoop (ops G H K sg k) a ((b.zip dots).zip masks)
  let diffs ← Iris.diffLoop (ops G H K sg k) st (hwds.zip (masks.map IrisCodeArray.countOnes))
  pure (dots ++ diffs)

/-- The equation under which errors `es` in the inner products and `fs` in their MACs are not noticed: the differences have
the errors `-2 * es` and `-2 * fs`. `ρ` are the random coefficients, `e0`, `e1`, `e2` the errors of the corrupt party in the
check itself. -/
def unnoticed {V : Nat} (key : BitVec V) (es fs ρ : List (BitVec V)) (e0 e1 e2 : BitVec V) : Prop :=
  key * ((List.zipWith (· * ·) (es ++ es.map (-2 * ·)) ρ).sum + e0) + e2 =
    (List.zipWith (· * ·) (fs ++ fs.map (-2 * ·)) ρ).sum + e1

/-- The messages `msgs` of the corrupt party in `compare_iris_many` change an inner product of the chunk modulo `2^K` and
pass the MAC check, by a collision of two named strings or by `unnoticed`. `a` are the shares of the query, `b` those of the
entries, `masks` the combined masks, `st` the states before. Everything else is what the parties compute from these. -/
def ChunkForged (H : Hash) (sg : Bool) (i : Party) (key : BitVec (verifWidth K))
    (a : Party → List (SShare (verifWidth K))) (b : Party → List (List (SShare (verifWidth K))))
    (masks : List IrisCodeArray) (st : Party → SpdzSt G (verifWidth K)) (msgs : List Bytes) : Prop :=
  ∃ (cs ds : Party → List (BitVec (verifWidth K))) (st1 : Party → SpdzSt G (verifWidth K))
    (z w : List (BitVec (verifWidth K))) (z0 z1 z2 : BitVec (verifWidth K)) (rest : List Bytes)
    (queue : Party → List (SShare (verifWidth K))) (rands : Party → List (AShare (verifWidth K)))
    (c0 c1 zero : Party → BitVec (verifWidth K)) (st2 : Party → JmpSt G) (ρ : List (BitVec (verifWidth K))),
    (∀ k, maskedDotLoop (a k) ((b k).zip masks) (st k) = .ret ((cs k, ds k), st1 k)) ∧
    msgs = ringSliceToBytes z :: ringSliceToBytes w :: ringSliceToBytes [z0, z1] :: toBytes z2 :: rest ∧
    z.length = masks.length ∧ w.length = masks.length ∧
    (∀ k, chunkQueue H sg k (a k) (b k) masks (st k)
      (List.zipWith SShare.mk (reshared i cs z k) (reshared i ds w k)) = .ok (queue k)) ∧
    (∀ k, macDraws ((queue k).map (·.value)) ((queue k).map (·.mac)) (st1 k).jmp =
      .ret ((rands k, [c0 k, c1 k], zero k), st2 k)) ∧
    Rels SharesOf ρ rands ∧ ρ.length = masks.length + masks.length ∧
    (∃ e ∈ errors z (cs i.prev), e.setWidth K ≠ 0) ∧
    (macCollision H i (fun k => (st k).macKey) c0 c1 zero z0 z1 z2 ∨
      unnoticed key (errors z (cs i.prev)) (errors w (ds i.prev)) ρ (z0 - c0 i.prev) (z1 - c1 i.prev)
        (macError i (fun k => (st k).macKey) c0 zero z0 z2))

/-- In the loop over the chunks, with the messages `rcvd`, the corrupt party forges some chunk: the first one, or a later
one, where the states in between are those of the honest parties. (The corrupt party's component of the states is fixed by
the other two as far as it matters: its generators are theirs, its share of the key does not change.) -/
inductive ForgedIn (H : Hash) (sg : Bool) (i : Party) (key : BitVec (verifWidth K))
    (a : Party → List (SShare (verifWidth K))) (maskA : IrisCodeArray) :
    (Party → SpdzSt G (verifWidth K)) → (Party → List (List (List (SShare (verifWidth K))))) →
    List (List IrisCodeArray) → (Party → Party → List Bytes) → Prop
  | here {st : Party → SpdzSt G (verifWidth K)} {b : Party → List (List (SShare (verifWidth K)))}
      {masks : List IrisCodeArray} {bs : Party → List (List (List (SShare (verifWidth K))))} {mss : List (List IrisCodeArray)}
      {rcvd : Party → Party → List Bytes} (h : ChunkForged H sg i key a b (masks.map maskA.and) st (rcvd i i.prev)) :
      ForgedIn H sg i key a maskA st (fun k => b k :: bs k) (masks :: mss) rcvd
  | later {st : Party → SpdzSt G (verifWidth K)} {b : Party → List (List (SShare (verifWidth K)))}
      {masks : List IrisCodeArray} {bs : Party → List (List (List (SShare (verifWidth K))))} {mss : List (List IrisCodeArray)}
      {rcvd r s rcvd' : Party → Party → List Bytes} {mid : Party → List (AShare 1) × SpdzSt G (verifWidth K)}
      (hv : HonestViews (fun k => Iris.compareIrisMany (ops G H K sg k) (a k) (b k) maskA masks (st k)) i.prev r s mid)
      (hr : ∀ l, l ≠ i.prev → rcvd l = fun d => r l d ++ rcvd' l d)
      (hp : PrfOk fun k => (mid k).2.jmp.prf) (hk : ∀ k, (mid k).2.macKey = (st k).macKey)
      (h : ForgedIn H sg i key a maskA (fun k => (mid k).2) bs mss rcvd') :
      ForgedIn H sg i key a maskA st (fun k => b k :: bs k) (masks :: mss) rcvd

end Spdz

end Verif
