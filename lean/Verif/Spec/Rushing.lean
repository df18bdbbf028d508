import Verif.Model.MalAby3
import Verif.Spec.Jmp

/-!
# Specification: an attack on the maliciously secure ABY3 backend

In `dot_sacrifice_many` (`aby3_mal/protocol.rs:536-699`) and its siblings the parties exchange the components of the
products and then toss the coin `r` under which the products are checked. A party sends its contribution to the coin as
soon as it has received the components of its *predecessor*; so the corrupt party, which learns the missing contribution
from its predecessor, can compute `r` before it sends its own components to its successor. The programs below do this,
and are otherwise the programs of an honest party.
-/

namespace Verif

namespace MalAby3

open Jmp

variable {G : Prg} {K : Nat}

/-- `aby_dot_many` and the toss of the coin, as run by the corrupt party: it first receives both messages of its
predecessor, computes the coin `r`, adds `errs r` to its components, and then sends its two messages. -/
def rushDotCoin (V : Nat) (me : Party) (errs : BitVec V → List (BitVec V)) (a b : List (List (AShare V))) :
    Proto (JmpSt G) (List (AShare V) × BitVec V) := do
  let sharesA ← viaPrf (Aby3.dotLoop (a.zip b))
  let (seed1, seed2) ← genSeeds
  let sharesB ← Proto.net (receiveVecPrev V me sharesA.length)
  jmpBufferMany (K := 8) seed1
  let seed3 ← jmpReceiveMany 8 me seed2.length
  let r := (G.gen V (G.ofSeed (List.zipWith (fun s1 (p : Byte × Byte) => s1 ^^^ (p.2 ^^^ p.1)) seed1 (seed2.zip seed3)))).1
  let bad := List.zipWith (· + ·) sharesA (errs r)
  Proto.net (sendVecNext me bad)
  jmpSendMany (K := 8) me seed2
  pure (List.zipWith AShare.mk bad sharesB, r)

/-- `dot_many` as run by the corrupt party, which adds `es` to the results. -/
def rushDotMany (H : Hash) (me : Party) (es : List (BitVec (verifWidth K))) (a b : List (List (AShare K))) :
    Proto (JmpSt G) (List (AShare K)) := do
  let V := verifWidth K
  let av := a.map fun l => l.map (·.toVerif V)
  let bv := b.map fun l => l.map (·.toVerif V)
  let a' ← genRandVecs V (bv.map List.length)
  let (cs, r) ← rushDotCoin V me (fun r => es ++ es.map (· * r)) (av ++ a') (bv ++ bv)
  let v ← reconstructMany me
    (List.zipWith (fun xs ys => List.zipWith (fun x y => (x.mulConst r).sub y) xs ys) av a').flatten
  jmpVerify H me
  let ws ← Proto.lift (dotCheckLoop r v (bv.zip ((cs.take a.length).zip (cs.drop a.length))))
  Proto.net (hashZeroVerify H me ws)
  pure ((cs.take a.length).map (·.fromVerif K))

/-- The backend of the corrupt party in a query: every dot product is changed by `e`. -/
def rushOps (G : Prg) (H : Hash) (K : Nat) (signed : Bool) (e : BitVec (verifWidth K)) (me : Party) :
    MpcOps (JmpSt G) (AShare K) (AShare 1) K :=
  { ops G H K signed me with
    maskedDotMany := defaultMaskedDotMany (AShare.zero K) fun a b => rushDotMany H me (List.replicate a.length e) a b }

end MalAby3

end Verif
