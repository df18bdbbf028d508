import Verif.Model.AShare
import Verif.Spec.Joint

/-!
# Specification: what it means for the three parties to hold shares of a value
-/

namespace Verif

/-- The three parties hold an additive replicated sharing of `x`: the three `a` components add up to `x`
(mod `2^K`), and the second component of every party is the first component of its predecessor. -/
def SharesOf {K : Nat} (x : BitVec K) (s : Party → AShare K) : Prop :=
  (s 0).a + (s 1).a + (s 2).a = x ∧ ∀ i, (s i).b = (s i.prev).a

/-- The same with exclusive or. -/
def BinSharesOf {K : Nat} (x : BitVec K) (s : Party → AShare K) : Prop :=
  (s 0).a ^^^ (s 1).a ^^^ (s 2).a = x ∧ ∀ i, (s i).b = (s i.prev).a

/-- The joint PRF invariant established by the set-up: the generator a party shares with its predecessor is
in the same state at both. -/
def PrfOk {G : Prg} (p : Party → Prf G) : Prop := ∀ i, (p i).next = (p i.prev).my

/-- The sum of the entries selected by a mask. -/
def maskedSum {K : Nat} (mask : List Bool) (xs : List (BitVec K)) : BitVec K :=
  (List.zipWith (fun x (m : Bool) => if m then x else 0) xs mask).sum

end Verif
