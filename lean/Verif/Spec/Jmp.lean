import Verif.Spec.Sharing
import Verif.Model.Jmp

/-!
# Specification: consistent joint state with message queues, the common coin
-/

namespace Verif

namespace Jmp

/-- The joint state of honest parties: the generators are correlated, and what a party has received from its
predecessor is what its successor has recorded as sent. -/
def JmpOk {G : Prg} (st : Party → JmpSt G) : Prop :=
  PrfOk (fun i => (st i).prf) ∧ ∀ i, (st i).rcvQueueNext = (st i.next).sendQueuePrev

/-- The common seed: bytewise exclusive or of the three contributions. -/
def coinOf (k : Party → Bytes) : Bytes :=
  List.zipWith (fun a (p : Byte × Byte) => a ^^^ (p.2 ^^^ p.1)) (k 0) ((k 2).zip (k 1))

end Jmp

end Verif
