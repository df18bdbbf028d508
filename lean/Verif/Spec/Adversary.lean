import Verif.Spec.Joint
import Verif.Model.Hash

/-!
# Specification vocabulary: executions with a corrupt party

A corrupt party runs an arbitrary program `adv` of its own; the other two run the protocol. Since theorems
quantify over `adv` and over all schedules, every behaviour of the corrupt party in every interleaving is covered.
-/

namespace Verif

variable {α : Type}

/-- The three programs when party `c` runs `adv` instead of the protocol. -/
def corrupt (p : Party → Prog α) (c : Party) (adv : Prog α) : Party → Prog α := fun i => if i = c then adv else p i

/-- `conf` can be reached from the start by some schedule. -/
def Reaches (p : Party → Prog α) (conf : Config α) : Prop := ∃ n, StepsN n (Config.init p) conf

/-- Add a message at the front of the messages exchanged with party `j`. -/
def push (j : Party) (m : Bytes) (f : Party → List Bytes) : Party → List Bytes :=
  fun k => if k = j then m :: f k else f k

/-- `Local p rcvd sent p'`: seen from one party, the code `p` runs until `p'` is left, having received exactly the
messages `rcvd j` from each party `j` and sent exactly `sent j` to each party `j`, in these orders. -/
inductive Local : Prog α → (Party → List Bytes) → (Party → List Bytes) → Prog α → Prop
  | stop (p : Prog α) : Local p (fun _ => []) (fun _ => []) p
  | send {d : Party} {m : Bytes} {k q : Prog α} {r s : Party → List Bytes} (h : Local k r s q) :
      Local (.send d m k) r (push d m s) q
  | recv {j : Party} {m : Bytes} {k : Bytes → Prog α} {q : Prog α} {r s : Party → List Bytes}
      (h : Local (k m) r s q) : Local (.recv j k) (push j m r) s q

/-- Two different byte strings with the same digest. -/
def Collision (H : Hash) (m m' : Bytes) : Prop := m ≠ m' ∧ H.h m = H.h m'

end Verif
