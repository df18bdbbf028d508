import Verif.Spec.Privacy
import Verif.Spec.Swift3Setup

/-!
# Specification: what the set-up of the generators shows to a party

Of the three pairwise generators that `preprocess` sets up, party `i` gets two. The third one belongs to the other two
parties. It hides their secrets from `i` only if what `i` sees during the set-up tells nothing about it.
-/

namespace Verif

/-- As `Sees`, and the results of the parties satisfy `Q`. -/
def SeesEnd {α : Type} (p : Party → Prog α) (i : Party) (v : Log) (Q : (Party → α) → Prop) : Prop :=
  ∃ r : Party → Log × α, AllSchedules (fun j => (p j).record []) r ∧ (r i).1 = v ∧ Q (fun j => (r j).2)

/-- Every party `j` draws `x j`, of the kind `ok`; the draw of party `i` is `own`. The number of draws of the other two
parties with which party `i` sees exactly `v` and the results satisfy `Q`. Divided by the number of all draws this is a
probability. -/
noncomputable def setupCount {X α : Type} (p : (Party → X) → Party → Prog α) (ok : X → Prop) (i : Party) (own : X) (v : Log)
    (Q : (Party → α) → Prop) : Nat :=
  Set.ncard {x : Party → X | (∀ j, ok (x j)) ∧ x i = own ∧ SeesEnd (p x) i v Q}

/-- The number of 32-byte seeds that give the generator `g`. Divided by `2 ^ 256` this is the probability of `g` when the seed
is uniformly random. -/
noncomputable def seedCount (G : Prg) (g : G.S) : Nat := Set.ncard {k : Bytes | k.length = 32 ∧ G.ofSeed k = g}

/-- What a party of the malicious ABY3 backend draws in `setup_prf`: two seeds and the randomness of two commitments. -/
structure MalSetupIn where
  seed1 : Bytes
  seed2 : Bytes
  rand1 : Bytes
  rand2 : Bytes

/-- All have 32 bytes. -/
def MalSetupIn.Sized (x : MalSetupIn) : Prop :=
  x.seed1.length = 32 ∧ x.seed2.length = 32 ∧ x.rand1.length = 32 ∧ x.rand2.length = 32

end Verif
