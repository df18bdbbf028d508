import Verif.Spec.PrivacyMal
import Verif.Model.Spdz

/-!
# Specification: what a party sees during a run of the SPDZ-wise backend

As in `Spec/PrivacyMal.lean`, with the state of the SPDZ-wise backend.
-/

namespace Verif

/-- The states `st` with the tape `t` in the generator that party `i` does not know: the one shared by the other two
parties. -/
def tapeS {f : Bytes → List Bool} {V : Nat} (i : Party) (t : List Bool) (st : Party → SpdzSt (idealPrg f) V) (j : Party) :
    SpdzSt (idealPrg f) V :=
  { st j with jmp := tapeIn i t (fun j => (st j).jmp) j }

/-- The number of tapes of `n` bits, for the generator unknown to party `i`, with which party `i` sees exactly the
messages `v` in a run of `p` that starts in the states `st`. Divided by `2 ^ n` this is the probability of the view `v`. -/
noncomputable def viewCountSpdz {f : Bytes → List Bool} {V : Nat} {α : Type} (p : Party → Proto (SpdzSt (idealPrg f) V) α)
    (st : Party → SpdzSt (idealPrg f) V) (i : Party) (n : Nat) (v : Log) : Nat :=
  Set.ncard {t : List Bool | t.length = n ∧ Sees (fun j => p j (tapeS i t st j)) i v}

end Verif
