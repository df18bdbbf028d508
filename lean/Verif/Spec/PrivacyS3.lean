import Verif.Spec.PrivacyMal
import Verif.Model.Swift3

/-!
# Specification: what a party sees during a run of the Swift3 backend

As in `Spec/PrivacyMal.lean`, with the state of the Swift3 backend: every party has three generators, one in common with
each of the other two parties and one that all three have in common.
-/

namespace Verif

/-- The states `st` with the tape `t` in the generator that party `i` does not know: the one shared by the other two
parties. -/
def s3TapeIn {f : Bytes → List Bool} {K : Nat} (i : Party) (t : List Bool) (st : Party → S3St (idealPrg f) K) (j : Party) :
    S3St (idealPrg f) K :=
  if j = i.prev then { st j with prf := ⟨(st j).prf.p1, t, (st j).prf.pp⟩ }
  else if j = i.next then { st j with prf := ⟨t, (st j).prf.p2, (st j).prf.pp⟩ }
  else st j

/-- The number of tapes of `n` bits, for the generator unknown to party `i`, with which party `i` sees exactly the
messages `v` in a run of `p` that starts in the states `st`. Divided by `2 ^ n` this is the probability of the view `v`. -/
noncomputable def viewCountS3 {f : Bytes → List Bool} {K : Nat} {α : Type} (p : Party → Proto (S3St (idealPrg f) K) α)
    (st : Party → S3St (idealPrg f) K) (i : Party) (n : Nat) (v : Log) : Nat :=
  Set.ncard {t : List Bool | t.length = n ∧ Sees (fun j => p j (s3TapeIn i t st j)) i v}

end Verif
