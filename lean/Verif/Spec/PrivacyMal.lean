import Verif.Spec.Privacy
import Verif.Model.MalAby3

/-!
# Specification: what a party sees during a run of the malicious ABY3 backend

As in `Spec/Privacy.lean`; here the generators also yield seeds of 32 bytes, and the common coin is expanded to further
random numbers by the generator that is started with the seed.
-/

namespace Verif

/-- The ideal random generator whose state is the tape of its future random bits: elements of `K` bits, seeds (32 bytes)
and indices are cut from the tape. With a uniformly random tape its outputs are uniform and independent. A generator
started with a seed that the parties have tossed gets the tape `f seed`; the function `f` is arbitrary. -/
def idealPrg (f : Bytes → List Bool) : Prg where
  S := List Bool
  ofSeed := f
  gen K t := (tapeVal K t, t.drop K)
  genSeed t := (words 8 32 t, t.drop 256)
  genRange n t := ((tapeVal 64 t).toNat % n, t.drop 64)
  genRange_lt _ _ h := Nat.mod_lt _ h
  genSeed_length _ := rfl

/-- The states `st` with the tape `t` in the generator that party `i` does not know: the one shared by the other two
parties. -/
def tapeIn {f : Bytes → List Bool} (i : Party) (t : List Bool) (st : Party → JmpSt (idealPrg f)) (j : Party) :
    JmpSt (idealPrg f) :=
  if j = i.prev then { st j with prf := ⟨(st j).prf.my, t⟩ }
  else if j = i.next then { st j with prf := ⟨t, (st j).prf.next⟩ }
  else st j

/-- The number of tapes of `n` bits, for the generator unknown to party `i`, with which party `i` sees exactly the
messages `v` in a run of `p` that starts in the states `st`. Divided by `2 ^ n` this is the probability of the view `v`. -/
noncomputable def viewCountMal {f : Bytes → List Bool} {α : Type} (p : Party → Proto (JmpSt (idealPrg f)) α)
    (st : Party → JmpSt (idealPrg f)) (i : Party) (n : Nat) (v : Log) : Nat :=
  Set.ncard {t : List Bool | t.length = n ∧ Sees (fun j => p j (tapeIn i t st j)) i v}

end Verif
