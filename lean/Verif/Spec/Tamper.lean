import Verif.Spec.Spdz

/-!
# Specification: an attack on the opening of values in the SPDZ-wise backend

`open` and `open_many` (`spdzwise/protocol.rs:869-900`) verify the MACs of the shares and then exchange the missing
components without any further check. The corrupt party below takes part honestly in the verification and changes only
the component it sends afterwards.
-/

namespace Verif

namespace Spdz

variable {G : Prg} {V : Nat}

/-- `open` as run by the corrupt party: the component sent to the next party is changed by `e`. -/
def tamperOpen (H : Hash) (K : Nat) (me : Party) (e : BitVec V) (s : SShare V) : Proto (SpdzSt G V) (BitVec K) := do
  queueAll [s]
  verifyMacs H me
  let result ← viaAby (Aby3.openShare me ⟨s.value.a, s.value.b + e⟩)
  pure (fromVerif K result)

/-- `open_many` as run by the corrupt party: the components sent to the next party are changed by `es`. -/
def tamperOpenMany (H : Hash) (K : Nat) (me : Party) (es : List (BitVec V)) (ss : List (SShare V)) :
    Proto (SpdzSt G V) (List (BitVec K)) := do
  queueAll ss
  verifyMacs H me
  let result ← viaAby (Aby3.openMany me (List.zipWith (fun s e => ⟨s.value.a, s.value.b + e⟩) ss es))
  pure (result.map (fromVerif K))

end Spdz

end Verif
