import Verif.Spec.Swift3Verify

/-!
# Specification: a party that computes its shares of AND gates wrongly

`andManyWith f` is the program `and_many` of an honest party, except that the party replaces the components it sends by
`f` of them; everything else, including what it registers for the later check, follows the protocol.
-/

namespace Verif.Swift3

variable {G : Prg} {K L : Nat}

/-- `aby_and_many`, `swift3/protocol.rs:922-969`, with `f` applied to the new components. -/
def abyAndManyWith (f : List (BitVec L) → List (BitVec L)) (me : Party) (a b : List (AShare L)) :
    Proto (S3St G K) (List (AShare L)) := do
  let cr ← abyAndLoop (a.zip b)
  let sharesA := f (cr.map (·.1))
  let rs := cr.map (·.2)
  let sharesB ← Proto.net (sendSliceAndReceiveVec me sharesA)
  let res := List.zipWith AShare.mk sharesA sharesB
  Proto.step fun s => (res, { s with andProof := registerAnds s.andProof (((a.zip b).zip res).zip rs) })

/-- `and_many`, `swift3/protocol.rs:2325-2346`, with `f` applied to the new components of the masks. -/
def andManyWith (f : List (BitVec L) → List (BitVec L)) (me : Party) (a b : List (S3Share L)) :
    Proto (S3St G K) (List (S3Share L)) :=
  if a.length ≠ b.length then Proto.throw .invalidSize
  else do
    let de ← abyAndManyWith f me (a.map S3Share.toAby) (b.map S3Share.toAby)
    andPostMany me a b de

/-- With the identity this is the honest program. -/
theorem andManyWith_id (me : Party) (a b : List (S3Share L)) :
    (andManyWith id me a b : Proto (S3St G K) _) = andMany me a b := rfl

end Verif.Swift3
