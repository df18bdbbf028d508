import Verif.Model.Swift3

/-!
# `input_all` of the Swift3 backend
-/

namespace Verif.Swift3

variable {G : Prg} {K : Nat}

/-- `input_all`, `swift3/protocol.rs:2029-2040`: one after the other every party is the dealer of its own input; the loop over
the array of the three options is unrolled. -/
def inputAll (me : Party) (inp : BitVec K) : Proto (S3St G K) (List (S3Share K)) := do
  let s0 ← input me (if me = 0 then some inp else none) 0
  let s1 ← input me (if me = 1 then some inp else none) 1
  let s2 ← input me (if me = 2 then some inp else none) 2
  pure [s0, s1, s2]

end Verif.Swift3
