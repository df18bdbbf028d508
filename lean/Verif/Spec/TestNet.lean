import Verif.Model.TestNet

/-! # What a history of network calls says: who sent what to whom, who got what from whom -/

namespace Verif

/-- Receiver and payload of a sending call of party `p`. -/
def NetCall.dest (p : Party) : NetCall → Option (Nat × Bytes)
  | .send id m => some (id, m)
  | .sendNext m => some (((p.val + 1) % 3), m)
  | .sendPrev m => some (((p.val + 2) % 3), m)
  | _ => none

/-- The party a receiving call of party `p` wants to hear from. -/
def NetCall.source (p : Party) : NetCall → Option Nat
  | .receive id => some id
  | .receiveNext => some ((p.val + 1) % 3)
  | .receivePrev => some ((p.val + 2) % 3)
  | _ => none

/-- The payload, if this entry of a history is a message of `i` for `j`. -/
def sentTo (i j : Party) (e : Party × NetCall × NetRet) : Option Bytes :=
  match e.2.1.dest e.1 with
  | some (d, m) => if e.1 = i ∧ d = j.val then some m else none
  | none => none

/-- The message, if this entry of a history is a receive of `j` from `i`. -/
def gotFrom (j i : Party) (e : Party × NetCall × NetRet) : Option Bytes :=
  match e.2.1.source e.1, e.2.2 with
  | some s, .msg m => if e.1 = j ∧ s = i.val then some m else none
  | _, _ => none

/-- Total length of some messages. -/
def totalBytes (l : List Bytes) : Nat := (l.map List.length).sum

end Verif
