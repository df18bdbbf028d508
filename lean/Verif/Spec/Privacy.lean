import Verif.Spec.Sharing
import Verif.Model.Aby3
import Mathlib.Data.Set.Card

/-!
# Specification: what a party sees during a run

The view of a party consists of its inputs, its own random generators and the messages it receives. The first two are
parameters of its program; `Prog.record` writes down the messages.
-/

namespace Verif

/-- Received messages in order, with their senders. -/
abbrev Log := List (Party × Bytes)

/-- The program `p` that also writes every received message to the end of the log; it sends, receives and fails exactly
as `p` does. -/
def Prog.record {α : Type} : Prog α → Log → Prog (Log × α)
  | .ret a, l => .ret (l, a)
  | .fail e, _ => .fail e
  | .send d m k, l => .send d m (k.record l)
  | .recv s k, l => .recv s fun m => (k m).record (l ++ [(s, m)])

/-- When the parties run `p`, then under every schedule all of them succeed and the messages that party `i` receives are
exactly `v`. -/
def Sees {α : Type} (p : Party → Prog α) (i : Party) (v : Log) : Prop :=
  ∃ r : Party → Log × α, AllSchedules (fun j => (p j).record []) r ∧ (r i).1 = v

/-- The first `K` bits of a tape as a number, most significant bit first; bits after the end of the tape are 0. -/
def tapeVal : (K : Nat) → List Bool → BitVec K
  | 0, _ => 0
  | K + 1, t => BitVec.cons (t.headD false) (tapeVal K t.tail)

/-- The beginning of a tape cut into `n` elements of `K` bits. -/
def words (K : Nat) : Nat → List Bool → List (BitVec K)
  | 0, _ => []
  | n + 1, t => tapeVal K t :: words K n (t.drop K)

/-- The ideal random generator: its state is the tape of its future random bits, and drawing an element of a type with
`K` bits takes `K` bits from the tape. With a uniformly random tape its outputs are uniform and independent. -/
def bitPrg : Prg where
  S := List Bool
  ofSeed _ := []
  gen K t := (tapeVal K t, t.drop K)
  genSeed t := (List.replicate 32 (tapeVal 8 t), t.drop 8)
  genRange n t := ((tapeVal 64 t).toNat % n, t.drop 64)
  genRange_lt _ _ h := Nat.mod_lt _ h
  genSeed_length _ := by simp

/-- Of the three generators, each shared by two parties, party `i` knows two. The third one is shared by the other two
parties: it is `next` of the predecessor of `i` and `my` of the successor. `withTape i t st` are the states `st` with the
tape `t` in this generator. -/
def withTape (i : Party) (t : List Bool) (st : Party → Aby3St bitPrg) (j : Party) : Aby3St bitPrg :=
  if j = i.prev then ⟨⟨(st j).prf.my, t⟩⟩
  else if j = i.next then ⟨⟨t, (st j).prf.next⟩⟩
  else st j

/-- The number of tapes of `n` bits, for the generator unknown to party `i`, with which party `i` sees exactly the
messages `v` in a run of `p` that starts in the states `st`. Divided by `2 ^ n` this is the probability of the view `v`. -/
noncomputable def viewCount {α : Type} (p : Party → Proto (Aby3St bitPrg) α) (st : Party → Aby3St bitPrg) (i : Party)
    (n : Nat) (v : Log) : Nat :=
  Set.ncard {t : List Bool | t.length = n ∧ Sees (fun j => p j (withTape i t st j)) i v}

end Verif
