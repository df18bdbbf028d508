import Verif.Model.Proto

/-!
# Specification vocabulary: joint outcomes of the three parties
-/

namespace Verif

/-- Started in the states `st`, under every schedule all three parties finish their protocol code `p`
with `Ok`, no message is left over, and results and final states satisfy `Q`. This holds with unlimited channels and with
channels of any capacities from 2 messages on, so there is no deadlock by full channels either. -/
def EverySchedule {σ α : Type} (p : Party → Proto σ α) (st : Party → σ)
    (Q : (Party → α) → (Party → σ) → Prop) : Prop :=
  ∃ (a : Party → α) (st' : Party → σ),
    (AllSchedules (fun i => p i (st i)) (fun i => (a i, st' i)) ∧
      ∀ cap : Party → Party → Nat, (∀ s d, 2 ≤ cap s d) →
        AllSchedulesWithin cap (fun i => p i (st i)) (fun i => (a i, st' i))) ∧ Q a st'

/-- The three parties hold lists of the same length whose entries, position by position, are related to
`xs` by `R`. -/
def Rels {X B : Type} (R : X → (Party → B) → Prop) (xs : List X) (ls : Party → List B) : Prop :=
  ∃ js : List (Party → B), List.Forall₂ R xs js ∧ ls = fun i => js.map (fun s => s i)

/-- The code of this party returns the error `e` without sending or receiving anything first. -/
def FailsAtOnce {σ α : Type} (p : Proto σ α) (e : Err) : Prop := ∀ s, p s = .fail e

/-- Under every schedule all three parties end their protocol code with the error `e`. -/
def EveryScheduleFails {σ α : Type} (p : Party → Proto σ α) (st : Party → σ) (e : Err) : Prop :=
  EndsIn (fun i => p i (st i)) (fun c => ∀ i, c.prog i = .fail e)

/-- Run alone, without a network, the code returns `a`. -/
def Returns {σ α : Type} (p : Proto σ α) (s : σ) (a : α) : Prop := ∃ s', p s = .ret (a, s')

end Verif
