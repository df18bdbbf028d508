import Verif.Model.Swift3Verify
import Verif.Spec.Traffic

/-!
# Sizes of the state of the Swift3 backend
-/

namespace Verif

/-- Two states of the Swift3 backend with equally many AND gates waiting for verification. -/
def Swift3.SameAnds {G : Prg} {K : Nat} (s t : S3St G K) : Prop :=
  s.andProof.proof.length = t.andProof.proof.length ∧ s.andProof.verifyPrev.length = t.andProof.verifyPrev.length ∧
    s.andProof.verifyNext.length = t.andProof.verifyNext.length

/-- Two states of the Swift3 backend with the same kinds of gates waiting for verification (in possibly different numbers). -/
def Swift3.SameKinds {G : Prg} {K : Nat} (s t : S3St G K) : Prop :=
  (s.mulProof.proof.length = 0 ↔ t.mulProof.proof.length = 0) ∧ (s.andProof.proof.length = 0 ↔ t.andProof.proof.length = 0) ∧
    (s.dotProof.proof.length = 0 ↔ t.dotProof.proof.length = 0)

/-- An action without the length of the message. -/
def WireEvent.blind : WireEvent → WireEvent
  | .sent dst _ => .sent dst 0
  | .took src => .took src

/-- What an observer who cannot measure lengths sees. -/
def Traffic.blind (t : Traffic) : Traffic := ⟨t.events.map WireEvent.blind, t.finished⟩

/-- The same messages between the same parties in the same order, possibly of different lengths. -/
def SamePattern {σ α β : Type} (S : σ → σ → Prop) (p : Proto σ α) (q : Proto σ β) : Prop :=
  ∀ s t, S s t → ∀ inbox inbox', ((p s).traffic inbox).blind.LooksLike ((q t).traffic inbox').blind

/-- The same on all wires, in any two executions in which all parties return `Ok`. -/
def SamePatternOnWire {α β : Type} (p : Party → Prog α) (q : Party → Prog β) : Prop :=
  ∀ es es' (c : Config α) (c' : Config β), Watched (Config.init p) es c → Watched (Config.init q) es' c' →
    (∀ i, ∃ a, c.prog i = .ret a) → (∀ i, ∃ b, c'.prog i = .ret b) →
    ∀ i, (actionsOf i es).map WireEvent.blind = (actionsOf i es').map WireEvent.blind

end Verif
