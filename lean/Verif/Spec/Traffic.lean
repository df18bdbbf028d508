import Verif.Model.Spdz

/-!
# What somebody who only watches the wire sees

An observer of encrypted connections sees who sends to whom, how long the messages are and in which order, but not their
contents. This file defines that view, independently of the protocols.
-/

namespace Verif

/-- One observable action of a party: it sent `bytes` bytes to `dst`, or it took the next message of `src`. (The length of a
message that is received is the length with which `src` sent it.) -/
inductive WireEvent
  | sent (dst : Party) (bytes : Nat)
  | took (src : Party)
  deriving DecidableEq, Repr

/-- The actions of one party, and whether its function returned `Ok` in the end. -/
structure Traffic where
  events : List WireEvent
  finished : Bool
  deriving DecidableEq

/-- The traffic of the code `p` when the messages it receives are `inbox 0`, `inbox 1`, … -/
def Prog.traffic {α : Type} : Prog α → (Nat → Bytes) → Traffic
  | .ret _, _ => ⟨[], true⟩
  | .fail _, _ => ⟨[], false⟩
  | .send d m k, inbox => ⟨.sent d m.length :: (k.traffic inbox).events, (k.traffic inbox).finished⟩
  | .recv s k, inbox =>
      let t := (k (inbox 0)).traffic fun n => inbox (n + 1)
      ⟨.took s :: t.events, t.finished⟩

/-- Two runs that look the same on the wire: the actions of one are the first actions of the other, and nothing but a run
that was given up is shorter. In particular two runs that return `Ok` perform exactly the same actions. -/
def Traffic.LooksLike (t u : Traffic) : Prop :=
  (t.events <+: u.events ∨ u.events <+: t.events) ∧
  (t.finished = true → u.events <+: t.events) ∧ (u.finished = true → t.events <+: u.events)

/-- The traffic of `p` and `q` is the same for all local states related by `S`, whatever messages the two receive (the messages
may even be made up by somebody else). -/
def SameTraffic {σ α β : Type} (S : σ → σ → Prop) (p : Proto σ α) (q : Proto σ β) : Prop :=
  ∀ s t, S s t → ∀ inbox inbox', ((p s).traffic inbox).LooksLike ((q t).traffic inbox')

/-- Executions of the three parties together with what the observer of all the wires sees: which party acts, and its
action. -/
inductive Watched {α : Type} : Config α → List (Party × WireEvent) → Config α → Prop
  | nil (c : Config α) : Watched c [] c
  | send {c c' : Config α} {es : List (Party × WireEvent)} {i d : Party} {m : Bytes} {k : Prog α} (h : c.prog i = .send d m k)
      (t : Watched ⟨Function.update c.prog i k, setChan c.chan i d (c.chan i d ++ [m])⟩ es c') :
      Watched c ((i, .sent d m.length) :: es) c'
  | recv {c c' : Config α} {es : List (Party × WireEvent)} {i s : Party} {m : Bytes} {k : Bytes → Prog α} {rest : List Bytes}
      (h : c.prog i = .recv s k) (hc : c.chan s i = m :: rest)
      (t : Watched ⟨Function.update c.prog i (k m), setChan c.chan s i rest⟩ es c') :
      Watched c ((i, .took s) :: es) c'

/-- The actions of party `i` among the observed ones. -/
def actionsOf (i : Party) (es : List (Party × WireEvent)) : List WireEvent := (es.filter fun e => e.1 = i).map fun e => e.2

/-- "Whoever watches the wires learns nothing about which of the two groups of parties was at work": in any two executions,
under any two schedules, in which all parties have returned `Ok`, every party performs the same sends and receives, with the
same lengths, in the same order. -/
def SameOnWire {α β : Type} (p : Party → Prog α) (q : Party → Prog β) : Prop :=
  ∀ es es' (c : Config α) (c' : Config β), Watched (Config.init p) es c → Watched (Config.init q) es' c' →
    (∀ i, ∃ a, c.prog i = .ret a) → (∀ i, ∃ b, c'.prog i = .ret b) → ∀ i, actionsOf i es = actionsOf i es'

/-- Two triple buffers of the same size. -/
def Triples.SameSize (t u : Triples) : Prop :=
  t.a.length = u.a.length ∧ t.b.length = u.b.length ∧ t.c.length = u.c.length ∧ t.bitsInLast = u.bitsInLast

/-- Two states of the SPDZ-wise backend with equally many values waiting for verification and equally many triples. -/
def Spdz.SameSizes {G : Prg} {V : Nat} (s t : SpdzSt G V) : Prop :=
  s.verifyQueue.length = t.verifyQueue.length ∧ s.prec.SameSize t.prec ∧ s.buffer.SameSize t.buffer

end Verif
