import Verif.Proof.Net
import Mathlib.Order.GameAdd

/-! # C01: the outcome of a protocol run does not depend on the schedule -/

namespace Verif

variable {α : Type}

/-- `q` is what remains of `p` after its first network action. -/
inductive Prog.Sub : Prog α → Prog α → Prop
  | send (d m k) : Prog.Sub k (.send d m k)
  | recv (s k m) : Prog.Sub (k m) (.recv s k)

theorem Prog.sub_acc (p : Prog α) : Acc Prog.Sub p := by
  induction p with
  | ret a => exact ⟨_, fun _ h => by cases h⟩
  | fail e => exact ⟨_, fun _ h => by cases h⟩
  | send d m k ih => exact ⟨_, fun _ h => by cases h; exact ih⟩
  | recv s k ih => exact ⟨_, fun _ h => by cases h; exact ih _⟩

theorem Step.sub {i : Party} {c c' : Config α} (h : Step i c c') :
    Prog.Sub (c'.prog i) (c.prog i) ∧ ∀ j, j ≠ i → c'.prog j = c.prog j := by
  cases h with
  | send h =>
    refine ⟨?_, fun j hj => by simp [Function.update_of_ne hj]⟩
    simp [h, Prog.Sub.send]
  | recv h hc =>
    refine ⟨?_, fun j hj => by simp [Function.update_of_ne hj]⟩
    simp [h, Prog.Sub.recv]

theorem exists_stuck (c : Config α) : ∃ n t, StepsN n c t ∧ t.Stuck := by
  have key : ∀ x : Prog α × (Prog α × Prog α),
      Acc (Prod.GameAdd Prog.Sub (Prod.GameAdd Prog.Sub Prog.Sub)) x →
      ∀ c : Config α, (c.prog 0, (c.prog 1, c.prog 2)) = x → ∃ n t, StepsN n c t ∧ t.Stuck := by
    intro x hx
    induction hx with
    | intro x _ ih =>
      intro c hc
      by_cases hs : c.Stuck
      · exact ⟨0, c, .zero c, hs⟩
      · unfold Config.Stuck at hs
        push Not at hs
        obtain ⟨c', i, hi⟩ := hs
        obtain ⟨h1, h2⟩ := hi.sub
        have hlt : Prod.GameAdd Prog.Sub (Prod.GameAdd Prog.Sub Prog.Sub)
            (c'.prog 0, (c'.prog 1, c'.prog 2)) x := by
          subst hc
          match i, h1, h2 with
          | 0, h1, h2 =>
            rw [h2 1 (by decide), h2 2 (by decide)]; exact .fst h1
          | 1, h1, h2 =>
            rw [h2 0 (by decide), h2 2 (by decide)]; exact .snd (.fst h1)
          | 2, h1, h2 =>
            rw [h2 0 (by decide), h2 1 (by decide)]; exact .snd (.snd h1)
        obtain ⟨n, t, hn, ht⟩ := ih _ hlt c' rfl
        exact ⟨n + 1, t, .succ ⟨i, hi⟩ hn, ht⟩
  exact key _ (Acc.prod_gameAdd (Prog.sub_acc _) (Acc.prod_gameAdd (Prog.sub_acc _) (Prog.sub_acc _))) c rfl

/-- For all three party programs there is one final state — results, errors and channel contents — such
that every execution, under every schedule, is finite (with a common length bound) and, when nobody can
move any more, is in that state. -/
theorem C01_schedule_independent (p : Party → Prog α) :
    ∃ t, t.Stuck ∧ EndsIn p (fun c => c = t) := by
  obtain ⟨n, t, hn, ht⟩ := exists_stuck (Config.init p)
  exact ⟨t, ht, EndsIn.of_run hn ht rfl⟩

/-- In particular: if one schedule completes with results `r`, every schedule completes with `r`; no
schedule deadlocks, fails, or leaves a message behind. -/
theorem C01_one_run_suffices (p : Party → Prog α) (r : Party → α) (n : Nat)
    (h : StepsN n (Config.init p) ⟨fun i => .ret (r i), fun _ _ => []⟩) : AllSchedules p r :=
  EndsIn.of_run h (Config.stuck_final r) ⟨fun _ => rfl, fun _ _ => rfl⟩

/-- Two complete executions end in the same state after the same number of steps. -/
theorem C01_confluent (p : Party → Prog α) (n m : Nat) (s t : Config α)
    (hs : StepsN n (Config.init p) s) (ht : StepsN m (Config.init p) t) (h1 : s.Stuck) (h2 : t.Stuck) :
    s = t ∧ n = m := by
  obtain ⟨k, rfl, hk⟩ := hs.confluent h1 ht
  cases hk with
  | zero => exact ⟨rfl, by omega⟩
  | succ h _ => exact absurd h (h2 _)

/-- Non-vacuity: a three-party exchange in which every party ends with its left neighbour's byte. -/
example : AllSchedules (fun i : Party => sendAndReceive i [BitVec.ofNat 8 i.val])
    (fun i => [BitVec.ofNat 8 i.prev.val]) := by
  have h : WP (fun i : Party => sendAndReceive i [BitVec.ofNat 8 i.val])
      (fun r => r = fun i : Party => [BitVec.ofNat 8 i.prev.val]) :=
    WP.ring (k := fun _ => .ret) (WP.ret rfl)
  obtain ⟨_, hr, rfl⟩ := h.allSchedules
  exact hr

/-- And a program in which all parties wait for each other has, as it should, no complete run. -/
example : ∃ t, t.Stuck ∧ EndsIn (fun i : Party => recvPrev i) (fun c => c = t) ∧
    t.prog 0 = .recv 2 .ret := by
  have hs : (Config.init (fun i : Party => recvPrev i)).Stuck := by
    rintro c' ⟨i, h⟩
    cases h with
    | send h => cases h
    | recv h hc => cases hc
  exact ⟨_, hs, EndsIn.of_run (.zero _) hs rfl, rfl⟩

end Verif
