import Mathlib.Order.GameAdd
import Verif.Proof.Swift3Verify

/-! # Every run ends; parties that wait for one that has failed -/

namespace Verif

open Function

variable {σ α β : Type}

/-! ## Every run ends -/

/-- What is left of a program after one interaction. -/
inductive Prog.Child : Prog α → Prog α → Prop
  | send (d : Party) (m : Bytes) (k : Prog α) : Prog.Child k (.send d m k)
  | recv (s : Party) (k : Bytes → Prog α) (m : Bytes) : Prog.Child (k m) (.recv s k)

theorem Prog.child_wf : WellFounded (Prog.Child (α := α)) := by
  refine ⟨fun p => ?_⟩
  induction p with
  | ret a => exact ⟨_, fun y h => by cases h⟩
  | fail e => exact ⟨_, fun y h => by cases h⟩
  | send d m k ih => exact ⟨_, fun y h => by cases h; exact ih⟩
  | recv s k ih => exact ⟨_, fun y h => by cases h; exact ih _⟩

/-- From every state a state is reachable in which nobody can move. -/
theorem Config.exists_stuck (c : Config α) : ∃ n t, StepsN n c t ∧ t.Stuck := by
  have wf := InvImage.wf (fun c : Config α => (c.prog 0, c.prog 1, c.prog 2))
    (WellFounded.prod_gameAdd Prog.child_wf (WellFounded.prod_gameAdd Prog.child_wf Prog.child_wf))
  induction c using wf.induction with
  | _ c ih =>
    by_cases h : c.Stuck
    · exact ⟨0, c, .zero _, h⟩
    · unfold Config.Stuck at h
      push Not at h
      obtain ⟨c', hs⟩ := h
      have hlt : InvImage (Prod.GameAdd Prog.Child (Prod.GameAdd Prog.Child Prog.Child))
          (fun c : Config α => (c.prog 0, c.prog 1, c.prog 2)) c' c := by
        obtain ⟨i, hi⟩ := hs
        have key : Prog.Child (c'.prog i) (c.prog i) ∧ ∀ j, j ≠ i → c'.prog j = c.prog j := by
          cases hi with
          | send h => refine ⟨?_, fun j hj => update_of_ne hj _ _⟩; simp only [update_self, h]; exact .send _ _ _
          | recv h hc => refine ⟨?_, fun j hj => update_of_ne hj _ _⟩; simp only [update_self, h]; exact .recv _ _ _
        obtain ⟨hk, ho⟩ := key
        simp only [InvImage]
        fin_cases i
        · rw [ho 1 (by decide), ho 2 (by decide)]; exact .fst hk
        · rw [ho 0 (by decide), ho 2 (by decide)]; exact .snd (.fst hk)
        · rw [ho 0 (by decide), ho 1 (by decide)]; exact .snd (.snd hk)
      obtain ⟨n, t, hn, ht⟩ := ih c' hlt
      exact ⟨n + 1, t, .succ hs hn, ht⟩

/-! ## Waiting for a party that has failed -/

/-- The program cannot return without a (further) message from `j`. -/
inductive NeedsFrom (j : Party) : Prog α → Prop
  | fail (e : Err) : NeedsFrom j (.fail e)
  | send (d : Party) (m : Bytes) {k : Prog α} (h : NeedsFrom j k) : NeedsFrom j (.send d m k)
  | here (k : Bytes → Prog α) : NeedsFrom j (.recv j k)
  | recv (s : Party) {k : Bytes → Prog α} (h : ∀ m, NeedsFrom j (k m)) : NeedsFrom j (.recv s k)

theorem NeedsFrom.bind {j : Party} {p : Prog α} (h : NeedsFrom j p) (f : α → Prog β) : NeedsFrom j (p >>= f) := by
  induction h with
  | fail e => exact .fail e
  | send d m _ ih => exact .send d m ih
  | here k => exact .here _
  | recv s _ ih => exact .recv s ih

/-- A party that has failed, from which no message is in flight, and all the others need one. -/
def Stalled (j : Party) (e : Err) (c : Config α) : Prop :=
  c.prog j = .fail e ∧ (∀ d, c.chan j d = []) ∧ ∀ i, NeedsFrom j (c.prog i)

theorem Stalled.step {j : Party} {e : Err} {c c' : Config α} (h : Stalled j e c) (hs : Step1 c c') : Stalled j e c' := by
  obtain ⟨hj, hch, hn⟩ := h
  obtain ⟨i, hi⟩ := hs
  have hij : i ≠ j := by
    rintro rfl
    cases hi <;> simp_all
  cases hi with
  | @send d m k h =>
    refine ⟨by simp only [update_of_ne hij.symm]; exact hj, fun d' => ?_, fun i' => ?_⟩
    · simp only; rw [setChan_of_ne _ (by rintro ⟨h, -⟩; exact hij h.symm)]; exact hch d'
    · by_cases h' : i' = i
      · subst h'
        simp only [update_self]
        have := hn i'
        rw [h] at this
        cases this with
        | send _ _ h => exact h
      · simp only [update_of_ne h']; exact hn i'
  | @recv s m k rest h hc =>
    have hsj : s ≠ j := by rintro rfl; rw [hch] at hc; cases hc
    refine ⟨by simp only [update_of_ne hij.symm]; exact hj, fun d' => ?_, fun i' => ?_⟩
    · simp only; rw [setChan_of_ne _ (by rintro ⟨h, -⟩; exact hsj h.symm)]; exact hch d'
    · by_cases h' : i' = i
      · subst h'
        simp only [update_self]
        have := hn i'
        rw [h] at this
        cases this with
        | here => exact absurd rfl hsj
        | recv _ h => exact h m
      · simp only [update_of_ne h']; exact hn i'

theorem Stalled.steps {j : Party} {e : Err} {n : Nat} {c c' : Config α} (h : Stalled j e c) (hs : StepsN n c c') :
    Stalled j e c' := by
  induction hs with
  | zero => exact h
  | succ hs _ ih => exact ih (h.step hs)

theorem Stalled.endsIn {j : Party} {e : Err} {n : Nat} {p : Party → Prog α} {c : Config α}
    (hc : StepsN n (Config.init p) c) (h : Stalled j e c) :
    EndsIn p (fun c => c.prog j = .fail e ∧ ∀ i a, c.prog i ≠ .ret a) := by
  obtain ⟨m, t, hm, ht⟩ := c.exists_stuck
  have hst := h.steps hm
  refine EndsIn.of_run (hc.trans hm) ht ⟨hst.1, fun i a ha => ?_⟩
  have := hst.2.2 i
  rw [ha] at this
  cases this

/-- If the joint outcome of `p` is that `j` fails, and what comes then needs a message from `j`. -/
theorem WPE.stalls' {p : Party → Proto σ α} {st : Party → σ} {r : Party → Except Err (α × σ)} (h : WPE p st r)
    {k : Party → α → Proto σ β} {j : Party} {e : Err} (hj : r j = .error e)
    (hk : ∀ i a s, i ≠ j → r i = .ok (a, s) → NeedsFrom j (k i a s)) :
    EndsIn (fun i => (p i >>= k i) (st i)) (fun c => c.prog j = .fail e ∧ ∀ i a, c.prog i ≠ .ret a) := by
  obtain ⟨n, hn⟩ := h
  refine Stalled.endsIn (hn.toSteps.bind fun i (x : α × σ) => k i x.1 x.2) ⟨?_, fun d => rfl, fun i => ?_⟩
  · show (Prog.ofExcept (r j) >>= _) = _
    rw [hj]; rfl
  · show NeedsFrom j (Prog.ofExcept (r i) >>= _)
    by_cases hi : i = j
    · subst hi; rw [hj]; exact .fail e
    · cases hr : r i with
      | error e => exact .fail e
      | ok x => exact hk i _ _ hi hr

/-- What comes then does nothing. -/
theorem WPE.then_ret {p : Party → Proto σ Unit} {st : Party → σ} {r : Party → Except Err (Unit × σ)} (h : WPE p st r)
    {k : Party → Proto σ Unit} (hk : ∀ i s, r i = .ok ((), s) → k i s = .ret ((), s)) :
    WPE (fun i => p i >>= fun _ => k i) st r := by
  obtain ⟨n, hn⟩ := h
  refine ⟨n, ?_⟩
  have := hn.bind fun i (x : Unit × σ) => k i x.2
  rw [show (fun i => Prog.ofExcept (r i)) = fun i => Prog.ofExcept (r i) >>= fun x => k i x.2 from funext fun i => by
    cases hr : r i with
    | error e => rfl
    | ok x => exact (hk i x.2 hr).symm]
  exact this

/-- The same after something that succeeds. -/
theorem WPE.stalls_after {γ : Type} {p0 : Party → Proto σ γ} {p : Party → γ → Proto σ α} {st : Party → σ}
    {r : Party → Except Err (α × σ)} (h : WPS p0 st (fun c s => WPE (fun i => p i (c i)) s r))
    {k : Party → γ → α → Proto σ β} {j : Party} {e : Err} (hj : r j = .error e)
    (hk : ∀ i c a s, i ≠ j → NeedsFrom j (k i c a s)) :
    EndsIn (fun i => (p0 i >>= fun c => p i c >>= k i c) (st i))
      (fun c => c.prog j = .fail e ∧ ∀ i a, c.prog i ≠ .ret a) := by
  obtain ⟨x, ⟨n, hn⟩, m, hm⟩ := h
  have h1 := hn.bind fun i (x : γ × σ) => (p i x.1 >>= k i x.1) x.2
  have h2 := hm.bind fun i (y : α × σ) => k i (x i).1 y.1 y.2
  refine Stalled.endsIn (h1.trans h2).toSteps ⟨?_, fun d => rfl, fun i => ?_⟩
  · show (Prog.ofExcept (r j) >>= _) = _
    rw [hj]; rfl
  · show NeedsFrom j (Prog.ofExcept (r i) >>= _)
    by_cases hi : i = j
    · subst hi; rw [hj]; exact .fail e
    · cases hr : r i with
      | error e => exact .fail e
      | ok x => exact hk i _ _ _ hi

theorem WPE.unwrap {p : Party → Proto σ α} {st : Party → σ} {r : Party → Except Err (α × σ)} (h : WPE p st r) :
    WPE (fun i => Proto.unwrap (p i)) st (fun i => (r i).mapError fun _ => .panic) := by
  obtain ⟨n, hn⟩ := h
  refine ⟨n, ?_⟩
  have := hn.unwrap
  rw [show (fun i => Prog.ofExcept ((r i).mapError fun _ => Err.panic)) = fun i => (Prog.ofExcept (r i)).unwrap from
    funext fun i => by cases r i <;> rfl]
  exact this

theorem WPS.and {p : Party → Proto σ α} {st : Party → σ} {Q Q' : (Party → α) → (Party → σ) → Prop}
    (h : WPS p st Q) (h' : WPS p st Q') : WPS p st (fun a s => Q a s ∧ Q' a s) := by
  obtain ⟨r, hr, hq⟩ := h
  obtain ⟨r', hr', hq'⟩ := h'
  obtain rfl := hr.unique hr'
  exact ⟨r, hr, hq, hq'⟩

theorem WPE.congr {p q : Party → Proto σ α} {st : Party → σ} {r : Party → Except Err (α × σ)} (h : ∀ i, p i = q i)
    (hq : WPE q st r) : WPE p st r := by rw [funext h]; exact hq

theorem Step1.ret {c c' : Config α} (h : Step1 c c') {i : Party} {a : α} (ha : c.prog i = .ret a) : c'.prog i = .ret a := by
  obtain ⟨j, hj⟩ := h
  by_cases hij : i = j
  · subst hij
    cases hj <;> simp_all
  · cases hj <;> simp only [update_of_ne hij] <;> exact ha

theorem StepsN.ret {n : Nat} {c c' : Config α} (h : StepsN n c c') {i : Party} {a : α} (ha : c.prog i = .ret a) :
    c'.prog i = .ret a := by
  induction h with
  | zero => exact ha
  | succ hs _ ih => exact ih (hs.ret ha)

/-- What holds at the end of every result holds of a result as soon as it is there. -/
theorem EndsIn.result {p : Party → Prog α} {P : Party → α → Prop}
    (h : EndsIn p (fun c => ∀ i a, c.prog i = .ret a → P i a)) {n : Nat} {c : Config α} (hc : StepsN n (Config.init p) c)
    {i : Party} {a : α} (ha : c.prog i = .ret a) : P i a := by
  obtain ⟨m, t, hm, ht⟩ := c.exists_stuck
  exact h.2 _ t (hc.trans hm) ht i a (hm.ret ha)

theorem EndsIn.mono {p : Party → Prog α} {Q Q' : Config α → Prop} (h : EndsIn p Q) (hq : ∀ c, Q c → Q' c) : EndsIn p Q' :=
  ⟨h.1, fun n c hc hs => hq c (h.2 n c hc hs)⟩

end Verif
