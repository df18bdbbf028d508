import Verif.Model.Net

/-! # Determinism of the network semantics and a joint program logic -/

namespace Verif

open Function

variable {α β : Type}

theorem StepsN.trans {n m : Nat} {a b c : Config α} (h1 : StepsN n a b) (h2 : StepsN m b c) :
    StepsN (n + m) a c := by
  induction h1 with
  | zero c => simpa using h2
  | succ h t ih => rw [Nat.succ_add]; exact .succ h (ih h2)

theorem StepsN.one {a b : Config α} (h : Step1 a b) : StepsN 1 a b := .succ h (.zero _)

/-- A step of one party is a function of the state. -/
theorem Step.det {i : Party} {c a b : Config α} (h1 : Step i c a) (h2 : Step i c b) : a = b := by
  cases h1 with
  | send h =>
    cases h2 with
    | send h' =>
      rw [h] at h'; cases h'; rfl
    | recv h' _ => rw [h] at h'; cases h'
  | recv h hc =>
    cases h2 with
    | send h' => rw [h] at h'; cases h'
    | recv h' hc' =>
      rw [h] at h'; cases h'
      rw [hc] at hc'; cases hc'; rfl

theorem setChan_comm (ch : Party → Party → List Bytes) {s d s' d' : Party} (h : ¬ (s = s' ∧ d = d'))
    (v v' : List Bytes) :
    setChan (setChan ch s d v) s' d' v' = setChan (setChan ch s' d' v') s d v := by
  funext x y
  simp only [setChan]
  split_ifs with h1 h2 <;> first | rfl | (exfalso; apply h; exact ⟨by rw [← h2.1, ← h1.1], by rw [← h2.2, ← h1.2]⟩)

theorem setChan_of_ne (ch : Party → Party → List Bytes) {s d s' d' : Party} (h : ¬ (s' = s ∧ d' = d))
    (v : List Bytes) : setChan ch s d v s' d' = ch s' d' := by
  simp [setChan, h]

@[simp] theorem setChan_same (ch : Party → Party → List Bytes) (s d : Party) (v : List Bytes) :
    setChan ch s d v s d = v := by simp [setChan]

@[simp] theorem setChan_setChan (ch : Party → Party → List Bytes) (s d : Party) (v v' : List Bytes) :
    setChan (setChan ch s d v) s d v' = setChan ch s d v' := by
  funext x y; simp only [setChan]; split_ifs <;> rfl

/-- Steps of different parties commute. -/
theorem Step.diamond {i j : Party} (hij : i ≠ j) {c a b : Config α} (h1 : Step i c a)
    (h2 : Step j c b) : ∃ d, Step j a d ∧ Step i b d := by
  cases h1 with
  | @send d m k h =>
    cases h2 with
    | @send d' m' k' h' =>
      refine ⟨_, Step.send (i := j) (d := d') (m := m') (k := k') ?_, ?_⟩
      · simpa [update_of_ne hij.symm] using h'
      · have := Step.send (i := i) (d := d) (m := m) (k := k)
          (c := ⟨update c.prog j k', setChan c.chan j d' (c.chan j d' ++ [m'])⟩)
          (by simpa [update_of_ne hij] using h)
        convert this using 2
        · exact update_comm hij _ _ _
        · dsimp only
          rw [setChan_of_ne _ (by rintro ⟨h, -⟩; exact hij h.symm),
            setChan_of_ne _ (by rintro ⟨h, -⟩; exact hij h)]
          exact setChan_comm _ (by rintro ⟨h, -⟩; exact hij h) _ _
    | @recv s m' k' rest h' hc' =>
      by_cases hs : s = i ∧ d = j
      · obtain ⟨rfl, rfl⟩ := hs
        refine ⟨_, Step.recv (i := d) (s := s) (m := m') (k := k') (rest := rest ++ [m]) ?_ ?_, ?_⟩
        · simpa [update_of_ne hij.symm] using h'
        · simp [hc']
        · have := Step.send (i := s) (d := d) (m := m) (k := k)
            (c := ⟨update c.prog d (k' m'), setChan c.chan s d rest⟩)
            (by simpa [update_of_ne hij] using h)
          convert this using 2
          · exact update_comm hij _ _ _
          · simp
      · refine ⟨_, Step.recv (i := j) (s := s) (m := m') (k := k') (rest := rest) ?_ ?_, ?_⟩
        · simpa [update_of_ne hij.symm] using h'
        · simp only
          rw [setChan_of_ne _ (by rintro ⟨h, h'⟩; exact hs ⟨h, h'.symm⟩)]; exact hc'
        · have := Step.send (i := i) (d := d) (m := m) (k := k)
            (c := ⟨update c.prog j (k' m'), setChan c.chan s j rest⟩)
            (by simpa [update_of_ne hij] using h)
          convert this using 2
          · exact update_comm hij _ _ _
          · dsimp only
            rw [setChan_of_ne _ (by rintro ⟨h, h'⟩; exact hs ⟨h.symm, h'⟩)]
            exact setChan_comm _ (by rintro ⟨h, h'⟩; exact hs ⟨h.symm, h'⟩) _ _
  | @recv s m k rest h hc =>
    cases h2 with
    | @send d' m' k' h' =>
      by_cases hs : s = j ∧ d' = i
      · obtain ⟨rfl, rfl⟩ := hs
        refine ⟨_, Step.send (i := s) (d := d') (m := m') (k := k') ?_, ?_⟩
        · simpa [update_of_ne hij.symm] using h'
        · have := Step.recv (i := d') (s := s) (m := m) (k := k) (rest := rest ++ [m'])
            (c := ⟨update c.prog s k', setChan c.chan s d' (c.chan s d' ++ [m'])⟩)
            (by simpa [update_of_ne hij] using h) (by simp [hc])
          convert this using 2
          · exact update_comm hij _ _ _
          · simp
      · refine ⟨_, Step.send (i := j) (d := d') (m := m') (k := k') ?_, ?_⟩
        · simpa [update_of_ne hij.symm] using h'
        · have := Step.recv (i := i) (s := s) (m := m) (k := k) (rest := rest)
            (c := ⟨update c.prog j k', setChan c.chan j d' (c.chan j d' ++ [m'])⟩)
            (by simpa [update_of_ne hij] using h)
            (by simp only; rw [setChan_of_ne _ (by rintro ⟨h, h'⟩; exact hs ⟨h, h'.symm⟩)]; exact hc)
          convert this using 2
          · exact update_comm hij _ _ _
          · dsimp only
            rw [setChan_of_ne _ (by rintro ⟨h, h'⟩; exact hs ⟨h.symm, h'⟩)]
            exact setChan_comm _ (by rintro ⟨h, h'⟩; exact hs ⟨h, h'.symm⟩) _ _
    | @recv s' m' k' rest' h' hc' =>
      refine ⟨_, Step.recv (i := j) (s := s') (m := m') (k := k') (rest := rest') ?_ ?_, ?_⟩
      · simpa [update_of_ne hij.symm] using h'
      · simp only
        rw [setChan_of_ne _ (by rintro ⟨-, h⟩; exact hij h.symm)]; exact hc'
      · have := Step.recv (i := i) (s := s) (m := m) (k := k) (rest := rest)
          (c := ⟨update c.prog j (k' m'), setChan c.chan s' j rest'⟩)
          (by simpa [update_of_ne hij] using h)
          (by simp only; rw [setChan_of_ne _ (by rintro ⟨-, h⟩; exact hij h)]; exact hc)
        convert this using 2
        · exact update_comm hij _ _ _
        · exact setChan_comm _ (by rintro ⟨-, h⟩; exact hij h) _ _

/-- If a stuck state is reachable in `n` steps then any single step keeps it reachable, in `n - 1`. -/
theorem StepsN.peel {n : Nat} {c t c' : Config α} (h : StepsN n c t) (ht : t.Stuck)
    (hs : Step1 c c') : ∃ m, n = m + 1 ∧ StepsN m c' t := by
  induction h generalizing c' with
  | zero c => exact absurd hs (ht _)
  | @succ n c a t hca hat ih =>
    obtain ⟨i, hi⟩ := hca
    obtain ⟨j, hj⟩ := hs
    by_cases hij : i = j
    · subst hij
      cases hi.det hj
      exact ⟨n, rfl, hat⟩
    · obtain ⟨d, hd1, hd2⟩ := hi.diamond hij hj
      obtain ⟨m, rfl, hm⟩ := ih ht ⟨j, hd1⟩
      exact ⟨m + 1, rfl, .succ ⟨i, hd2⟩ hm⟩

/-- Every execution is a prefix (up to reordering) of the complete one. -/
theorem StepsN.confluent {n k : Nat} {c t c' : Config α} (h : StepsN n c t) (ht : t.Stuck)
    (hk : StepsN k c c') : ∃ m, n = k + m ∧ StepsN m c' t := by
  induction hk generalizing n with
  | zero c => exact ⟨n, by omega, h⟩
  | succ hs _ ih =>
    obtain ⟨m, rfl, hm⟩ := h.peel ht hs
    obtain ⟨m', rfl, hm'⟩ := ih hm
    exact ⟨m', by omega, hm'⟩

/-- One complete run determines all runs. -/
theorem EndsIn.of_run {p : Party → Prog α} {Q : Config α → Prop} {n : Nat} {t : Config α}
    (h : StepsN n (Config.init p) t) (ht : t.Stuck) (hQ : Q t) : EndsIn p Q := by
  refine ⟨⟨n, fun k c hk => ?_⟩, fun k c hk hc => ?_⟩
  · obtain ⟨m, rfl, -⟩ := h.confluent ht hk; omega
  · obtain ⟨m, -, hm⟩ := h.confluent ht hk
    cases hm with
    | zero => exact hQ
    | succ hs _ => exact absurd hs (hc _)

/-- The successful final state with results `r`. -/
def Config.final (r : Party → α) : Config α := Config.init (fun i => .ret (r i))

theorem Config.stuck_of_done {c : Config α}
    (h : ∀ i, (∃ a, c.prog i = .ret a) ∨ ∃ e, c.prog i = .fail e) : c.Stuck := by
  rintro c' ⟨i, hi⟩
  rcases h i with ⟨a, ha⟩ | ⟨e, he⟩ <;> cases hi <;> simp_all

theorem Config.stuck_final (r : Party → α) : (Config.final r).Stuck :=
  Config.stuck_of_done fun i => .inl ⟨r i, rfl⟩

/-! ## Limited channels -/

theorem BStep.toStep {cap : Party → Party → Nat} {i : Party} {c c' : Config α} (h : BStep cap i c c') : Step i c c' := by
  cases h with
  | send h _ => exact .send h
  | recv h hc => exact .recv h hc

theorem BStepsN.toSteps {cap : Party → Party → Nat} {n : Nat} {c c' : Config α} (h : BStepsN cap n c c') : StepsN n c c' := by
  induction h with
  | zero c => exact .zero c
  | succ i h _ ih => exact .succ ⟨i, h.toStep⟩ ih

theorem BStep.mono {cap cap' : Party → Party → Nat} (hc : ∀ s d, cap s d ≤ cap' s d) {i : Party} {c c' : Config α}
    (h : BStep cap i c c') : BStep cap' i c c' := by
  cases h with
  | send h hr => exact .send h (lt_of_lt_of_le hr (hc _ _))
  | recv h hc => exact .recv h hc

theorem BStepsN.mono {cap cap' : Party → Party → Nat} (hc : ∀ s d, cap s d ≤ cap' s d) {n : Nat} {c c' : Config α}
    (h : BStepsN cap n c c') : BStepsN cap' n c c' := by
  induction h with
  | zero c => exact .zero c
  | succ i h _ ih => exact .succ i (h.mono hc) ih

theorem BStepsN.trans {cap : Party → Party → Nat} {n m : Nat} {a b c : Config α} (h : BStepsN cap n a b)
    (h' : BStepsN cap m b c) : BStepsN cap (n + m) a c := by
  induction h with
  | zero => simpa using h'
  | @succ n _ _ _ i hs _ ih =>
    rw [show n + 1 + m = (n + m) + 1 by omega]
    exact .succ i hs (ih h')

/-- Steps of different parties commute, also when channels are limited. -/
theorem BStep.diamond {cap : Party → Party → Nat} {i j : Party} (hij : i ≠ j) {c a b : Config α} (hi : BStep cap i c a)
    (hj : BStep cap j c b) : ∃ d, BStep cap j a d ∧ BStep cap i b d := by
  -- a party that can move still can after the step of another one
  have keep : ∀ {i j : Party} {c a b : Config α}, i ≠ j → BStep cap i c a → BStep cap j c b → ∀ d, Step i b d → BStep cap i b d := by
    intro i j c a b hij hi hj d hd
    have hp : b.prog i = c.prog i := by cases hj <;> simp [update_of_ne hij]
    have hch : ∀ e, (b.chan i e).length ≤ (c.chan i e).length := by
      intro e
      cases hj with
      | @send d m k h hr =>
        show (setChan c.chan j d _ i e).length ≤ _
        rw [setChan_of_ne _ (by rintro ⟨h, -⟩; exact hij h)]
      | @recv s m k rest h hc =>
        by_cases he : i = s ∧ e = j
        · obtain ⟨rfl, rfl⟩ := he
          simp [hc]
        · show (setChan c.chan s j _ i e).length ≤ _
          rw [setChan_of_ne _ he]
    cases hd with
    | @send e m k h =>
      refine .send h ?_
      rw [hp] at h
      cases hi with
      | @send e' m' k' h' hr =>
        rw [h, Prog.send.injEq] at h'
        obtain ⟨rfl, -, -⟩ := h'
        exact lt_of_le_of_lt (hch _) hr
      | recv h' _ => rw [h] at h'; cases h'
    | recv h hc => exact .recv h hc
  obtain ⟨d, h1, h2⟩ := hi.toStep.diamond hij hj.toStep
  exact ⟨d, keep (Ne.symm hij) hj hi d h1, keep hij hi hj d h2⟩

theorem BStepsN.peel {cap : Party → Party → Nat} {n : Nat} {c t c' : Config α} (h : BStepsN cap n c t) (ht : ∀ i c', ¬ BStep cap i t c')
    {j : Party} (hs : BStep cap j c c') : ∃ m, n = m + 1 ∧ BStepsN cap m c' t := by
  induction h generalizing c' with
  | zero c => exact absurd hs (ht _ _)
  | @succ n c a t i hi hat ih =>
    by_cases hij : i = j
    · subst hij
      cases hi.toStep.det hs.toStep
      exact ⟨n, rfl, hat⟩
    · obtain ⟨d, hd1, hd2⟩ := hi.diamond hij hs
      obtain ⟨m, rfl, hm⟩ := ih ht hd1
      exact ⟨m + 1, rfl, .succ i hd2 hm⟩

theorem BStepsN.confluent {cap : Party → Party → Nat} {n k : Nat} {c t c' : Config α} (h : BStepsN cap n c t) (ht : ∀ i c', ¬ BStep cap i t c')
    (hk : BStepsN cap k c c') : ∃ m, n = k + m ∧ BStepsN cap m c' t := by
  induction hk generalizing n with
  | zero c => exact ⟨n, by omega, h⟩
  | succ i hs _ ih =>
    obtain ⟨m, rfl, hm⟩ := h.peel ht hs
    obtain ⟨m', rfl, hm'⟩ := ih hm
    exact ⟨m', by omega, hm'⟩

/-- One complete run with limited channels determines all of them. -/
theorem BStepsN.allSchedulesWithin {cap : Party → Party → Nat} {p : Party → Prog α} {r : Party → α} {n : Nat}
    (h : BStepsN cap n (Config.init p) (Config.final r)) : AllSchedulesWithin cap p r := by
  refine ⟨⟨n, fun k c hk => ?_⟩, fun k c hk hc => ?_⟩
  · obtain ⟨m, rfl, -⟩ := h.confluent (fun i c' hb => Config.stuck_final r c' ⟨i, hb.toStep⟩) hk; omega
  · obtain ⟨m, -, hm⟩ := h.confluent (fun i c' hb => Config.stuck_final r c' ⟨i, hb.toStep⟩) hk
    cases hm with
    | zero => exact ⟨fun _ => rfl, fun _ _ => rfl⟩
    | succ i hs _ => exact absurd hs (hc _ _)

/-- Channels with room for two messages. -/
def two : Party → Party → Nat := fun _ _ => 2

/-- Some schedule completes with results `r` and empty channels, and there are never more than two messages in a channel. -/
def Runs (p : Party → Prog α) (r : Party → α) : Prop :=
  ∃ n, BStepsN two n (Config.init p) (Config.final r)

theorem Runs.steps {p : Party → Prog α} {r : Party → α} (h : Runs p r) : ∃ n, StepsN n (Config.init p) (Config.final r) := by
  obtain ⟨n, h⟩ := h
  exact ⟨n, h.toSteps⟩

theorem Runs.allSchedules {p : Party → Prog α} {r : Party → α} (h : Runs p r) : AllSchedules p r := by
  obtain ⟨n, h⟩ := h.steps
  exact EndsIn.of_run h (Config.stuck_final r) ⟨fun _ => rfl, fun _ _ => rfl⟩

theorem Runs.within {p : Party → Prog α} {r : Party → α} (h : Runs p r) {cap : Party → Party → Nat}
    (hc : ∀ s d, 2 ≤ cap s d) : AllSchedulesWithin cap p r := by
  obtain ⟨n, h⟩ := h
  exact (h.mono hc).allSchedulesWithin

/-- Results are unique. -/
theorem Runs.unique {p : Party → Prog α} {r r' : Party → α} (h : Runs p r) (h' : Runs p r') :
    r = r' := by
  obtain ⟨n, h⟩ := h.steps
  obtain ⟨m, h'⟩ := h'.steps
  obtain ⟨k, -, hk⟩ := h.confluent (Config.stuck_final r) h'
  have key : ∀ {k : Nat} {a b : Config α}, StepsN k a b → a.Stuck → a = b := by
    intro k a b hk ha
    cases hk with
    | zero => rfl
    | succ hs _ => exact absurd hs (ha _)
  have heq := key hk (Config.stuck_final r')
  funext i
  have := congrArg (fun c => c.prog i) heq
  simpa [Config.final, Config.init] using this.symm

/-! ## Joint weakest preconditions -/

/-- Joint (three-party) success specification: some (hence every) schedule completes, with results
satisfying `Q`. -/
def WP (p : Party → Prog α) (Q : (Party → α) → Prop) : Prop := ∃ r, Runs p r ∧ Q r

theorem WP.mono {p : Party → Prog α} {Q Q' : (Party → α) → Prop} (h : WP p Q)
    (hQ : ∀ r, Q r → Q' r) : WP p Q' := by
  obtain ⟨r, hr, hq⟩ := h; exact ⟨r, hr, hQ r hq⟩

theorem WP.ret {a : Party → α} {Q : (Party → α) → Prop} (h : Q a) : WP (fun i => .ret (a i)) Q :=
  ⟨a, ⟨0, .zero _⟩, h⟩

/-- Lift a step through `bind`. -/
theorem Step.bind {i : Party} {c c' : Config α} (h : Step i c c') (k : Party → α → Prog β) :
    Step i (⟨fun j => c.prog j >>= k j, c.chan⟩ : Config β)
      ⟨fun j => c'.prog j >>= k j, c'.chan⟩ := by
  cases h with
  | @send d m p h =>
    have := Step.send (i := i) (d := d) (m := m) (k := p >>= k i)
      (c := (⟨fun j => c.prog j >>= k j, c.chan⟩ : Config β)) (by simp [h])
    convert this using 2
    funext j
    by_cases hj : j = i
    · subst hj; simp
    · simp [update_of_ne hj]
  | @recv s m p rest h hc =>
    have := Step.recv (i := i) (s := s) (m := m) (k := fun m => p m >>= k i) (rest := rest)
      (c := (⟨fun j => c.prog j >>= k j, c.chan⟩ : Config β)) (by simp [h]) hc
    convert this using 2
    funext j
    by_cases hj : j = i
    · subst hj; simp
    · simp [update_of_ne hj]

theorem StepsN.bind {n : Nat} {c c' : Config α} (h : StepsN n c c') (k : Party → α → Prog β) :
    StepsN n (⟨fun j => c.prog j >>= k j, c.chan⟩ : Config β)
      ⟨fun j => c'.prog j >>= k j, c'.chan⟩ := by
  induction h with
  | zero c => exact .zero _
  | succ hs _ ih =>
    obtain ⟨i, hi⟩ := hs
    exact .succ ⟨i, hi.bind k⟩ ih

theorem BStep.bind {cap : Party → Party → Nat} {i : Party} {c c' : Config α} (h : BStep cap i c c') (k : Party → α → Prog β) :
    BStep cap i (⟨fun j => c.prog j >>= k j, c.chan⟩ : Config β)
      ⟨fun j => c'.prog j >>= k j, c'.chan⟩ := by
  have hs := h.toStep.bind k
  cases h with
  | @send d m p h hr =>
    have e := Step.send (i := i) (d := d) (m := m) (k := p >>= k i)
      (c := (⟨fun j => c.prog j >>= k j, c.chan⟩ : Config β)) (by simp [h])
    rw [hs.det e]
    exact .send (by simp [h]) hr
  | @recv s m p rest h hc =>
    have e := Step.recv (i := i) (s := s) (m := m) (k := fun m => p m >>= k i) (rest := rest)
      (c := (⟨fun j => c.prog j >>= k j, c.chan⟩ : Config β)) (by simp [h]) hc
    rw [hs.det e]
    exact .recv (k := fun m => p m >>= k i) (by simp [h]) hc

theorem BStepsN.bind {cap : Party → Party → Nat} {n : Nat} {c c' : Config α} (h : BStepsN cap n c c') (k : Party → α → Prog β) :
    BStepsN cap n (⟨fun j => c.prog j >>= k j, c.chan⟩ : Config β)
      ⟨fun j => c'.prog j >>= k j, c'.chan⟩ := by
  induction h with
  | zero c => exact .zero _
  | succ i hi _ ih => exact .succ i (hi.bind k) ih

theorem Runs.bind {p : Party → Prog α} {r : Party → α} {k : Party → α → Prog β} {s : Party → β}
    (h : Runs p r) (hk : Runs (fun i => k i (r i)) s) : Runs (fun i => p i >>= k i) s := by
  obtain ⟨n, h⟩ := h
  obtain ⟨m, hk⟩ := hk
  have h' := h.bind k
  exact ⟨n + m, h'.trans hk⟩

theorem WP.bind {p : Party → Prog α} {k : Party → α → Prog β} {Q : (Party → β) → Prop}
    (h : WP p (fun r => WP (fun i => k i (r i)) Q)) : WP (fun i => p i >>= k i) Q := by
  obtain ⟨r, hr, s, hs, hq⟩ := h
  exact ⟨s, hr.bind hs, hq⟩

theorem WP.allSchedules {p : Party → Prog α} {Q : (Party → α) → Prop} (h : WP p Q) :
    ∃ r, AllSchedules p r ∧ Q r := by
  obtain ⟨r, hr, hq⟩ := h; exact ⟨r, hr.allSchedules, hq⟩

theorem WP.anyCapacity {p : Party → Prog α} {Q : (Party → α) → Prop} (h : WP p Q) :
    ∃ r, (AllSchedules p r ∧ ∀ cap : Party → Party → Nat, (∀ s d, 2 ≤ cap s d) → AllSchedulesWithin cap p r) ∧ Q r := by
  obtain ⟨r, hr, hq⟩ := h; exact ⟨r, ⟨hr.allSchedules, fun _ hc => hr.within hc⟩, hq⟩

/-- Take one explicit step at the front of a run. -/
theorem StepsN.cons {n : Nat} {c c' t : Config α} (i : Party) (h : Step i c c')
    (ht : StepsN n c' t) : StepsN (n + 1) c t := .succ ⟨i, h⟩ ht

/-- Everyone sends to the next party, then receives from the previous one. -/
theorem WP.ring {m : Party → Bytes} {k : Party → Bytes → Prog α} {Q : (Party → α) → Prop}
    (h : WP (fun i => k i (m i.prev)) Q) :
    WP (fun i => .send i.next (m i) (.recv i.prev (k i))) Q := by
  obtain ⟨r, ⟨n, hn⟩, hq⟩ := h
  refine ⟨r, ⟨n + 1 + 1 + 1 + 1 + 1 + 1, ?_⟩, hq⟩
  refine .succ 0 (.send (d := 1) (m := m 0) (k := .recv 2 (k 0)) rfl Nat.two_pos)
    (.succ 1 (.send (d := 2) (m := m 1) (k := .recv 0 (k 1)) rfl Nat.two_pos)
    (.succ 2 (.send (d := 0) (m := m 2) (k := .recv 1 (k 2)) rfl Nat.two_pos)
    (.succ 0 (.recv (s := 2) (k := k 0) (m := m 2) (rest := []) rfl rfl)
    (.succ 1 (.recv (s := 0) (k := k 1) (m := m 0) (rest := []) rfl rfl)
    (.succ 2 (.recv (s := 1) (k := k 2) (m := m 1) (rest := []) rfl rfl) ?_)))))
  convert hn using 1
  ext1
  · funext i; fin_cases i <;> rfl
  · funext s d; fin_cases s <;> fin_cases d <;> rfl

end Verif
