import Verif.Proof.Proto

/-! # Failing runs, network-free runs, `unwrap` -/

namespace Verif

variable {σ α β : Type}

theorem StepsN.eq_of_stuck {k : Nat} {a b : Config α} (hk : StepsN k a b) (ha : a.Stuck) : a = b := by
  cases hk with
  | zero => rfl
  | succ hs _ => exact absurd hs (ha _)

/-- Some (hence every) schedule ends with all parties failing with `e`. -/
def WPF (p : Party → Prog α) (e : Err) : Prop :=
  ∃ n ch, StepsN n (Config.init p) ⟨fun _ => .fail e, ch⟩

theorem WPF.fail (e : Err) : WPF (fun _ => (.fail e : Prog α)) e := ⟨0, _, .zero _⟩

theorem WPF.bind_wp {p : Party → Prog α} {k : Party → α → Prog β} {e : Err}
    (h : WP p (fun r => WPF (fun i => k i (r i)) e)) : WPF (fun i => p i >>= k i) e := by
  obtain ⟨r, ⟨n, hn⟩, m, ch, hm⟩ := h
  exact ⟨n + m, ch, (hn.toSteps.bind k).trans hm⟩

theorem WPF.bind_left {p : Party → Prog α} {k : Party → α → Prog β} {e : Err}
    (h : WPF p e) : WPF (fun i => p i >>= k i) e := by
  obtain ⟨n, ch, hn⟩ := h
  exact ⟨n, ch, hn.bind k⟩

theorem WPF.endsIn {p : Party → Prog α} {e : Err} (h : WPF p e) :
    EndsIn p (fun c => ∀ i, c.prog i = .fail e) := by
  obtain ⟨n, ch, hn⟩ := h
  exact EndsIn.of_run hn (Config.stuck_of_done fun i => .inr ⟨e, rfl⟩) (fun _ => rfl)

/-- The stateful version. -/
def WPSF (p : Party → Proto σ α) (st : Party → σ) (e : Err) : Prop := WPF (fun i => p i (st i)) e

theorem WPSF.bind {p : Party → Proto σ α} {k : Party → α → Proto σ β} {st : Party → σ} {e : Err}
    (h : WPS p st (fun a s => WPSF (fun i => k i (a i)) s e)) : WPSF (fun i => p i >>= k i) st e :=
  WPF.bind_wp (k := fun i (r : α × σ) => k i r.1 r.2) h

theorem WPSF.bind_left {p : Party → Proto σ α} {k : Party → α → Proto σ β} {st : Party → σ} {e : Err}
    (h : WPSF p st e) : WPSF (fun i => p i >>= k i) st e :=
  WPF.bind_left (k := fun i (r : α × σ) => k i r.1 r.2) h

theorem WPSF.atOnce {p : Party → Proto σ α} {e : Err} (h : ∀ i, FailsAtOnce (p i) e) (st : Party → σ) :
    WPSF p st e := by
  unfold WPSF
  rw [show (fun i => p i (st i)) = fun _ => .fail e from funext fun i => h i (st i)]
  exact .fail e

theorem WPSF.ite_neg {c : Party → Prop} [∀ i, Decidable (c i)] {p q : Party → Proto σ α}
    {st : Party → σ} {e : Err} (hc : ∀ i, ¬ c i) (h : WPSF q st e) :
    WPSF (fun i => if c i then p i else q i) st e := by
  have : (fun i => if c i then p i else q i) = q := funext fun i => if_neg (hc i)
  rw [this]; exact h

theorem WPSF.every {p : Party → Proto σ α} {st : Party → σ} {e : Err} (h : WPSF p st e) :
    EveryScheduleFails p st e := WPF.endsIn h

theorem FailsAtOnce.throw (e : Err) : FailsAtOnce (Proto.throw e : Proto σ α) e := fun _ => rfl

theorem FailsAtOnce.lift {r : Except Err α} {e : Err} (h : r = .error e) :
    FailsAtOnce (Proto.lift r : Proto σ α) e := by subst h; intro s; rfl

theorem WPSF.lift {r : Party → Except Err α} {st : Party → σ} {e : Err} (h : ∀ i, r i = .error e) :
    WPSF (fun i => (Proto.lift (r i) : Proto σ α)) st e :=
  WPSF.atOnce (fun i => FailsAtOnce.lift (h i)) st

theorem FailsAtOnce.bind_left {p : Proto σ α} {k : α → Proto σ β} {e : Err} (h : FailsAtOnce p e) :
    FailsAtOnce (p >>= k) e := by
  intro s
  show (p s >>= fun r => k r.1 r.2) = _
  rw [h s]; rfl

theorem FailsAtOnce.bind_lift {r : Except Err α} {a : α} (hr : r = .ok a) {k : α → Proto σ β} {e : Err}
    (h : FailsAtOnce (k a) e) : FailsAtOnce (Proto.lift r >>= k) e := by
  subst hr; intro s; exact h s

theorem FailsAtOnce.bind_get {k : σ → Proto σ β} {e : Err}
    (h : ∀ s, k s s = .fail e) : FailsAtOnce (get >>= k) e := fun s => h s

/-! ## `unwrap` -/

theorem Step.unwrap {i : Party} {c c' : Config α} (h : Step i c c') :
    Step i (⟨fun j => (c.prog j).unwrap, c.chan⟩ : Config α) ⟨fun j => (c'.prog j).unwrap, c'.chan⟩ := by
  cases h with
  | @send d m p h =>
    have := Step.send (i := i) (d := d) (m := m) (k := p.unwrap)
      (c := (⟨fun j => (c.prog j).unwrap, c.chan⟩ : Config α)) (by simp [h, Prog.unwrap])
    convert this using 2
    funext j
    by_cases hj : j = i
    · subst hj; simp
    · simp [Function.update_of_ne hj]
  | @recv s m p rest h hc =>
    have := Step.recv (i := i) (s := s) (m := m) (k := fun m => (p m).unwrap) (rest := rest)
      (c := (⟨fun j => (c.prog j).unwrap, c.chan⟩ : Config α)) (by simp [h, Prog.unwrap]) hc
    convert this using 2
    funext j
    by_cases hj : j = i
    · subst hj; simp
    · simp [Function.update_of_ne hj]

theorem StepsN.unwrap {n : Nat} {c c' : Config α} (h : StepsN n c c') :
    StepsN n (⟨fun j => (c.prog j).unwrap, c.chan⟩ : Config α) ⟨fun j => (c'.prog j).unwrap, c'.chan⟩ := by
  induction h with
  | zero c => exact .zero _
  | succ hs _ ih => obtain ⟨i, hi⟩ := hs; exact .succ ⟨i, hi.unwrap⟩ ih

theorem BStep.unwrap {cap : Party → Party → Nat} {i : Party} {c c' : Config α} (h : BStep cap i c c') :
    BStep cap i (⟨fun j => (c.prog j).unwrap, c.chan⟩ : Config α) ⟨fun j => (c'.prog j).unwrap, c'.chan⟩ := by
  have hs := h.toStep.unwrap
  cases h with
  | @send d m p h hr =>
    rw [hs.det (Step.send (d := d) (m := m) (k := p.unwrap) (by simp [h, Prog.unwrap]))]
    exact .send (by simp [h, Prog.unwrap]) hr
  | @recv s m p rest h hc =>
    rw [hs.det (Step.recv (s := s) (m := m) (k := fun m => (p m).unwrap) (rest := rest) (by simp [h, Prog.unwrap]) hc)]
    exact .recv (k := fun m => (p m).unwrap) (by simp [h, Prog.unwrap]) hc

theorem BStepsN.unwrap {cap : Party → Party → Nat} {n : Nat} {c c' : Config α} (h : BStepsN cap n c c') :
    BStepsN cap n (⟨fun j => (c.prog j).unwrap, c.chan⟩ : Config α) ⟨fun j => (c'.prog j).unwrap, c'.chan⟩ := by
  induction h with
  | zero c => exact .zero _
  | succ i hs _ ih => exact .succ i hs.unwrap ih

theorem WP.unwrap {p : Party → Prog α} {Q : (Party → α) → Prop} (h : WP p Q) :
    WP (fun i => (p i).unwrap) Q := by
  obtain ⟨r, ⟨n, hn⟩, hq⟩ := h
  exact ⟨r, ⟨n, hn.unwrap⟩, hq⟩

theorem WPS.unwrap {p : Party → Proto σ α} {st : Party → σ} {Q : (Party → α) → (Party → σ) → Prop}
    (h : WPS p st Q) : WPS (fun i => Proto.unwrap (p i)) st Q := WP.unwrap h

theorem WPSF.unwrap {p : Party → Proto σ α} {st : Party → σ} {e : Err} (h : WPSF p st e) :
    WPSF (fun i => Proto.unwrap (p i)) st .panic := by
  obtain ⟨n, ch, hn⟩ := h
  exact ⟨n, ch, hn.unwrap⟩

theorem WPS.get {st : Party → σ} {Q : (Party → σ) → (Party → σ) → Prop} (h : Q st st) :
    WPS (fun _ => (MonadState.get : Proto σ σ)) st Q :=
  WP.ret (a := fun i => (st i, st i)) h

/-! ## Network-free code -/

/-- The code never touches the network. -/
def NetFree (p : Proto σ α) : Prop := ∀ s, (∃ r, p s = .ret r) ∨ ∃ e, p s = .fail e

theorem NetFree.pure (a : α) : NetFree (Pure.pure a : Proto σ α) := fun s => .inl ⟨(a, s), rfl⟩
theorem NetFree.throw (e : Err) : NetFree (Proto.throw e : Proto σ α) := fun _ => .inr ⟨e, rfl⟩
theorem NetFree.get : NetFree (MonadState.get : Proto σ σ) := fun s => .inl ⟨(s, s), rfl⟩
theorem NetFree.lift (r : Except Err α) : NetFree (Proto.lift r : Proto σ α) := by
  intro s
  cases r with
  | ok a => exact .inl ⟨(a, s), rfl⟩
  | error e => exact .inr ⟨e, rfl⟩
theorem NetFree.bind {p : Proto σ α} {k : α → Proto σ β} (h : NetFree p) (hk : ∀ a, NetFree (k a)) :
    NetFree (p >>= k) := by
  intro s
  rcases h s with ⟨r, hr⟩ | ⟨e, he⟩
  · have : (p >>= k) s = k r.1 r.2 := by
      show (p s >>= fun r => k r.1 r.2) = _
      rw [hr]; rfl
    rw [this]; exact hk _ _
  · exact .inr ⟨e, by show (p s >>= fun r => k r.1 r.2) = _; rw [he]; rfl⟩
theorem NetFree.ite {c : Prop} [Decidable c] {p q : Proto σ α} (hp : NetFree p) (hq : NetFree q) :
    NetFree (if c then p else q) := by split <;> assumption
theorem NetFree.unwrap {p : Proto σ α} (hp : NetFree p) : NetFree (Proto.unwrap p) := by
  intro s
  rcases hp s with ⟨r, hr⟩ | ⟨e, he⟩
  · exact .inl ⟨r, by simp [Proto.unwrap, hr, Prog.unwrap]⟩
  · exact .inr ⟨.panic, by simp [Proto.unwrap, he, Prog.unwrap]⟩

/-- Network-free code that succeeds jointly succeeds alone. -/
theorem NetFree.returns {p : Proto σ α} (hp : NetFree p) {s : σ} {Q : (Party → α) → (Party → σ) → Prop}
    (h : WPS (fun _ => p) (fun _ => s) Q) : ∃ a s', p s = .ret (a, s') ∧ Q (fun _ => a) (fun _ => s') := by
  obtain ⟨r, ⟨n, hn⟩, hq⟩ := h
  have hstuck : (Config.init (fun _ : Party => p s)).Stuck :=
    Config.stuck_of_done fun i => hp s
  have heq := hn.toSteps.eq_of_stuck hstuck
  have hr : ∀ i, p s = .ret (r i) := fun i => congrArg (fun c => c.prog i) heq
  refine ⟨(r 0).1, (r 0).2, hr 0, ?_⟩
  have hc : ∀ i, r i = r 0 := fun i => by
    have := (hr i).symm.trans (hr 0)
    injection this
  have : r = fun _ => r 0 := funext hc
  rw [this] at hq
  exact hq

end Verif
