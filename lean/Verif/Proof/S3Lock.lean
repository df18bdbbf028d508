import Verif.Proof.LockMal
import Verif.Proof.SpdzLockRun
import Verif.Spec.PrivacyS3
import Verif.Proof.Swift3Iris

/-!
# Two runs of the Swift3 backend in lock-step

As `Proof/Lock.lean`, for the state of the Swift3 backend. `Cpl3` are couplings of the unknown tapes of two runs; they need
no invariant of the states, because every message of the gates is masked.
-/

namespace Verif

open Swift3

variable {f : Bytes → List Bool} {K : Nat} {α β : Type} {i : Party}

theorem s3TapeIn_self (t : List Bool) (st : Party → S3St (idealPrg f) K) : s3TapeIn i t st i = st i := by
  unfold s3TapeIn
  rw [if_neg ((by decide : ∀ c : Party, c ≠ c.prev) i), if_neg ((by decide : ∀ c : Party, c ≠ c.next) i)]

/-! ## Protocol code -/

/-- See the head of this file. -/
def Lock3 (i : Party) (u : Bool → List Bool) (p : Bool → Party → Proto (S3St (idealPrg f) K) α)
    (st : Bool → Party → S3St (idealPrg f) K) (Q : (Bool → Party → α) → (Bool → Party → S3St (idealPrg f) K) → Prop) : Prop :=
  ∃ (l : Bool → Party → Log) (a : Bool → Party → α) (t : Bool → Party → S3St (idealPrg f) K),
    (∀ w (rest : List Bool) (acc : Party → Log), Runs (fun j => (p w j (s3TapeIn i (u w ++ rest) (st w) j)).record (acc j))
      fun j => (acc j ++ l w j, (a w j, s3TapeIn i rest (t w) j))) ∧ l false i = l true i ∧ Q a t

namespace Lock3

variable {u : Bool → List Bool} {st : Bool → Party → S3St (idealPrg f) K}

theorem mono {p : Bool → Party → Proto (S3St (idealPrg f) K) α} {Q Q' : (Bool → Party → α) → (Bool → Party → S3St (idealPrg f) K) → Prop}
    (h : Lock3 i u p st Q) (hQ : ∀ a t, Q a t → Q' a t) : Lock3 i u p st Q' := by
  obtain ⟨l, a, t, h1, h2, h3⟩ := h
  exact ⟨l, a, t, h1, h2, hQ a t h3⟩

theorem congr {p q : Bool → Party → Proto (S3St (idealPrg f) K) α} {Q : (Bool → Party → α) → (Bool → Party → S3St (idealPrg f) K) → Prop}
    (hpq : ∀ w j, p w j = q w j) (h : Lock3 i u q st Q) : Lock3 i u p st Q := by
  rwa [show p = q from funext fun w => funext fun j => hpq w j]

/-- Code without messages. -/
theorem loc {p : Bool → Party → Proto (S3St (idealPrg f) K) α} {Q : (Bool → Party → α) → (Bool → Party → S3St (idealPrg f) K) → Prop}
    {a : Bool → Party → α} {t : Bool → Party → S3St (idealPrg f) K}
    (h : ∀ w rest j, p w j (s3TapeIn i (u w ++ rest) (st w) j) = .ret (a w j, s3TapeIn i rest (t w) j)) (hQ : Q a t) :
    Lock3 i u p st Q := by
  refine ⟨fun _ _ => [], a, t, fun w rest acc => ?_, rfl, hQ⟩
  simp only [h, List.append_nil]
  exact ⟨0, .zero _⟩

theorem pure {a : Bool → Party → α} {Q : (Bool → Party → α) → (Bool → Party → S3St (idealPrg f) K) → Prop} (h : Q a st) :
    Lock3 i (fun _ => []) (fun w j => (Pure.pure (a w j) : Proto (S3St (idealPrg f) K) α)) st Q :=
  loc (a := a) (t := st) (fun _ _ _ => rfl) h

theorem lift {x : Bool → Party → Except Err α} {a : Bool → Party → α}
    {Q : (Bool → Party → α) → (Bool → Party → S3St (idealPrg f) K) → Prop} (hx : ∀ w j, x w j = .ok (a w j)) (h : Q a st) :
    Lock3 i (fun _ => []) (fun w j => (Proto.lift (x w j) : Proto (S3St (idealPrg f) K) α)) st Q :=
  congr (q := fun w j => (Pure.pure (a w j) : Proto (S3St (idealPrg f) K) α)) (fun w j => by rw [hx]; rfl) (pure h)

theorem ite_neg {c : Bool → Party → Prop} [∀ w k, Decidable (c w k)] {p q : Bool → Party → Proto (S3St (idealPrg f) K) α}
    {Q : (Bool → Party → α) → (Bool → Party → S3St (idealPrg f) K) → Prop} (hc : ∀ w k, ¬ c w k) (h : Lock3 i u q st Q) :
    Lock3 i u (fun w k => if c w k then p w k else q w k) st Q :=
  congr (fun w k => if_neg (hc w k)) h

theorem bind {u' : Bool → List Bool} {p : Bool → Party → Proto (S3St (idealPrg f) K) α}
    {k : Bool → Party → α → Proto (S3St (idealPrg f) K) β} {Q : (Bool → Party → β) → (Bool → Party → S3St (idealPrg f) K) → Prop}
    (h : Lock3 i u p st fun a t => Lock3 i u' (fun w j => k w j (a w j)) t Q) :
    Lock3 i (fun w => u w ++ u' w) (fun w j => p w j >>= k w j) st Q := by
  obtain ⟨l, a, t, h1, h2, l', a', t', k1, k2, k3⟩ := h
  refine ⟨fun w j => l w j ++ l' w j, a', t', fun w rest acc => ?_, by show l false i ++ l' false i = l true i ++ l' true i; rw [h2, k2], k3⟩
  have e : ∀ j, ((p w j >>= k w j) (s3TapeIn i (u w ++ u' w ++ rest) (st w) j)).record (acc j)
      = (p w j (s3TapeIn i (u w ++ (u' w ++ rest)) (st w) j)).record (acc j) >>= fun r => (k w j r.2.1 r.2.2).record r.1 := by
    intro j
    rw [List.append_assoc]
    exact Prog.record_bind _ _ _
  have e' : (fun j => (acc j ++ (l w j ++ l' w j), (a' w j, s3TapeIn i rest (t' w) j))) =
      fun j => (acc j ++ l w j ++ l' w j, (a' w j, s3TapeIn i rest (t' w) j)) := by simp only [List.append_assoc]
  simp only [e, e']
  exact Runs.bind (k := fun j r => (k w j r.2.1 r.2.2).record r.1) (h1 w (u' w ++ rest) acc)
    (k1 w rest fun j => acc j ++ l w j)

/-- A first step that draws nothing. -/
theorem bind' {p : Bool → Party → Proto (S3St (idealPrg f) K) α}
    {k : Bool → Party → α → Proto (S3St (idealPrg f) K) β} {Q : (Bool → Party → β) → (Bool → Party → S3St (idealPrg f) K) → Prop}
    (h : Lock3 i (fun _ => []) p st fun a t => Lock3 i u (fun w j => k w j (a w j)) t Q) :
    Lock3 i u (fun w j => p w j >>= k w j) st Q := bind (u := fun _ => []) h

/-- A last step that draws nothing. -/
theorem bind_last {p : Bool → Party → Proto (S3St (idealPrg f) K) α}
    {k : Bool → Party → α → Proto (S3St (idealPrg f) K) β} {Q : (Bool → Party → β) → (Bool → Party → S3St (idealPrg f) K) → Prop}
    (h : Lock3 i u p st fun a t => Lock3 i (fun _ => []) (fun w j => k w j (a w j)) t Q) :
    Lock3 i u (fun w j => p w j >>= k w j) st Q := by
  have := bind h
  simpa only [List.append_nil] using this

theorem net {p : Bool → Party → Prog α} {a : Bool → Party → α} {Q : (Bool → Party → α) → (Bool → Party → S3St (idealPrg f) K) → Prop}
    (h : Talk i p a) (hQ : Q a st) : Lock3 i (fun _ => []) (fun w j => (Proto.net (p w j) : Proto (S3St (idealPrg f) K) α)) st Q := by
  obtain ⟨l, h1, h2⟩ := h
  refine ⟨l, a, st, fun w rest acc => ?_, h2, hQ⟩
  have e : ∀ j, ((Proto.net (p w j) : Proto (S3St (idealPrg f) K) α) (s3TapeIn i ([] ++ rest) (st w) j)).record (acc j) =
      (p w j).record (acc j) >>= fun r => Prog.ret (r.1, (r.2, s3TapeIn i rest (st w) j)) := by
    intro j
    show (p w j >>= fun a => Prog.ret (a, s3TapeIn i rest (st w) j)).record (acc j) = _
    rw [Prog.record_bind]
    rfl
  simp only [e]
  exact (h1 w acc).bind ⟨0, .zero _⟩

/-- What is known about each of the runs, and the code of party `i` being the same in both worlds. -/
theorem full {p : Bool → Party → Proto (S3St (idealPrg f) K) α}
    {Q : (Bool → Party → α) → (Bool → Party → S3St (idealPrg f) K) → Prop}
    (h : Lock3 i u p st Q) (hi : st false i = st true i) (hp : p false i = p true i)
    {R : Bool → (Party → α) → (Party → S3St (idealPrg f) K) → Prop}
    (hw : ∀ w t, WPS (p w) (s3TapeIn i (u w ++ t) (st w)) (R w)) :
    Lock3 i u p st fun a t => Q a t ∧ (∀ w rest, R w (a w) (s3TapeIn i rest (t w))) ∧ a false i = a true i ∧ t false i = t true i := by
  obtain ⟨l, a, t, h1, h2, h3⟩ := h
  have h4 : ∀ w rest, R w (a w) (s3TapeIn i rest (t w)) := by
    intro w rest
    obtain ⟨r, hr, hQ⟩ := hw w rest
    have := hr.unique (h1 w rest fun _ => []).erase
    subst this
    exact hQ
  have h5 : ∀ w, (p w i (st w i)).replay (l w i) = some (a w i, t w i) := by
    intro w
    have := Runs.replay (h1 w [] fun _ => []) (i := i) (ms := l w i) rfl
    rwa [s3TapeIn_self, s3TapeIn_self] at this
  have h6 : (a false i, t false i) = (a true i, t true i) := by
    have := h5 false
    rw [hp, hi, h2, h5 true] at this
    injection this with this
    exact this.symm
  rw [Prod.mk.injEq] at h6
  exact ⟨l, a, t, h1, h2, h3, h4, h6⟩

end Lock3

/-! ## Couplings -/

/-- There are two injective maps on tapes of `n` bits, one for each world, such that party `i` sees the same messages in
both worlds when the tapes are the images of the same tape, whatever the initial states are; the results satisfy `Q`. -/
def Cpl3 (i : Party) (n : Nat) (p : Bool → Party → Proto (S3St (idealPrg f) K) α) (Q : (Bool → Party → α) → Prop) : Prop :=
  ∀ st, ∃ φ : Bool → List Bool → List Bool, (∀ w u, u.length = n → (φ w u).length = n) ∧
    (∀ w u u', u.length = n → u'.length = n → φ w u = φ w u' → u = u') ∧
    ∀ u, u.length = n → Lock3 i (fun w => φ w u) p st fun a _ => Q a

namespace Cpl3

variable {n m : Nat} {Q : (Bool → Party → α) → Prop}

theorem mono {p : Bool → Party → Proto (S3St (idealPrg f) K) α} {Q' : (Bool → Party → α) → Prop}
    (h : Cpl3 i n p Q) (hQ : ∀ a, Q a → Q' a) : Cpl3 i n p Q' := by
  intro st
  obtain ⟨φ, h1, h2, h3⟩ := h st
  exact ⟨φ, h1, h2, fun u hu => (h3 u hu).mono fun a _ => hQ a⟩

theorem congr {p q : Bool → Party → Proto (S3St (idealPrg f) K) α} (hpq : ∀ w j, p w j = q w j) (h : Cpl3 i n q Q) :
    Cpl3 i n p Q := by
  rwa [show p = q from funext fun w => funext fun j => hpq w j]

/-- Code that draws nothing. -/
theorem zero {p : Bool → Party → Proto (S3St (idealPrg f) K) α} (h : ∀ st, Lock3 i (fun _ => []) p st fun a _ => Q a) :
    Cpl3 i 0 p Q := by
  intro st
  refine ⟨fun _ _ => [], fun _ _ _ => rfl, fun _ u u' hu hu' _ => ?_, fun u _ => h st⟩
  rw [List.length_eq_zero_iff.1 hu, List.length_eq_zero_iff.1 hu']

/-- The same tape in both worlds. -/
theorem same {p : Bool → Party → Proto (S3St (idealPrg f) K) α}
    (h : ∀ st u, u.length = n → Lock3 i (fun _ => u) p st fun a _ => Q a) : Cpl3 i n p Q :=
  fun st => ⟨fun _ u => u, fun _ _ hu => hu, fun _ _ _ _ _ e => e, fun u hu => h st u hu⟩

theorem pure {a : Bool → Party → α} (h : Q a) :
    Cpl3 i 0 (fun w j => (Pure.pure (a w j) : Proto (S3St (idealPrg f) K) α)) Q := zero fun _ => Lock3.pure h

theorem lift {x : Bool → Party → Except Err α} {a : Bool → Party → α} (hx : ∀ w j, x w j = .ok (a w j)) (h : Q a) :
    Cpl3 i 0 (fun w j => (Proto.lift (x w j) : Proto (S3St (idealPrg f) K) α)) Q :=
  congr (q := fun w j => (Pure.pure (a w j) : Proto (S3St (idealPrg f) K) α)) (fun w j => by rw [hx]; rfl) (pure h)

theorem net {p : Bool → Party → Prog α} {a : Bool → Party → α} (h : Talk i p a) (hQ : Q a) :
    Cpl3 i 0 (fun w j => (Proto.net (p w j) : Proto (S3St (idealPrg f) K) α)) Q := zero fun _ => Lock3.net h hQ

/-- Local code that draws nothing from the generators of two parties. -/
theorem step {a : Bool → Party → α} {g : Bool → Party → S3St (idealPrg f) K → S3St (idealPrg f) K} (hQ : Q a)
    (hg : ∀ w j (s : S3St (idealPrg f) K) p, g w j { s with prf := p } = { g w j s with prf := p }) :
    Cpl3 i 0 (fun w j => (Proto.step fun s => (a w j, g w j s) : Proto (S3St (idealPrg f) K) α)) Q := by
  refine zero fun st => Lock3.loc (a := a) (t := fun w j => g w j (st w j)) (fun w rest j => ?_) hQ
  have e : g w j (s3TapeIn i rest (st w) j) = s3TapeIn i rest (fun j => g w j (st w j)) j := by
    have h : ∀ s, (g w j s).prf = s.prf := fun s => by
      have := hg w j s s.prf
      rw [show ({ s with prf := s.prf } : S3St (idealPrg f) K) = s from rfl] at this
      rw [this]
    unfold s3TapeIn
    split_ifs
    · rw [hg, h]
    · rw [hg, h]
    · rfl
  show Prog.ret (_, g w j (s3TapeIn i ([] ++ rest) (st w) j)) = _
  rw [List.nil_append, e]

theorem ite_neg {c : Bool → Party → Prop} [∀ w k, Decidable (c w k)] {p q : Bool → Party → Proto (S3St (idealPrg f) K) α}
    (hc : ∀ w k, ¬ c w k) (h : Cpl3 i n q Q) : Cpl3 i n (fun w k => if c w k then p w k else q w k) Q :=
  congr (fun w k => if_neg (hc w k)) h

theorem bind {p : Bool → Party → Proto (S3St (idealPrg f) K) α} {k : Bool → Party → α → Proto (S3St (idealPrg f) K) β}
    {Q' : (Bool → Party → β) → Prop} (h : Cpl3 i n p Q)
    (hk : ∀ a, Q a → Cpl3 i m (fun w j => k w j (a w j)) Q') : Cpl3 i (n + m) (fun w j => p w j >>= k w j) Q' := by
  intro st
  obtain ⟨φ, h1, h2, h3⟩ := h st
  choose l a t r1 r2 r3 using h3
  have key : ∀ u (hu : u.length = n), ∃ ψ : Bool → List Bool → List Bool, (∀ w u, u.length = m → (ψ w u).length = m) ∧
    (∀ w u u', u.length = m → u'.length = m → ψ w u = ψ w u' → u = u') ∧
    ∀ u', u'.length = m → Lock3 i (fun w => ψ w u') (fun w j => k w j (a u hu w j)) (t u hu) fun a _ => Q' a :=
    fun u hu => hk _ (r3 u hu) _
  choose ψ k1 k2 k3 using key
  have ht : ∀ u : List Bool, u.length = n + m → (u.take n).length = n := fun u hu => by rw [List.length_take, hu]; omega
  have hd : ∀ u : List Bool, u.length = n + m → (u.drop n).length = m := fun u hu => by rw [List.length_drop, hu]; omega
  refine ⟨fun w u => if hu : u.length = n + m then φ w (u.take n) ++ ψ (u.take n) (ht u hu) w (u.drop n) else [], ?_, ?_, ?_⟩
  · intro w u hu
    simp only [dif_pos hu]
    rw [List.length_append, h1 _ _ (ht u hu), k1 _ _ _ _ (hd u hu)]
  · intro w u u' hu hu' e
    change dite _ _ _ = dite _ _ _ at e
    rw [dif_pos hu, dif_pos hu'] at e
    obtain ⟨e1, e2⟩ := List.append_inj e (by rw [h1 _ _ (ht u hu), h1 _ _ (ht u' hu')])
    have e3 := h2 _ _ _ (ht u hu) (ht u' hu') e1
    have e4 : u.drop n = u'.drop n := by
      have : ∀ v (hv : v.length = n) x, v = u.take n → ψ v hv w x = ψ (u.take n) (ht u hu) w x := by
        rintro v hv x rfl
        rfl
      rw [this _ (ht u' hu') _ e3.symm] at e2
      exact k2 _ _ _ _ _ (hd u hu) (hd u' hu') e2
    rw [← List.take_append_drop n u, ← List.take_append_drop n u', e3, e4]
  · intro u hu
    simp only [dif_pos hu]
    exact Lock3.bind ⟨l _ (ht u hu), a _ (ht u hu), t _ (ht u hu), r1 _ (ht u hu), r2 _ (ht u hu), k3 _ (ht u hu) _ (hd u hu)⟩

theorem bind' {p : Bool → Party → Proto (S3St (idealPrg f) K) α} {k : Bool → Party → α → Proto (S3St (idealPrg f) K) β}
    {Q' : (Bool → Party → β) → Prop} (h : Cpl3 i 0 p Q)
    (hk : ∀ a, Q a → Cpl3 i m (fun w j => k w j (a w j)) Q') : Cpl3 i m (fun w j => p w j >>= k w j) Q' := by
  have := bind h hk
  rwa [Nat.zero_add] at this

/-- A last step that draws nothing. -/
theorem bind_local {p : Bool → Party → Proto (S3St (idealPrg f) K) α} {k : Bool → Party → α → Proto (S3St (idealPrg f) K) β}
    {Q' : (Bool → Party → β) → Prop} (h : Cpl3 i n p Q)
    (hk : ∀ a, Q a → Cpl3 i 0 (fun w j => k w j (a w j)) Q') : Cpl3 i n (fun w j => p w j >>= k w j) Q' := bind (m := 0) h hk

theorem ret {p : Bool → Party → Proto (S3St (idealPrg f) K) α} {g : Bool → Party → α → β}
    {Q' : (Bool → Party → β) → Prop} (h : Cpl3 i n p Q) (hk : ∀ a, Q a → Q' fun w j => g w j (a w j)) :
    Cpl3 i n (fun w j => (p w j >>= fun a => Pure.pure (g w j a) : Proto (S3St (idealPrg f) K) β)) Q' :=
  bind_local h fun a ha => pure (a := fun w j => g w j (a w j)) (hk a ha)

end Cpl3

end Verif
