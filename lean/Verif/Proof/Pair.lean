import Verif.Proof.JmpMal
import Verif.Proof.Fail
import Verif.Proof.MalAby3

/-!
# Two honest parties and a corrupt one

`i` and `i.next` are honest, `i.prev` is corrupt. The rules below describe the finished runs of the two honest parties,
given that the messages one has received from the other are the ones sent. The third components of the joint values are
bookkeeping: what the corrupt party would hold if it had acted as its messages to `i` suggest.
-/

namespace Verif

variable {σ τ α β : Type} {G : Prg} {K : Nat}

/-- One list of messages extends the other. -/
def Compat (x y : List Bytes) : Prop := x <+: y ∨ y <+: x

theorem Compat.of_append {x x' y y' : List Bytes} (h : Compat (x ++ x') (y ++ y')) : Compat x y := by
  rcases h with h | h
  · exact List.prefix_or_prefix_of_prefix ((List.prefix_append x x').trans h) (List.prefix_append y y')
  · exact List.prefix_or_prefix_of_prefix (List.prefix_append x x') ((List.prefix_append y y').trans h)

theorem Compat.of_append_eq {x x' y' : List Bytes} (h : Compat (x ++ x') (x ++ y')) : Compat x' y' := by
  rcases h with h | h
  · exact .inl ((List.prefix_append_right_inj x).1 h)
  · exact .inr ((List.prefix_append_right_inj x).1 h)

theorem Compat.singleton {x y : Bytes} (h : Compat [x] [y]) : x = y := by
  rcases h with ⟨t, h⟩ | ⟨t, h⟩
  · simp only [List.cons_append, List.nil_append, List.cons.injEq] at h; exact h.1
  · simp only [List.cons_append, List.nil_append, List.cons.injEq] at h; exact h.1.symm

/-- Finished runs of the honest parties `i` and `i.next`: the messages between them match, and the results satisfy `Q`,
whose first argument are the messages `i` got from the corrupt party; or these messages satisfy `E`. -/
def PW (i : Party) (p : Party → Prog α) (E : List Bytes → Prop) (Q : List Bytes → (Party → α) → Prop) : Prop :=
  ∀ (r s : Party → Party → List Bytes) (a b : α),
    Local (p i) (r i) (s i) (.ret a) → Local (p i.next) (r i.next) (s i.next) (.ret b) →
    Compat (s i i.next) (r i.next i) → Compat (s i.next i) (r i i.next) →
    E (r i i.prev) ∨
    s i i.next = r i.next i ∧ s i.next i = r i i.next ∧ ∃ o : Party → α, o i = a ∧ o i.next = b ∧ Q (r i i.prev) o

/-- The stateful version. -/
def PWS (i : Party) (p : Party → Proto σ α) (st : Party → σ) (E : List Bytes → Prop)
    (Q : List Bytes → (Party → α) → (Party → σ) → Prop) : Prop :=
  PW i (fun k => p k (st k)) E (fun m o => Q m (fun k => (o k).1) (fun k => (o k).2))

variable {i : Party} {E : List Bytes → Prop}

theorem PW.mono {p : Party → Prog α} {Q Q' : List Bytes → (Party → α) → Prop} (h : PW i p E Q)
    (hQ : ∀ m o, Q m o → Q' m o) : PW i p E Q' := by
  intro r s a b h1 h2 h3 h4
  obtain he | ⟨e1, e2, o, o1, o2, hq⟩ := h r s a b h1 h2 h3 h4
  · exact .inl he
  · exact .inr ⟨e1, e2, o, o1, o2, hQ _ _ hq⟩

theorem PWS.mono {p : Party → Proto σ α} {st : Party → σ} {Q Q' : List Bytes → (Party → α) → (Party → σ) → Prop}
    (h : PWS i p st E Q) (hQ : ∀ m a s, Q m a s → Q' m a s) : PWS i p st E Q' := PW.mono h fun _ _ => hQ _ _ _

theorem PWS.conseq {p : Party → Proto σ α} {st : Party → σ} {E' : List Bytes → Prop}
    {Q Q' : List Bytes → (Party → α) → (Party → σ) → Prop} (h : PWS i p st E' Q') (hE : ∀ m, E' m → E m)
    (hQ : ∀ m a s, Q' m a s → Q m a s) : PWS i p st E Q := by
  intro r s a b h1 h2 h3 h4
  obtain he | ⟨e1, e2, o, o1, o2, hq⟩ := h r s a b h1 h2 h3 h4
  · exact .inl (hE _ he)
  · exact .inr ⟨e1, e2, o, o1, o2, hQ _ _ _ hq⟩

/-- Only the values and states of the honest parties matter. -/
theorem PWS.ghost {p : Party → Proto σ α} {st : Party → σ} {Q Q' : List Bytes → (Party → α) → (Party → σ) → Prop}
    (h : PWS i p st E Q) (hQ : ∀ m a s, Q m a s → ∃ a' s', a' i = a i ∧ a' i.next = a i.next ∧ s' i = s i ∧
      s' i.next = s i.next ∧ Q' m a' s') : PWS i p st E Q' := by
  intro r s a b h1 h2 h3 h4
  obtain he | ⟨e1, e2, o, rfl, rfl, hq⟩ := h r s a b h1 h2 h3 h4
  · exact .inl he
  obtain ⟨a', s', f1, f2, f3, f4, hq⟩ := hQ _ _ _ hq
  exact .inr ⟨e1, e2, fun k => (a' k, s' k), by simp [f1, f3], by simp [f2, f4], hq⟩

theorem PW.ret {o : Party → α} {Q : List Bytes → (Party → α) → Prop} (h : Q [] o) : PW i (fun k => .ret (o k)) E Q := by
  intro r s a b h1 h2 _ _
  obtain ⟨e1, e2, e3⟩ := Local.ret_inv h1
  obtain ⟨f1, f2, f3⟩ := Local.ret_inv h2
  injection e3 with e3
  injection f3 with f3
  right
  simp only [e1, e2, f1, f2, true_and]
  exact ⟨o, e3.symm, f3.symm, h⟩

theorem PW.bind {p : Party → Prog α} {k : Party → α → Prog β} {Q : List Bytes → (Party → β) → Prop}
    (h : PW i p (fun m => ∀ m', E (m ++ m')) fun m o => PW i (fun l => k l (o l)) (fun m' => E (m ++ m'))
      fun m' => Q (m ++ m')) : PW i (fun l => p l >>= k l) E Q := by
  intro r s a b h1 h2 h3 h4
  obtain ⟨x, r1, s1, r2, s2, a1, a2, e1, e2⟩ := Local.bind_ret h1
  obtain ⟨y, r3, s3, r4, s4, b1, b2, f1, f2⟩ := Local.bind_ret h2
  have hne : i.next ≠ i := (by decide : ∀ i : Party, i.next ≠ i) i
  rw [e2, f1] at h3
  rw [f2, e1] at h4
  obtain he | ⟨g1, g2, o, o1, o2, hq⟩ := h (fun l => if l = i then r1 else r3) (fun l => if l = i then s1 else s3) x y
    (by simpa using a1) (by simpa [hne] using b1) (by simpa [hne] using h3.of_append) (by simpa [hne] using h4.of_append)
  · left
    rw [e1]
    simp only [if_true] at he
    exact he _
  simp only [hne, if_true, if_false] at g1 g2 hq
  simp only [g1] at h3
  simp only [g2] at h4
  obtain he | ⟨g3, g4, o', o1', o2', hq'⟩ := hq (fun l => if l = i then r2 else r4) (fun l => if l = i then s2 else s4) a b
    (by simpa [o1] using a2) (by simpa [hne, o2] using b2) (by simpa [hne] using h3.of_append_eq)
    (by simpa [hne] using h4.of_append_eq)
  · left
    rw [e1]
    simpa using he
  simp only [hne, if_true, if_false] at g3 g4 hq'
  refine .inr ⟨?_, ?_, o', o1', o2', ?_⟩
  · rw [e2, f1]; simp only [g1, g3]
  · rw [f2, e1]; simp only [g2, g4]
  · rw [e1]; exact hq'

theorem PWS.bind {p : Party → Proto σ α} {k : Party → α → Proto σ β} {st : Party → σ}
    {Q : List Bytes → (Party → β) → (Party → σ) → Prop}
    (h : PWS i p st (fun m => ∀ m', E (m ++ m')) fun m a s => PWS i (fun l => k l (a l)) s (fun m' => E (m ++ m'))
      fun m' => Q (m ++ m')) : PWS i (fun l => p l >>= k l) st E Q :=
  PW.bind (k := fun l (r : α × σ) => k l r.1 r.2) h

/-- The runs satisfy `E`. -/
theorem PW.bad {p : Party → Prog α} {Q : List Bytes → (Party → α) → Prop} (h : ∀ m, E m) : PW i p E Q :=
  fun _ _ _ _ _ _ _ _ => .inl (h _)

theorem PWS.bad {p : Party → Proto σ α} {st : Party → σ} {Q : List Bytes → (Party → α) → (Party → σ) → Prop}
    (h : ∀ m, E m) : PWS i p st E Q := PW.bad h

theorem PWS.pure {a : Party → α} {st : Party → σ} {Q : List Bytes → (Party → α) → (Party → σ) → Prop}
    (h : Q [] a st) : PWS i (fun k => Pure.pure (a k)) st E Q := PW.ret (o := fun k => (a k, st k)) h

theorem PWS.step {f : Party → σ → α × σ} {st : Party → σ} {Q : List Bytes → (Party → α) → (Party → σ) → Prop}
    (h : Q [] (fun k => (f k (st k)).1) (fun k => (f k (st k)).2)) : PWS i (fun k => Proto.step (f k)) st E Q :=
  PW.ret (o := fun k => f k (st k)) h

theorem PWS.net {p : Party → Prog α} {st : Party → σ} {Q : List Bytes → (Party → α) → (Party → σ) → Prop}
    (h : PW i p E fun m a => Q m a st) : PWS i (fun k => Proto.net (p k)) st E Q := by
  intro r s a b h1 h2 h3 h4
  obtain ⟨x, r1, s1, r2, s2, a1, a2, e1, e2⟩ := Local.bind_ret (k := fun a => Prog.ret (a, st i)) h1
  obtain ⟨y, r3, s3, r4, s4, b1, b2, f1, f2⟩ := Local.bind_ret (k := fun a => Prog.ret (a, st i.next)) h2
  obtain ⟨rfl, rfl, e⟩ := Local.ret_inv a2
  obtain ⟨rfl, rfl, f⟩ := Local.ret_inv b2
  injection e with e
  injection f with f
  simp only [List.append_nil] at e1 e2 f1 f2
  change r i = r1 at e1
  change s i = s1 at e2
  change r i.next = r3 at f1
  change s i.next = s3 at f2
  rw [← e1, ← e2] at a1
  rw [← f1, ← f2] at b1
  subst e f
  obtain he | ⟨g1, g2, o, o1, o2, hq⟩ := h r s x y a1 b1 h3 h4
  · exact .inl he
  · exact .inr ⟨g1, g2, fun k => (o k, st k), by simp [o1], by simp [o2], hq⟩

theorem PWS.congr {p q : Party → Proto σ α} {st : Party → σ} {Q : List Bytes → (Party → α) → (Party → σ) → Prop}
    (hpq : ∀ k, p k = q k) (h : PWS i q st E Q) : PWS i p st E Q := by
  have : p = q := funext hpq
  rw [this]; exact h

theorem PWS.zoom {get : σ → τ} {set : σ → τ → σ} {p : Party → Proto τ α} {st : Party → σ}
    {Q : List Bytes → (Party → α) → (Party → σ) → Prop}
    (h : PWS i p (fun i => get (st i)) E (fun m a t => Q m a (fun i => set (st i) (t i)))) :
    PWS i (fun i => Proto.zoom get set (p i)) st E Q := by
  intro r s a b h1 h2 h3 h4
  obtain ⟨x, r1, s1, r2, s2, a1, a2, e1, e2⟩ := Local.bind_ret (k := fun (r : α × τ) => Prog.ret (r.1, set (st i) r.2)) h1
  obtain ⟨y, r3, s3, r4, s4, b1, b2, f1, f2⟩ :=
    Local.bind_ret (k := fun (r : α × τ) => Prog.ret (r.1, set (st i.next) r.2)) h2
  obtain ⟨rfl, rfl, e⟩ := Local.ret_inv a2
  obtain ⟨rfl, rfl, f⟩ := Local.ret_inv b2
  injection e with e
  injection f with f
  simp only [List.append_nil] at e1 e2 f1 f2
  change r i = r1 at e1
  change s i = s1 at e2
  change r i.next = r3 at f1
  change s i.next = s3 at f2
  rw [← e1, ← e2] at a1
  rw [← f1, ← f2] at b1
  subst e f
  obtain he | ⟨g1, g2, o, o1, o2, hq⟩ := h r s x y a1 b1 h3 h4
  · exact .inl he
  · exact .inr ⟨g1, g2, fun k => ((o k).1, set (st k) (o k).2), by simp [o1], by simp [o2], hq⟩

/-- `expr?`: both honest parties get past it. -/
theorem PW.ofExcept {x : Party → Except Err α} {Q : List Bytes → (Party → α) → Prop}
    (h : ∀ a : Party → α, x i = .ok (a i) → x i.next = .ok (a i.next) → ∃ a', a' i = a i ∧ a' i.next = a i.next ∧ Q [] a') :
    PW i (fun k => Prog.ofExcept (x k)) E Q := by
  intro r s a b h1 h2 _ _
  have hne : i.next ≠ i := (by decide : ∀ i : Party, i.next ≠ i) i
  change Local (Prog.ofExcept (x i)) _ _ _ at h1
  change Local (Prog.ofExcept (x i.next)) _ _ _ at h2
  cases hx : x i with
  | error e => rw [hx] at h1; exact absurd (Local.fail_inv h1).2.2 (by simp)
  | ok u =>
    cases hy : x i.next with
    | error e => rw [hy] at h2; exact absurd (Local.fail_inv h2).2.2 (by simp)
    | ok v =>
      rw [hx] at h1
      rw [hy] at h2
      obtain ⟨e1, e2, e3⟩ := Local.ret_inv h1
      obtain ⟨f1, f2, f3⟩ := Local.ret_inv h2
      injection e3 with e3
      injection f3 with f3
      right
      simp only [e1, e2, f1, f2, true_and]
      obtain ⟨a', g1, g2, hq⟩ := h (fun k => if k = i then u else v) (by simp [hx]) (by simp [hne, hy])
      simp only [hne, if_true, if_false] at g1 g2
      exact ⟨a', by rw [g1, e3], by rw [g2, f3], hq⟩

theorem PWS.lift {x : Party → Except Err α} {st : Party → σ} {Q : List Bytes → (Party → α) → (Party → σ) → Prop}
    (h : ∀ a : Party → α, x i = .ok (a i) → x i.next = .ok (a i.next) → ∃ a', a' i = a i ∧ a' i.next = a i.next ∧ Q [] a' st) :
    PWS i (fun k => Proto.lift (x k)) st E Q := PWS.net (PW.ofExcept h)

theorem PWS.lift_ok {x : Party → Except Err α} {a : Party → α} {st : Party → σ}
    {Q : List Bytes → (Party → α) → (Party → σ) → Prop} (hx : ∀ k, x k = .ok (a k)) (h : Q [] a st) :
    PWS i (fun k => Proto.lift (x k)) st E Q := by
  refine PWS.lift fun a' h1 h2 => ⟨a, ?_, ?_, h⟩
  · rw [hx] at h1; injection h1
  · rw [hx] at h2; injection h2

theorem PWS.ite_neg {c : Party → Prop} [∀ k, Decidable (c k)] {p q : Party → Proto σ α} {st : Party → σ}
    {Q : List Bytes → (Party → α) → (Party → σ) → Prop} (hc : ∀ k, ¬ c k) (h : PWS i q st E Q) :
    PWS i (fun k => if c k then p k else q k) st E Q := by
  have : (fun k => if c k then p k else q k) = q := funext fun k => if_neg (hc k)
  rw [this]; exact h

/-- Code without network interaction runs as among honest parties. -/
theorem PWS.of_wps {p : Party → Proto σ α} (hp : ∀ k, NetFree (p k)) {st : Party → σ}
    {Q : (Party → α) → (Party → σ) → Prop} (h : WPS p st Q) : PWS i p st E fun m a s => m = [] ∧ Q a s := by
  obtain ⟨o, ⟨n, hn⟩, hq⟩ := h
  have heq := hn.toSteps.eq_of_stuck (Config.stuck_of_done fun k => hp k (st k))
  have hr : ∀ k, p k (st k) = .ret (o k) := fun k => congrArg (fun c => c.prog k) heq
  unfold PWS
  rw [show (fun k => p k (st k)) = fun k => .ret (o k) from funext hr]
  exact PW.ret (o := o) ⟨rfl, hq⟩

/-- Local code first, whose outcome is fixed before the corrupt party acts. -/
theorem PWS.bind_local {δ : Type} {p : Party → Proto σ α} (hp : ∀ k, NetFree (p k)) {k : Party → α → Proto σ β}
    {st : Party → σ} {E : δ → List Bytes → Prop} {Q : δ → List Bytes → (Party → β) → (Party → σ) → Prop}
    (h : WPS p st fun a s => ∃ d, PWS i (fun l => k l (a l)) s (E d) (Q d)) :
    ∃ d, PWS i (fun l => p l >>= k l) st (E d) (Q d) := by
  obtain ⟨o, ⟨n, hn⟩, d, hq⟩ := h
  have heq := hn.toSteps.eq_of_stuck (Config.stuck_of_done fun k => hp k (st k))
  have hr : ∀ k, p k (st k) = .ret (o k) := fun k => congrArg (fun c => c.prog k) heq
  refine ⟨d, PW.bind (k := fun l (r : α × σ) => k l r.1 r.2) ?_⟩
  rw [show (fun k => p k (st k)) = fun k => .ret (o k) from funext hr]
  exact PW.ret (o := o) hq

theorem PWS.bind_eq {p : Party → Proto σ α} {k : Party → α → Proto σ β} {st st1 : Party → σ} {a : Party → α}
    {Q : List Bytes → (Party → β) → (Party → σ) → Prop} (hp : ∀ l, p l (st l) = .ret (a l, st1 l))
    (h : PWS i (fun l => k l (a l)) st1 E Q) : PWS i (fun l => p l >>= k l) st E Q := by
  unfold PWS at h ⊢
  have : (fun l => (p l >>= k l) (st l)) = fun l => k l (a l) (st1 l) := by
    funext l
    show (p l (st l) >>= fun r => k l r.1 r.2) = _
    rw [hp]; rfl
  rw [this]; exact h

/-! ## Communication -/

theorem Party.next_ne (i : Party) : i.next ≠ i := (by decide : ∀ i : Party, i.next ≠ i) i
theorem Party.prev_ne (i : Party) : i.prev ≠ i := (by decide : ∀ i : Party, i.prev ≠ i) i

/-- Everyone sends to the next party and receives from the previous one. -/
theorem PW.ring {M : Party → Bytes} {k : Party → Bytes → Prog α} {Q : List Bytes → (Party → α) → Prop}
    (h : ∀ m, PW i (fun l => k l (if l = i then m else M l.prev)) (fun ms => E (m :: ms)) fun ms => Q (m :: ms)) :
    PW i (fun l => .send l.next (M l) (.recv l.prev (k l))) E Q := by
  intro r s a b h1 h2 h3 h4
  have n1 := Party.next_ne i
  have n2 := Party.prev_ne i
  have n3 := Party.next_ne_prev i
  have e1 : i.next.prev = i := Party.prev_next i
  have e2 : i.next.next = i.prev := Jmp.next_next i
  obtain ⟨s1, es1, h1⟩ := Local.send_ret h1
  obtain ⟨m1, r1, er1, h1⟩ := Local.recv_ret h1
  obtain ⟨s2, es2, h2⟩ := Local.send_ret h2
  obtain ⟨m2, r2, er2, h2⟩ := Local.recv_ret h2
  rw [e2] at es2
  rw [e1] at er2
  have hm : m2 = M i := by
    rw [es1, er2] at h3
    simp only [push_same] at h3
    exact (Compat.of_append (x := [M i]) (y := [m2]) h3).singleton.symm
  subst hm
  rw [es1, er2] at h3 ⊢
  rw [es2, er1] at h4 ⊢
  simp only [push_same] at h3 ⊢
  rw [push_ne n2.symm, push_ne n3] at h4 ⊢
  obtain he | ⟨g1, g2, o, o1, o2, hq⟩ := h m1 (fun l => if l = i then r1 else r2) (fun l => if l = i then s1 else s2) a b
    (by simpa using h1) (by simpa [n1, e1] using h2)
    (by simpa [n1] using Compat.of_append_eq (x := [M i]) h3) (by simpa [n1] using h4)
  · exact .inl (by simpa using he)
  simp only [n1, if_true, if_false] at g1 g2 hq
  exact .inr ⟨by rw [g1], g2, o, o1, o2, hq⟩

/-- Everyone sends to the previous party and receives from the next one. -/
theorem PW.ringBack {M : Party → Bytes} {k : Party → Bytes → Prog α} {Q : List Bytes → (Party → α) → Prop}
    (h : ∀ m, PW i (fun l => k l (if l = i then M i.next else m)) E Q) :
    PW i (fun l => .send l.prev (M l) (.recv l.next (k l))) E Q := by
  intro r s a b h1 h2 h3 h4
  have n1 := Party.next_ne i
  have n2 := Party.prev_ne i
  have n3 := Party.next_ne_prev i
  have e1 : i.next.prev = i := Party.prev_next i
  have e2 : i.next.next = i.prev := Jmp.next_next i
  obtain ⟨s1, es1, h1⟩ := Local.send_ret h1
  obtain ⟨m1, r1, er1, h1⟩ := Local.recv_ret h1
  obtain ⟨s2, es2, h2⟩ := Local.send_ret h2
  obtain ⟨m2, r2, er2, h2⟩ := Local.recv_ret h2
  rw [e1] at es2
  rw [e2] at er2
  have hm : m1 = M i.next := by
    rw [es2, er1] at h4
    simp only [push_same] at h4
    exact (Compat.of_append (x := [M i.next]) (y := [m1]) h4).singleton.symm
  subst hm
  rw [es1, er2] at h3 ⊢
  rw [es2, er1] at h4 ⊢
  simp only [push_same] at h4 ⊢
  rw [push_ne n2.symm, push_ne n3] at h3 ⊢
  obtain he | ⟨g1, g2, o, o1, o2, hq⟩ := h m2 (fun l => if l = i then r1 else r2) (fun l => if l = i then s1 else s2) a b
    (by simpa using h1) (by simpa [n1] using h2) (by simpa [n1] using h3)
    (by simpa [n1] using Compat.of_append_eq (x := [M i.next]) h4)
  · refine .inl ?_
    rw [push_ne n3.symm]
    simpa using he
  simp only [n1, if_true, if_false] at g1 g2 hq
  refine .inr ⟨g1, by rw [g2], o, o1, o2, ?_⟩
  rw [push_ne n3.symm]; exact hq

theorem digestCheck_sent {me : Party} {D : Bytes} {r s : Party → List Bytes} {u : Unit}
    (h : Local (Verif.digestCheck me D) r s (.ret u)) (j : Party) (hj : j ≠ me) : s j = [D] := by
  have key : ∀ (p : Prog Unit), Local p r s (.ret u) → ∀ k : Bytes → Bytes → Prog Unit,
      ∀ d1 d2 : Party, p = .send d1 D (.send d2 D (.recv d1 fun x => .recv d2 fun y => k x y)) →
      (∀ x y, k x y = .ret () ∨ ∃ e, k x y = .fail e) →
      ∀ j, (j = d1 ∨ j = d2) → d1 ≠ d2 → s j = [D] := by
    rintro p hp k d1 d2 rfl hk j hj hne
    obtain ⟨s1, rfl, h1⟩ := Local.send_ret hp
    obtain ⟨s2, rfl, h2⟩ := Local.send_ret h1
    obtain ⟨x, r1, rfl, h3⟩ := Local.recv_ret h2
    obtain ⟨y, r2, rfl, h4⟩ := Local.recv_ret h3
    rcases hk x y with e | ⟨e, e'⟩
    · rw [e] at h4
      obtain ⟨-, rfl, -⟩ := Local.ret_inv h4
      rcases hj with rfl | rfl
      · simp [push, hne]
      · simp [push, hne.symm]
    · rw [e'] at h4; cases h4
  match me, hj with
  | 0, hj =>
    refine key _ h (fun x y => if D ≠ x ∨ D ≠ y then .fail .verify else pure ()) 1 2 rfl ?_ j
      ((by decide : ∀ j : Party, j ≠ 0 → j = 1 ∨ j = 2) j hj) (by decide)
    intro x y; split
    · right; exact ⟨_, rfl⟩
    · left; rfl
  | 1, hj =>
    refine key _ h (fun x y => if x ≠ D ∨ x ≠ y then .fail .verify else pure ()) 0 2 rfl ?_ j
      ((by decide : ∀ j : Party, j ≠ 1 → j = 0 ∨ j = 2) j hj) (by decide)
    intro x y; split
    · right; exact ⟨_, rfl⟩
    · left; rfl
  | 2, hj =>
    refine key _ h (fun x y => if x ≠ y ∨ x ≠ D then .fail .verify else pure ()) 0 1 rfl ?_ j
      ((by decide : ∀ j : Party, j ≠ 2 → j = 0 ∨ j = 1) j hj) (by decide)
    intro x y; split
    · right; exact ⟨_, rfl⟩
    · left; rfl

/-- Two honest parties that get through the comparison of digests have the same digest. -/
theorem PW.digestCheck {D : Party → Bytes} {Q : List Bytes → (Party → Unit) → Prop}
    (h : D i = D i.next → Q [D i] (fun _ => ())) : PW i (fun k => Verif.digestCheck k (D k)) E Q := by
  intro r s a b h1 h2 h3 h4
  have n1 := Party.next_ne i
  have n2 := Party.prev_ne i
  have d1 := digestCheck_done h1 i.next n1
  have d2 := digestCheck_done h1 i.prev n2
  have d3 := digestCheck_done h2 i n1.symm
  have p1 := digestCheck_sent h1 i.next n1
  have p2 := digestCheck_sent h2 i n1.symm
  rw [p1, d3] at h3 ⊢
  rw [p2, d1] at h4 ⊢
  have e := h3.singleton
  rw [d2]
  exact .inr ⟨by rw [e], by rw [e], fun _ => (), rfl, rfl, h e⟩

theorem PW.hashZero {K : Nat} {H : Hash} {ws : Party → List (AShare K)} {Q : List Bytes → (Party → Unit) → Prop}
    (h : H.h ((ws i).flatMap (zeroBytes i)) = H.h ((ws i.next).flatMap (zeroBytes i.next)) →
      Q [H.h ((ws i).flatMap (zeroBytes i))] (fun _ => ())) : PW i (fun k => hashZeroVerify H k (ws k)) E Q :=
  PW.digestCheck (D := fun k => H.h ((ws k).flatMap (zeroBytes k))) h

/-- A vector to the next party: the honest `i` gets an arbitrary vector of the right length. -/
theorem PW.exchangeVec {x : Party → List (BitVec K)} {Q : List Bytes → (Party → List (BitVec K)) → Prop}
    (hl : (x i.next).length = (x i).length) (h : ∀ z : List (BitVec K), z.length = (x i).length →
      Q [ringSliceToBytes z] (fun k => if k = i then z else x k.prev)) :
    PW i (fun k => sendSliceAndReceiveVec k (x k)) E Q := by
  refine PW.ring (M := fun k => ringSliceToBytes (x k))
    (k := fun k m => Prog.ofExcept (ringVecFromBytes K m (x k).length)) fun m => PW.ofExcept ?_
  intro a h1 h2
  have n1 := Party.next_ne i
  simp only [if_true, n1, if_false, Party.prev_next] at h1 h2
  obtain ⟨l1, e1⟩ := ringVecFromBytes_ok h1
  rw [hl, ringVecFromBytes_roundtrip] at h2
  injection h2 with h2
  refine ⟨fun k => if k = i then a i else x k.prev, by simp, ?_, ?_⟩
  · simp only [n1, if_false, Party.prev_next, h2]
  · have := h (a i) l1
    rwa [e1] at this

/-! ## Joint message passing -/

namespace Jmp

variable {st : Party → JmpSt G}

theorem jmpSendReceiveMany_pw {snd buf : Party → List (BitVec K)} (hl : (snd i.next).length = (snd i).length)
    {Q : List Bytes → (Party → List (BitVec K)) → (Party → JmpSt G) → Prop}
    (h : ∀ z : List (BitVec K), z.length = (snd i).length → ∀ c : Party → List (BitVec K),
      c = (fun k => if k = i then z else snd k.prev) → Q [ringSliceToBytes z] c
      (fun k => ⟨(st k).prf, (st k).sendQueuePrev ++ ringSliceToBytes (buf k),
        (st k).rcvQueueNext ++ ringSliceToBytes (c k)⟩)) :
    PWS i (fun k => jmpSendReceiveMany k (snd k) (buf k)) st E Q := by
  have : ∀ k, (jmpSendReceiveMany k (snd k) (buf k) : Proto (JmpSt G) _) = (do
      Proto.step fun s => ((), { s with sendQueuePrev := s.sendQueuePrev ++ ringSliceToBytes (buf k) })
      let z ← Proto.net (sendSliceAndReceiveVec k (snd k))
      Proto.step fun s => (z, { s with rcvQueueNext := s.rcvQueueNext ++ ringSliceToBytes z })) := by
    intro k
    unfold jmpSendReceiveMany jmpBufferMany jmpSendMany jmpReceiveMany
    simp only [foldl_toBytes]
    rfl
  refine PWS.congr this ?_
  refine PWS.bind (PWS.step ?_)
  refine PWS.bind (PWS.net (PW.exchangeVec hl ?_))
  intro z hz
  refine PWS.step ?_
  exact h z hz _ rfl

theorem jmpSendReceive_pw {snd buf : Party → BitVec K}
    {Q : List Bytes → (Party → BitVec K) → (Party → JmpSt G) → Prop}
    (h : ∀ z : BitVec K, ∀ c : Party → BitVec K,
      c = (fun k => if k = i then z else snd k.prev) → Q [toBytes z] c
      (fun k => ⟨(st k).prf, (st k).sendQueuePrev ++ toBytes (buf k), (st k).rcvQueueNext ++ toBytes (c k)⟩)) :
    PWS i (fun k => jmpSendReceive k (snd k) (buf k)) st E Q := by
  unfold jmpSendReceive
  refine PWS.bind (PWS.step ?_)
  have : ∀ k, ((do jmpSend k (snd k); jmpReceive K k : Proto (JmpSt G) _)) = (do
      let z ← Proto.net (Prog.send k.next (toBytes (snd k)) (.recv k.prev fun m => Prog.ofExcept (fromBytes K m)))
      Proto.step fun s => (z, { s with rcvQueueNext := s.rcvQueueNext ++ toBytes z })) := by
    intro k
    rfl
  refine PWS.congr this ?_
  refine PWS.bind (PWS.net (PW.ring (M := fun k => toBytes (snd k)) (k := fun _ m => Prog.ofExcept (fromBytes K m))
    fun m => PW.ofExcept ?_))
  intro a h1 h2
  have n1 := Party.next_ne i
  simp only [if_true, n1, if_false, Party.prev_next] at h1 h2
  rw [fromBytes_toBytes] at h2
  injection h2 with h2
  refine ⟨fun k => if k = i then a i else snd k.prev, by simp, by simp [n1, h2], ?_⟩
  refine PWS.step ?_
  have := h (a i) _ rfl
  rwa [toBytes_of_fromBytes h1] at this

/-- The queues without their contents. -/
def cleared (st : Party → JmpSt G) : Party → JmpSt G := fun k => ⟨(st k).prf, [], []⟩

theorem jmpVerify_pw {H : Hash} {Q : List Bytes → (Party → Unit) → (Party → JmpSt G) → Prop}
    (h : H.h (st i).rcvQueueNext = H.h (st i.next).sendQueuePrev → Q [] (fun _ => ()) (cleared st)) :
    PWS i (fun k => jmpVerify H k) st E Q := by
  refine PWS.congr (q := fun k => (do
    let x ← Proto.step fun s : JmpSt G =>
      ((H.h s.sendQueuePrev, H.h s.rcvQueueNext), { s with sendQueuePrev := [], rcvQueueNext := [] })
    let m ← Proto.net (Prog.send k.prev x.1 (.recv k.next .ret))
    Proto.lift (if m ≠ x.2 then .error .jmpVerify else .ok ()))) (fun k => ?_) ?_
  · unfold jmpVerify
    funext s
    simp only [Proto.step, bind, StateT.bind, Prog.bind, Proto.net, sendPrev, recvNext, Proto.lift]
    congr 2
    funext m
    split
    · rfl
    · rfl
  refine PWS.bind (PWS.step ?_)
  refine PWS.bind (PWS.net (PW.ringBack (M := fun k => H.h (st k).sendQueuePrev) (k := fun _ m => .ret m)
    fun m => PW.ret (o := fun l => if l = i then H.h (st i.next).sendQueuePrev else m) ?_))
  refine PWS.lift ?_
  intro a h1 h2
  refine ⟨fun _ => (), rfl, rfl, ?_⟩
  simp only [if_true] at h1
  split at h1
  · cases h1
  · next he => push Not at he; exact h he.symm

end Jmp

end Verif
