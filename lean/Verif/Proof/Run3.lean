import Verif.Proof.Fail
import Verif.Proof.AShare

/-! # Symbolic execution of three explicit programs -/

namespace Verif

variable {σ τ α β : Type}

/-- The channel contents given by six explicit lists. -/
def chan6 (c01 c02 c10 c12 c20 c21 : List Bytes) : Party → Party → List Bytes
  | 0, 1 => c01
  | 0, 2 => c02
  | 1, 0 => c10
  | 1, 2 => c12
  | 2, 0 => c20
  | 2, 1 => c21
  | _, _ => []

/-- Three explicit programs. -/
def prog3 (p0 p1 p2 : Prog α) : Party → Prog α
  | 0 => p0
  | 1 => p1
  | 2 => p2

/-- From these programs and channel contents some schedule ends with all parties returning, channels empty,
and the results satisfying `Q`. -/
def R3 (p0 p1 p2 : Prog α) (c01 c02 c10 c12 c20 c21 : List Bytes) (Q : (Party → α) → Prop) : Prop :=
  ∃ r, (∃ n, BStepsN two n ⟨prog3 p0 p1 p2, chan6 c01 c02 c10 c12 c20 c21⟩ (Config.final r)) ∧ Q r

namespace R3

variable {p0 p1 p2 : Prog α} {c01 c02 c10 c12 c20 c21 : List Bytes} {Q : (Party → α) → Prop}

theorem of_step {p0 p1 p2 q0 q1 q2 : Prog α} {c01 c02 c10 c12 c20 c21 d01 d02 d10 d12 d20 d21 : List Bytes}
    (i : Party) (h : ∃ c, BStep two i (⟨prog3 p0 p1 p2, chan6 c01 c02 c10 c12 c20 c21⟩ : Config α) c ∧
      c.prog = prog3 q0 q1 q2 ∧ c.chan = chan6 d01 d02 d10 d12 d20 d21)
    (ht : R3 q0 q1 q2 d01 d02 d10 d12 d20 d21 Q) : R3 p0 p1 p2 c01 c02 c10 c12 c20 c21 Q := by
  obtain ⟨c, hs, h1, h2⟩ := h
  obtain ⟨r, ⟨n, hn⟩, hq⟩ := ht
  refine ⟨r, ⟨n + 1, .succ i hs ?_⟩, hq⟩
  have : c = ⟨prog3 q0 q1 q2, chan6 d01 d02 d10 d12 d20 d21⟩ := Config.ext h1 h2
  rw [this]; exact hn

macro "step3_side" : tactic =>
  `(tactic| (refine ⟨?_, ?_⟩
             · funext i; fin_cases i <;> rfl
             · funext s d; fin_cases s <;> fin_cases d <;> rfl))

theorem send01 {m : Bytes} {k : Prog α} (h : R3 k p1 p2 [m] c02 c10 c12 c20 c21 Q) :
    R3 (.send 1 m k) p1 p2 [] c02 c10 c12 c20 c21 Q :=
  of_step 0 ⟨_, .send (d := 1) (m := m) (k := k) rfl Nat.two_pos, by step3_side⟩ h
theorem send01' {m x : Bytes} {k : Prog α} (h : R3 k p1 p2 [x, m] c02 c10 c12 c20 c21 Q) :
    R3 (.send 1 m k) p1 p2 [x] c02 c10 c12 c20 c21 Q :=
  of_step 0 ⟨_, .send (d := 1) (m := m) (k := k) rfl Nat.one_lt_two, by step3_side⟩ h
theorem send02 {m : Bytes} {k : Prog α} (h : R3 k p1 p2 c01 [m] c10 c12 c20 c21 Q) :
    R3 (.send 2 m k) p1 p2 c01 [] c10 c12 c20 c21 Q :=
  of_step 0 ⟨_, .send (d := 2) (m := m) (k := k) rfl Nat.two_pos, by step3_side⟩ h
theorem send02' {m x : Bytes} {k : Prog α} (h : R3 k p1 p2 c01 [x, m] c10 c12 c20 c21 Q) :
    R3 (.send 2 m k) p1 p2 c01 [x] c10 c12 c20 c21 Q :=
  of_step 0 ⟨_, .send (d := 2) (m := m) (k := k) rfl Nat.one_lt_two, by step3_side⟩ h
theorem send10 {m : Bytes} {k : Prog α} (h : R3 p0 k p2 c01 c02 [m] c12 c20 c21 Q) :
    R3 p0 (.send 0 m k) p2 c01 c02 [] c12 c20 c21 Q :=
  of_step 1 ⟨_, .send (d := 0) (m := m) (k := k) rfl Nat.two_pos, by step3_side⟩ h
theorem send10' {m x : Bytes} {k : Prog α} (h : R3 p0 k p2 c01 c02 [x, m] c12 c20 c21 Q) :
    R3 p0 (.send 0 m k) p2 c01 c02 [x] c12 c20 c21 Q :=
  of_step 1 ⟨_, .send (d := 0) (m := m) (k := k) rfl Nat.one_lt_two, by step3_side⟩ h
theorem send12 {m : Bytes} {k : Prog α} (h : R3 p0 k p2 c01 c02 c10 [m] c20 c21 Q) :
    R3 p0 (.send 2 m k) p2 c01 c02 c10 [] c20 c21 Q :=
  of_step 1 ⟨_, .send (d := 2) (m := m) (k := k) rfl Nat.two_pos, by step3_side⟩ h
theorem send12' {m x : Bytes} {k : Prog α} (h : R3 p0 k p2 c01 c02 c10 [x, m] c20 c21 Q) :
    R3 p0 (.send 2 m k) p2 c01 c02 c10 [x] c20 c21 Q :=
  of_step 1 ⟨_, .send (d := 2) (m := m) (k := k) rfl Nat.one_lt_two, by step3_side⟩ h
theorem send20 {m : Bytes} {k : Prog α} (h : R3 p0 p1 k c01 c02 c10 c12 [m] c21 Q) :
    R3 p0 p1 (.send 0 m k) c01 c02 c10 c12 [] c21 Q :=
  of_step 2 ⟨_, .send (d := 0) (m := m) (k := k) rfl Nat.two_pos, by step3_side⟩ h
theorem send20' {m x : Bytes} {k : Prog α} (h : R3 p0 p1 k c01 c02 c10 c12 [x, m] c21 Q) :
    R3 p0 p1 (.send 0 m k) c01 c02 c10 c12 [x] c21 Q :=
  of_step 2 ⟨_, .send (d := 0) (m := m) (k := k) rfl Nat.one_lt_two, by step3_side⟩ h
theorem send21 {m : Bytes} {k : Prog α} (h : R3 p0 p1 k c01 c02 c10 c12 c20 [m] Q) :
    R3 p0 p1 (.send 1 m k) c01 c02 c10 c12 c20 [] Q :=
  of_step 2 ⟨_, .send (d := 1) (m := m) (k := k) rfl Nat.two_pos, by step3_side⟩ h
theorem send21' {m x : Bytes} {k : Prog α} (h : R3 p0 p1 k c01 c02 c10 c12 c20 [x, m] Q) :
    R3 p0 p1 (.send 1 m k) c01 c02 c10 c12 c20 [x] Q :=
  of_step 2 ⟨_, .send (d := 1) (m := m) (k := k) rfl Nat.one_lt_two, by step3_side⟩ h

theorem recv10 {m : Bytes} {k : Bytes → Prog α} (h : R3 (k m) p1 p2 c01 c02 c10 c12 c20 c21 Q) :
    R3 (.recv 1 k) p1 p2 c01 c02 (m :: c10) c12 c20 c21 Q :=
  of_step 0 ⟨_, .recv (s := 1) (m := m) (k := k) (rest := c10) rfl rfl, by step3_side⟩ h
theorem recv20 {m : Bytes} {k : Bytes → Prog α} (h : R3 (k m) p1 p2 c01 c02 c10 c12 c20 c21 Q) :
    R3 (.recv 2 k) p1 p2 c01 c02 c10 c12 (m :: c20) c21 Q :=
  of_step 0 ⟨_, .recv (s := 2) (m := m) (k := k) (rest := c20) rfl rfl, by step3_side⟩ h
theorem recv01 {m : Bytes} {k : Bytes → Prog α} (h : R3 p0 (k m) p2 c01 c02 c10 c12 c20 c21 Q) :
    R3 p0 (.recv 0 k) p2 (m :: c01) c02 c10 c12 c20 c21 Q :=
  of_step 1 ⟨_, .recv (s := 0) (m := m) (k := k) (rest := c01) rfl rfl, by step3_side⟩ h
theorem recv21 {m : Bytes} {k : Bytes → Prog α} (h : R3 p0 (k m) p2 c01 c02 c10 c12 c20 c21 Q) :
    R3 p0 (.recv 2 k) p2 c01 c02 c10 c12 c20 (m :: c21) Q :=
  of_step 1 ⟨_, .recv (s := 2) (m := m) (k := k) (rest := c21) rfl rfl, by step3_side⟩ h
theorem recv02 {m : Bytes} {k : Bytes → Prog α} (h : R3 p0 p1 (k m) c01 c02 c10 c12 c20 c21 Q) :
    R3 p0 p1 (.recv 0 k) c01 (m :: c02) c10 c12 c20 c21 Q :=
  of_step 2 ⟨_, .recv (s := 0) (m := m) (k := k) (rest := c02) rfl rfl, by step3_side⟩ h
theorem recv12 {m : Bytes} {k : Bytes → Prog α} (h : R3 p0 p1 (k m) c01 c02 c10 c12 c20 c21 Q) :
    R3 p0 p1 (.recv 1 k) c01 c02 c10 (m :: c12) c20 c21 Q :=
  of_step 2 ⟨_, .recv (s := 1) (m := m) (k := k) (rest := c12) rfl rfl, by step3_side⟩ h

theorem done {r0 r1 r2 : α} {Q : (Party → α) → Prop}
    (h : ∀ r : Party → α, r 0 = r0 → r 1 = r1 → r 2 = r2 → Q r) :
    R3 (.ret r0) (.ret r1) (.ret r2) [] [] [] [] [] [] Q := by
  refine ⟨fun i => match i with | 0 => r0 | 1 => r1 | 2 => r2, ⟨0, ?_⟩, h _ rfl rfl rfl⟩
  have : (⟨prog3 (.ret r0) (.ret r1) (.ret r2), chan6 [] [] [] [] [] []⟩ : Config α)
      = Config.final (fun i => match i with | 0 => r0 | 1 => r1 | 2 => r2) := by
    apply Config.ext
    · funext i; fin_cases i <;> rfl
    · funext s d; fin_cases s <;> fin_cases d <;> rfl
  rw [this]; exact .zero _

/-- Hand over to a joint specification once all channels are empty. -/
theorem joint {p : Party → Prog α} (h0 : p0 = p 0) (h1 : p1 = p 1) (h2 : p2 = p 2) (h : WP p Q) :
    R3 p0 p1 p2 [] [] [] [] [] [] Q := by
  subst h0 h1 h2
  obtain ⟨r, ⟨n, hn⟩, hq⟩ := h
  refine ⟨r, ⟨n, ?_⟩, hq⟩
  have : (⟨prog3 (p 0) (p 1) (p 2), chan6 [] [] [] [] [] []⟩ : Config α) = Config.init p := by
    apply Config.ext
    · funext i; fin_cases i <;> rfl
    · funext s d; fin_cases s <;> fin_cases d <;> rfl
  rw [this]; exact hn

end R3

theorem WP.of3 {p : Party → Prog α} {Q : (Party → α) → Prop}
    (h : R3 (p 0) (p 1) (p 2) [] [] [] [] [] [] Q) : WP p Q := by
  obtain ⟨r, ⟨n, hn⟩, hq⟩ := h
  refine ⟨r, ⟨n, ?_⟩, hq⟩
  have : (⟨prog3 (p 0) (p 1) (p 2), chan6 [] [] [] [] [] []⟩ : Config α) = Config.init p := by
    apply Config.ext
    · funext i; fin_cases i <;> rfl
    · funext s d; fin_cases s <;> fin_cases d <;> rfl
  rw [this] at hn; exact hn

/-- Run the explicit programs as far as sends and receives go. -/
macro "run3" : tactic =>
  `(tactic| repeat (first
      | apply R3.send01 | apply R3.send02 | apply R3.send10 | apply R3.send12 | apply R3.send20 | apply R3.send21
      | apply R3.send01' | apply R3.send02' | apply R3.send10' | apply R3.send12' | apply R3.send20' | apply R3.send21'
      | apply R3.recv10 | apply R3.recv20 | apply R3.recv01 | apply R3.recv21 | apply R3.recv02 | apply R3.recv12
      | (simp only [List.nil_append, List.cons_append])))

/-- Everybody sends its message to both others and collects all three. -/
theorem WP.broadcast {m : Party → Bytes} {Q : (Party → List Bytes) → Prop}
    (h : Q (fun _ => [m 0, m 1, m 2])) : WP (fun i => broadcast i (m i)) Q := by
  apply WP.of3
  show R3 (.send 1 (m 0) (.send 2 (m 0) (.recv 1 fun x => .recv 2 fun y => .ret [m 0, x, y])))
    (.send 0 (m 1) (.send 2 (m 1) (.recv 0 fun x => .recv 2 fun y => .ret [x, m 1, y])))
    (.send 0 (m 2) (.send 1 (m 2) (.recv 0 fun x => .recv 1 fun y => .ret [x, y, m 2]))) [] [] [] [] [] [] Q
  run3
  apply R3.done
  intro r h0 h1 h2
  have : r = fun _ => [m 0, m 1, m 2] := party_ext h0 h1 h2
  rw [this]; exact h

/-! ## Normalising stateful code -/

theorem Proto.bind_apply {p : Proto σ α} {k : α → Proto σ β} (s : σ) :
    (p >>= k) s = p s >>= fun r => k r.1 r.2 := rfl
theorem Proto.pure_apply (a : α) (s : σ) : (pure a : Proto σ α) s = .ret (a, s) := rfl
theorem Proto.net_apply (p : Prog α) (s : σ) : Proto.net p s = p >>= fun a => .ret (a, s) := rfl
theorem Proto.step_apply (f : σ → α × σ) (s : σ) : Proto.step f s = .ret (f s) := rfl
theorem Proto.throw_apply (e : Err) (s : σ) : (Proto.throw e : Proto σ α) s = .fail e := rfl
theorem Proto.lift_ok_apply (a : α) (s : σ) : (Proto.lift (.ok a) : Proto σ α) s = .ret (a, s) := rfl
theorem Proto.get_apply (s : σ) : (get : Proto σ σ) s = .ret (s, s) := rfl

/-- Unfold stateful code to sends and receives. -/
macro "proto_norm" "[" ls:Lean.Parser.Tactic.simpLemma,* "]" : tactic =>
  `(tactic| simp only [Proto.bind_apply, Proto.pure_apply, Proto.net_apply, Proto.step_apply, Proto.throw_apply,
      Proto.lift_ok_apply, Proto.get_apply, Prog.send_bind, Prog.recv_bind, Prog.ret_bind, Prog.fail_bind,
      Prog.pure_eq, Prog.ofExcept_ok, sendNext, sendPrev, recvNext, recvPrev,
      Party.next_zero, Party.next_one, Party.next_two, Party.prev_zero, Party.prev_one, Party.prev_two, $ls,*])

theorem WPS.of3 {p : Party → Proto σ α} {st : Party → σ} {Q : (Party → α) → (Party → σ) → Prop}
    (h : R3 (p 0 (st 0)) (p 1 (st 1)) (p 2 (st 2)) [] [] [] [] [] []
      (fun r => Q (fun i => (r i).1) (fun i => (r i).2))) : WPS p st Q := WP.of3 h

end Verif
