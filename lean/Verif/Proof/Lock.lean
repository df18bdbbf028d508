import Verif.Spec.PrivacyMal
import Verif.Proof.UniCount
import Verif.Proof.MalAby3

/-!
# Two runs in lock-step

Two worlds (indexed by `Bool`) in which the parties run the same code with different secrets and different unknown tapes.
`Lock i u p st Q`: both runs succeed whatever comes on the tape after the pieces `u`, party `i` receives the same messages in
both of them, and the results and the final states satisfy `Q`.
-/

namespace Verif

open Jmp

variable {f : Bytes → List Bool} {α β : Type} {i : Party}

/-! ## Network code -/

/-- Both runs succeed with the results `a`, and party `i` receives the same messages. -/
def Talk (i : Party) (p : Bool → Party → Prog α) (a : Bool → Party → α) : Prop :=
  ∃ l : Bool → Party → Log,
    (∀ w (acc : Party → Log), Runs (fun j => (p w j).record (acc j)) fun j => (acc j ++ l w j, a w j)) ∧ l false i = l true i

theorem Talk.vec {K : Nat} {x : Bool → Party → List (BitVec K)} (hl : ∀ w j, (x w j).length = (x w j.prev).length)
    (h : x false i.prev = x true i.prev) :
    Talk i (fun w j => sendSliceAndReceiveVec j (x w j)) fun w j => x w j.prev := by
  refine ⟨fun w j => [(j.prev, ringSliceToBytes (x w j.prev))], fun w acc => ?_, by simp only [h]⟩
  have e : ∀ j, sendSliceAndReceiveVec j (x w j) = Prog.send j.next (ringSliceToBytes (x w j)) (.recv j.prev fun m =>
      Prog.ofExcept (ringVecFromBytes K m (x w j).length)) := fun j => by
    unfold sendSliceAndReceiveVec sendAndReceive sendNext recvPrev
    simp only [Prog.send_bind, Prog.ret_bind, Prog.recv_bind]
  simp only [e]
  refine Uni.record_ring (fun j => ringSliceToBytes (x w j)) _ acc ?_
  have e2 : ∀ j, ringVecFromBytes K (ringSliceToBytes (x w j.prev)) (x w j).length = .ok (x w j.prev) := fun j => by
    rw [hl, ringVecFromBytes_roundtrip]
  simp only [e2]
  exact ⟨0, .zero _⟩

theorem Talk.value {K : Nat} {x : Bool → Party → BitVec K} (h : x false i.prev = x true i.prev) :
    Talk i (fun w j => sendAndReceiveValue j (x w j)) fun w j => x w j.prev := by
  refine ⟨fun w j => [(j.prev, toBytes (x w j.prev))], fun w acc => ?_, by simp only [h]⟩
  have e : ∀ j, sendAndReceiveValue j (x w j) = Prog.send j.next (toBytes (x w j)) (.recv j.prev fun m =>
      Prog.ofExcept (fromBytes K m)) := fun j => by
    unfold sendAndReceiveValue sendAndReceive sendNext recvPrev
    simp only [Prog.send_bind, Prog.ret_bind, Prog.recv_bind]
  simp only [e]
  refine Uni.record_ring (fun j => toBytes (x w j)) _ acc ?_
  simp only [fromBytes_toBytes]
  exact ⟨0, .zero _⟩

theorem Talk.back {m : Bool → Party → Bytes} (h : m false i.next = m true i.next) :
    Talk i (fun w j => (do sendPrev j (m w j); recvNext j)) fun w j => m w j.next := by
  refine ⟨fun w j => [(j.next, m w j.next)], fun w acc => ?_, by simp only [h]⟩
  obtain ⟨r, hr, rfl⟩ := WP.ringBack (m := m w) (k := fun j x => Prog.ret (acc j ++ [(j.next, x)], x))
    (Q := (· = fun j => (acc j ++ [(j.next, m w j.next)], m w j.next))) (WP.ret rfl)
  exact hr

theorem Talk.broadcast {m : Bool → Party → Bytes} (h : ∀ j, m false j = m true j) :
    Talk i (fun w j => broadcast j (m w j)) fun w _ => [m w 0, m w 1, m w 2] := by
  refine ⟨fun w j => match j with
    | 0 => [(1, m w 1), (2, m w 2)]
    | 1 => [(0, m w 0), (2, m w 2)]
    | 2 => [(0, m w 0), (1, m w 1)], fun w acc => ?_, by simp only [h]⟩
  suffices WP (fun j => (Verif.broadcast j (m w j)).record (acc j)) (· = fun j => (acc j ++ (match j with
    | 0 => [(1, m w 1), (2, m w 2)]
    | 1 => [(0, m w 0), (2, m w 2)]
    | 2 => [(0, m w 0), (1, m w 1)] : Log), [m w 0, m w 1, m w 2])) by
    obtain ⟨r, hr, e⟩ := this
    rw [e] at hr
    exact hr
  apply WP.of3
  show R3 (.send 1 (m w 0) (.send 2 (m w 0) (.recv 1 fun x => .recv 2 fun y => .ret (acc 0 ++ [(1, x)] ++ [(2, y)], [m w 0, x, y]))))
    (.send 0 (m w 1) (.send 2 (m w 1) (.recv 0 fun x => .recv 2 fun y => .ret (acc 1 ++ [(0, x)] ++ [(2, y)], [x, m w 1, y]))))
    (.send 0 (m w 2) (.send 1 (m w 2) (.recv 0 fun x => .recv 1 fun y => .ret (acc 2 ++ [(0, x)] ++ [(1, y)], [x, y, m w 2]))))
    [] [] [] [] [] [] _
  run3
  apply R3.done
  intro r h0 h1 h2
  exact party_ext (by simp [h0]) (by simp [h1]) (by simp [h2])

theorem Talk.hashZero (H : Hash) {K n : Nat} {ws : Bool → Party → List (AShare K)}
    (hz : ∀ w, Rels SharesOf (List.replicate n 0) (ws w)) (h : ws false i = ws true i) :
    Talk i (fun w j => hashZeroVerify H j (ws w j)) fun _ _ => () := by
  have key : ∀ w j j', (ws w j).flatMap (zeroBytes j) = (ws w j').flatMap (zeroBytes j') := by
    suffices ∀ w j, (ws w j).flatMap (zeroBytes j) = (ws w 0).flatMap (zeroBytes 0) from
      fun w j j' => (this w j).trans (this w j').symm
    intro w j
    have := hz w
    clear hz h
    revert this
    generalize ws w = v
    intro hv
    induction n generalizing v with
    | zero => rw [hv.eq_nil]; rfl
    | succ n ih =>
      obtain ⟨x, v', hx, h', rfl⟩ := Rels.uncons hv
      simp only [List.flatMap_cons, zeroBytes_agree hx j, ih _ h']
  obtain ⟨l, hl, e⟩ := Talk.broadcast (i := i) (m := fun w j => H.h ((ws w j).flatMap (zeroBytes j))) fun j => by
    show H.h ((ws false j).flatMap _) = H.h ((ws true j).flatMap _)
    rw [key false j i, key true j i, h]
  refine ⟨l, fun w acc => ?_, e⟩
  have e3 : ∀ j, (hashZeroVerify H j (ws w j)).record (acc j) = _ := fun j => Prog.record_bind _ _ _
  simp only [e3]
  refine (hl w acc).bind ?_
  have e1 := key w 1 0
  have e2 := key w 2 0
  simp only [e1, e2]
  have : ∀ j, (do
      let h0 ← Prog.ofExcept (idx [H.h ((ws w 0).flatMap (zeroBytes 0)), H.h ((ws w 0).flatMap (zeroBytes 0)),
        H.h ((ws w 0).flatMap (zeroBytes 0))] 0)
      let h1 ← Prog.ofExcept (idx [H.h ((ws w 0).flatMap (zeroBytes 0)), H.h ((ws w 0).flatMap (zeroBytes 0)),
        H.h ((ws w 0).flatMap (zeroBytes 0))] 1)
      let h2 ← Prog.ofExcept (idx [H.h ((ws w 0).flatMap (zeroBytes 0)), H.h ((ws w 0).flatMap (zeroBytes 0)),
        H.h ((ws w 0).flatMap (zeroBytes 0))] 2)
      if h0 ≠ h1 ∨ h0 ≠ h2 then .fail .verify else Pure.pure () : Prog Unit).record (acc j ++ l w j) =
      .ret (acc j ++ l w j, ()) := fun j => by
    simp [idx]
  simp only [this]
  exact ⟨0, .zero _⟩

/-! ## States with tapes -/

theorem tapeIn_self (t : List Bool) (st : Party → JmpSt (idealPrg f)) : tapeIn i t st i = st i := by
  unfold tapeIn
  rw [if_neg ((by decide : ∀ c : Party, c ≠ c.prev) i), if_neg ((by decide : ∀ c : Party, c ≠ c.next) i)]

theorem tapeIn_sendQueue (t : List Bool) (st : Party → JmpSt (idealPrg f)) (j : Party) :
    (tapeIn i t st j).sendQueuePrev = (st j).sendQueuePrev := by
  unfold tapeIn; split_ifs <;> rfl

theorem tapeIn_rcvQueue (t : List Bool) (st : Party → JmpSt (idealPrg f)) (j : Party) :
    (tapeIn i t st j).rcvQueueNext = (st j).rcvQueueNext := by
  unfold tapeIn; split_ifs <;> rfl

/-- The tape of the generator `my`. -/
def JmpSt.tapeA (s : JmpSt (idealPrg f)) : List Bool := s.prf.my
/-- The tape of the generator `next`. -/
def JmpSt.tapeB (s : JmpSt (idealPrg f)) : List Bool := s.prf.next
/-- After `k` bits have been drawn from both generators. -/
def JmpSt.adv (k : Nat) (s : JmpSt (idealPrg f)) : JmpSt (idealPrg f) :=
  { s with prf := ⟨s.tapeA.drop k, s.tapeB.drop k⟩ }

theorem tapeIn_adv {k : Nat} {u : List Bool} (hu : u.length = k) (t : List Bool) (st : Party → JmpSt (idealPrg f)) (j : Party) :
    (tapeIn i (u ++ t) st j).adv k = tapeIn i t (fun j => (st j).adv k) j := by
  subst hu
  unfold tapeIn
  split_ifs <;> simp [JmpSt.adv, JmpSt.tapeA, JmpSt.tapeB]

theorem tapeIn_tapeA (t : List Bool) (st : Party → JmpSt (idealPrg f)) (j : Party) :
    (tapeIn i t st j).tapeA = if j = i.next then t else (st j).tapeA := by
  unfold tapeIn
  have := (by decide : ∀ c : Party, c.next ≠ c.prev) i
  split_ifs <;> first | rfl | (subst_vars; exact absurd ‹_› (by simp_all))

theorem tapeIn_tapeB (t : List Bool) (st : Party → JmpSt (idealPrg f)) (j : Party) :
    (tapeIn i t st j).tapeB = if j = i.prev then t else (st j).tapeB := by
  unfold tapeIn
  split_ifs <;> rfl

/-- The invariant: in both worlds the state is consistent, and party `i` has the same state in both. -/
def Twin (i : Party) (st : Bool → Party → JmpSt (idealPrg f)) : Prop :=
  (∀ w t, JmpOk (tapeIn i t (st w))) ∧ st false i = st true i

theorem Twin.prev_tapeA {st : Bool → Party → JmpSt (idealPrg f)} (h : Twin i st) (w : Bool) :
    (st w i.prev).tapeA = (st w i).tapeB := by
  have h1 := ((h.1 w []).1 i : _ = _)
  have h2 : (tapeIn i [] (st w) i).tapeB = (tapeIn i [] (st w) i.prev).tapeA := h1
  rw [tapeIn_tapeA, tapeIn_tapeB, if_neg ((by decide : ∀ c : Party, c.prev ≠ c.next) i),
    if_neg ((by decide : ∀ c : Party, c ≠ c.prev) i)] at h2
  exact h2.symm

/-! ## Protocol code -/

/-- See the head of this file. -/
def Lock (i : Party) (u : Bool → List Bool) (p : Bool → Party → Proto (JmpSt (idealPrg f)) α)
    (st : Bool → Party → JmpSt (idealPrg f)) (Q : (Bool → Party → α) → (Bool → Party → JmpSt (idealPrg f)) → Prop) : Prop :=
  ∃ (l : Bool → Party → Log) (a : Bool → Party → α) (t : Bool → Party → JmpSt (idealPrg f)),
    (∀ w (rest : List Bool) (acc : Party → Log), Runs (fun j => (p w j (tapeIn i (u w ++ rest) (st w) j)).record (acc j))
      fun j => (acc j ++ l w j, (a w j, tapeIn i rest (t w) j))) ∧ l false i = l true i ∧ Q a t

namespace Lock

variable {u : Bool → List Bool} {st : Bool → Party → JmpSt (idealPrg f)}

theorem mono {p : Bool → Party → Proto (JmpSt (idealPrg f)) α} {Q Q' : (Bool → Party → α) → (Bool → Party → JmpSt (idealPrg f)) → Prop}
    (h : Lock i u p st Q) (hQ : ∀ a t, Q a t → Q' a t) : Lock i u p st Q' := by
  obtain ⟨l, a, t, h1, h2, h3⟩ := h
  exact ⟨l, a, t, h1, h2, hQ a t h3⟩

theorem congr {p q : Bool → Party → Proto (JmpSt (idealPrg f)) α} {Q : (Bool → Party → α) → (Bool → Party → JmpSt (idealPrg f)) → Prop}
    (hpq : ∀ w j, p w j = q w j) (h : Lock i u q st Q) : Lock i u p st Q := by
  rwa [show p = q from funext fun w => funext fun j => hpq w j]

/-- Code without messages. -/
theorem loc {p : Bool → Party → Proto (JmpSt (idealPrg f)) α} {Q : (Bool → Party → α) → (Bool → Party → JmpSt (idealPrg f)) → Prop}
    {a : Bool → Party → α} {t : Bool → Party → JmpSt (idealPrg f)}
    (h : ∀ w rest j, p w j (tapeIn i (u w ++ rest) (st w) j) = .ret (a w j, tapeIn i rest (t w) j)) (hQ : Q a t) :
    Lock i u p st Q := by
  refine ⟨fun _ _ => [], a, t, fun w rest acc => ?_, rfl, hQ⟩
  simp only [h, List.append_nil]
  exact ⟨0, .zero _⟩

theorem pure {a : Bool → Party → α} {Q : (Bool → Party → α) → (Bool → Party → JmpSt (idealPrg f)) → Prop} (h : Q a st) :
    Lock i (fun _ => []) (fun w j => (Pure.pure (a w j) : Proto (JmpSt (idealPrg f)) α)) st Q :=
  loc (a := a) (t := st) (fun _ _ _ => rfl) h

theorem lift {x : Bool → Party → Except Err α} {a : Bool → Party → α}
    {Q : (Bool → Party → α) → (Bool → Party → JmpSt (idealPrg f)) → Prop} (hx : ∀ w j, x w j = .ok (a w j)) (h : Q a st) :
    Lock i (fun _ => []) (fun w j => (Proto.lift (x w j) : Proto (JmpSt (idealPrg f)) α)) st Q :=
  congr (q := fun w j => (Pure.pure (a w j) : Proto (JmpSt (idealPrg f)) α)) (fun w j => by rw [hx]; rfl) (pure h)

theorem ite_neg {c : Bool → Party → Prop} [∀ w k, Decidable (c w k)] {p q : Bool → Party → Proto (JmpSt (idealPrg f)) α}
    {Q : (Bool → Party → α) → (Bool → Party → JmpSt (idealPrg f)) → Prop} (hc : ∀ w k, ¬ c w k) (h : Lock i u q st Q) :
    Lock i u (fun w k => if c w k then p w k else q w k) st Q :=
  congr (fun w k => if_neg (hc w k)) h

theorem bind {u' : Bool → List Bool} {p : Bool → Party → Proto (JmpSt (idealPrg f)) α}
    {k : Bool → Party → α → Proto (JmpSt (idealPrg f)) β} {Q : (Bool → Party → β) → (Bool → Party → JmpSt (idealPrg f)) → Prop}
    (h : Lock i u p st fun a t => Lock i u' (fun w j => k w j (a w j)) t Q) :
    Lock i (fun w => u w ++ u' w) (fun w j => p w j >>= k w j) st Q := by
  obtain ⟨l, a, t, h1, h2, l', a', t', k1, k2, k3⟩ := h
  refine ⟨fun w j => l w j ++ l' w j, a', t', fun w rest acc => ?_, by show l false i ++ l' false i = l true i ++ l' true i; rw [h2, k2], k3⟩
  have e : ∀ j, ((p w j >>= k w j) (tapeIn i (u w ++ u' w ++ rest) (st w) j)).record (acc j)
      = (p w j (tapeIn i (u w ++ (u' w ++ rest)) (st w) j)).record (acc j) >>= fun r => (k w j r.2.1 r.2.2).record r.1 := by
    intro j
    rw [List.append_assoc]
    exact Prog.record_bind _ _ _
  have e' : (fun j => (acc j ++ (l w j ++ l' w j), (a' w j, tapeIn i rest (t' w) j))) =
      fun j => (acc j ++ l w j ++ l' w j, (a' w j, tapeIn i rest (t' w) j)) := by simp only [List.append_assoc]
  simp only [e, e']
  exact Runs.bind (k := fun j r => (k w j r.2.1 r.2.2).record r.1) (h1 w (u' w ++ rest) acc)
    (k1 w rest fun j => acc j ++ l w j)

/-- A first step that draws nothing. -/
theorem bind' {p : Bool → Party → Proto (JmpSt (idealPrg f)) α}
    {k : Bool → Party → α → Proto (JmpSt (idealPrg f)) β} {Q : (Bool → Party → β) → (Bool → Party → JmpSt (idealPrg f)) → Prop}
    (h : Lock i (fun _ => []) p st fun a t => Lock i u (fun w j => k w j (a w j)) t Q) :
    Lock i u (fun w j => p w j >>= k w j) st Q := bind (u := fun _ => []) h

/-- A last step that draws nothing. -/
theorem bind_last {p : Bool → Party → Proto (JmpSt (idealPrg f)) α}
    {k : Bool → Party → α → Proto (JmpSt (idealPrg f)) β} {Q : (Bool → Party → β) → (Bool → Party → JmpSt (idealPrg f)) → Prop}
    (h : Lock i u p st fun a t => Lock i (fun _ => []) (fun w j => k w j (a w j)) t Q) :
    Lock i u (fun w j => p w j >>= k w j) st Q := by
  have := bind h
  simpa only [List.append_nil] using this

theorem net {p : Bool → Party → Prog α} {a : Bool → Party → α} {Q : (Bool → Party → α) → (Bool → Party → JmpSt (idealPrg f)) → Prop}
    (h : Talk i p a) (hQ : Q a st) : Lock i (fun _ => []) (fun w j => (Proto.net (p w j) : Proto (JmpSt (idealPrg f)) α)) st Q := by
  obtain ⟨l, h1, h2⟩ := h
  refine ⟨l, a, st, fun w rest acc => ?_, h2, hQ⟩
  have e : ∀ j, ((Proto.net (p w j) : Proto (JmpSt (idealPrg f)) α) (tapeIn i ([] ++ rest) (st w) j)).record (acc j) =
      (p w j).record (acc j) >>= fun r => Prog.ret (r.1, (r.2, tapeIn i rest (st w) j)) := by
    intro j
    show (p w j >>= fun a => Prog.ret (a, tapeIn i rest (st w) j)).record (acc j) = _
    rw [Prog.record_bind]
    rfl
  simp only [e]
  exact (h1 w acc).bind ⟨0, .zero _⟩

/-- What is known about each of the runs, and the code of party `i` being the same in both worlds. -/
theorem full {p : Bool → Party → Proto (JmpSt (idealPrg f)) α} {Q : (Bool → Party → α) → (Bool → Party → JmpSt (idealPrg f)) → Prop}
    (h : Lock i u p st Q) (hst : Twin i st) (hp : p false i = p true i) {R : Bool → (Party → α) → Prop}
    (hw : ∀ w t, JmpOk (tapeIn i (u w ++ t) (st w)) → WPS (p w) (tapeIn i (u w ++ t) (st w)) fun a t' => R w a ∧ JmpOk t') :
    Lock i u p st fun a t => Q a t ∧ Twin i t ∧ a false i = a true i ∧ ∀ w, R w (a w) := by
  obtain ⟨l, a, t, h1, h2, h3⟩ := h
  have h4 : ∀ w rest, R w (a w) ∧ JmpOk (tapeIn i rest (t w)) := by
    intro w rest
    obtain ⟨r, hr, hQ, hJ⟩ := hw w rest (hst.1 w _)
    have := hr.unique (h1 w rest fun _ => []).erase
    subst this
    exact ⟨hQ, hJ⟩
  have h5 : ∀ w, (p w i (st w i)).replay (l w i) = some (a w i, t w i) := by
    intro w
    have := Runs.replay (h1 w [] fun _ => []) (i := i) (ms := l w i) rfl
    rwa [tapeIn_self, tapeIn_self] at this
  have h6 : (a false i, t false i) = (a true i, t true i) := by
    have := h5 false
    rw [hp, hst.2, h2, h5 true] at this
    injection this with this
    exact this.symm
  rw [Prod.mk.injEq] at h6
  exact ⟨l, a, t, h1, h2, h3, ⟨fun w rest => (h4 w rest).2, h6.2⟩, h6.1, fun w => (h4 w []).1⟩

end Lock

end Verif
