import Verif.Proof.Pair
import Verif.Spec.Pair

/-! # Symbolic execution of two explicit programs

`i` and `i.next` are honest and `i.prev` is corrupt. The messages under way between the two honest parties are given
explicitly; messages from the corrupt party are arbitrary. -/

namespace Verif

variable {α β : Type} {i : Party}

/-- Finished runs of the programs `p` of `i` and `q` of `i.next`, with `u` under way from `i` to `i.next` and `v` in the
other direction: all these messages are received, and the messages received and the results satisfy `Q`. -/
def P2 (i : Party) (p q : Prog α) (u v : List Bytes)
    (Q : (Party → List Bytes) → (Party → List Bytes) → α → α → Prop) : Prop :=
  ∀ (r s r' s' : Party → List Bytes) (a b : α), Local p r s (.ret a) → Local q r' s' (.ret b) →
    Compat (u ++ s i.next) (r' i) → Compat (v ++ s' i) (r i.next) →
    u ++ s i.next = r' i ∧ v ++ s' i = r i.next ∧ Q r r' a b

namespace P2

variable {p q : Prog α} {u v : List Bytes} {Q : (Party → List Bytes) → (Party → List Bytes) → α → α → Prop}

theorem mono {Q' : (Party → List Bytes) → (Party → List Bytes) → α → α → Prop} (h : P2 i p q u v Q')
    (hQ : ∀ r r' a b, Q' r r' a b → Q r r' a b) : P2 i p q u v Q := by
  intro r s r' s' a b h1 h2 h3 h4
  obtain ⟨e1, e2, hq⟩ := h r s r' s' a b h1 h2 h3 h4
  exact ⟨e1, e2, hQ _ _ _ _ hq⟩

theorem done {a b : α} (h : Q (fun _ => []) (fun _ => []) a b) : P2 i (.ret a) (.ret b) [] [] Q := by
  intro r s r' s' a' b' h1 h2 _ _
  obtain ⟨rfl, rfl, e⟩ := Local.ret_inv h1
  obtain ⟨rfl, rfl, f⟩ := Local.ret_inv h2
  injection e with e
  injection f with f
  subst e f
  exact ⟨rfl, rfl, h⟩

theorem failL {e : Err} : P2 i (.fail e) q u v Q := by
  intro r s r' s' a b h1 _ _ _
  exact absurd (Local.fail_inv h1).2.2 (by simp)

theorem failR {e : Err} : P2 i p (.fail e) u v Q := by
  intro r s r' s' a b _ h2 _ _
  exact absurd (Local.fail_inv h2).2.2 (by simp)

theorem sendL {d : Party} {m : Bytes} (hd : d = i.next) (h : P2 i p q (u ++ [m]) v Q) : P2 i (.send d m p) q u v Q := by
  intro r s r' s' a b h1 h2 h3 h4
  obtain ⟨s1, rfl, g1⟩ := Local.send_ret h1
  subst hd
  rw [push_same] at h3 ⊢
  have := h r s1 r' s' a b g1 h2 (by simpa using h3) h4
  simpa using this

theorem sendL' {d : Party} {m : Bytes} (hd : d = i.prev) (h : P2 i p q u v Q) : P2 i (.send d m p) q u v Q := by
  intro r s r' s' a b h1 h2 h3 h4
  obtain ⟨s1, rfl, g1⟩ := Local.send_ret h1
  subst hd
  rw [push_ne (Party.next_ne_prev i)] at h3 ⊢
  exact h r s1 r' s' a b g1 h2 h3 h4

theorem sendR {d : Party} {m : Bytes} (hd : d = i) (h : P2 i p q u (v ++ [m]) Q) : P2 i p (.send d m q) u v Q := by
  intro r s r' s' a b h1 h2 h3 h4
  obtain ⟨s1, rfl, g2⟩ := Local.send_ret h2
  subst hd
  rw [push_same] at h4 ⊢
  have := h r s r' s1 a b h1 g2 h3 (by simpa using h4)
  simpa using this

theorem sendR' {d : Party} {m : Bytes} (hd : d = i.prev) (h : P2 i p q u v Q) : P2 i p (.send d m q) u v Q := by
  intro r s r' s' a b h1 h2 h3 h4
  obtain ⟨s1, rfl, g2⟩ := Local.send_ret h2
  subst hd
  rw [push_ne (Party.prev_ne i).symm] at h4 ⊢
  exact h r s r' s1 a b h1 g2 h3 h4

theorem recvL {j : Party} {m : Bytes} {k : Bytes → Prog α} (hj : j = i.next)
    (h : P2 i (k m) q u v fun r r' => Q (push j m r) r') : P2 i (.recv j k) q u (m :: v) Q := by
  intro r s r' s' a b h1 h2 h3 h4
  obtain ⟨m', r1, rfl, g1⟩ := Local.recv_ret h1
  subst hj
  rw [push_same] at h4 ⊢
  obtain rfl : m = m' := Compat.singleton (Compat.of_append (x := [m]) (y := [m']) (by simpa using h4))
  obtain ⟨e1, e2, hq⟩ := h r1 s r' s' a b g1 h2 h3 (Compat.of_append_eq (x := [m]) (by simpa using h4))
  exact ⟨e1, by simp [e2], hq⟩

theorem recvL' {j : Party} {k : Bytes → Prog α} (hj : j = i.prev)
    (h : ∀ m, P2 i (k m) q u v fun r r' => Q (push j m r) r') : P2 i (.recv j k) q u v Q := by
  intro r s r' s' a b h1 h2 h3 h4
  obtain ⟨m, r1, rfl, g1⟩ := Local.recv_ret h1
  subst hj
  rw [push_ne (Party.next_ne_prev i)] at h4 ⊢
  exact h m r1 s r' s' a b g1 h2 h3 h4

theorem recvR {j : Party} {m : Bytes} {k : Bytes → Prog α} (hj : j = i)
    (h : P2 i p (k m) u v fun r r' => Q r (push j m r')) : P2 i p (.recv j k) (m :: u) v Q := by
  intro r s r' s' a b h1 h2 h3 h4
  obtain ⟨m', r1, rfl, g2⟩ := Local.recv_ret h2
  subst hj
  rw [push_same] at h3 ⊢
  obtain rfl : m = m' := Compat.singleton (Compat.of_append (x := [m]) (y := [m']) (by simpa using h3))
  obtain ⟨e1, e2, hq⟩ := h r s r1 s' a b h1 g2 (Compat.of_append_eq (x := [m]) (by simpa using h3)) h4
  exact ⟨by simp [e1], e2, hq⟩

theorem recvR' {j : Party} {k : Bytes → Prog α} (hj : j = i.prev)
    (h : ∀ m, P2 i p (k m) u v fun r r' => Q r (push j m r')) : P2 i p (.recv j k) u v Q := by
  intro r s r' s' a b h1 h2 h3 h4
  obtain ⟨m, r1, rfl, g2⟩ := Local.recv_ret h2
  subst hj
  rw [push_ne (Party.prev_ne i).symm] at h3 ⊢
  exact h m r s r1 s' a b h1 g2 h3 h4

theorem exceptL {x : Except Err β} {k : β → Prog α} (h : ∀ y, x = .ok y → P2 i (k y) q u v Q) :
    P2 i (Prog.ofExcept x >>= k) q u v Q := by
  cases x with
  | error e => exact failL
  | ok y => exact h y rfl

theorem exceptR {x : Except Err β} {k : β → Prog α} (h : ∀ y, x = .ok y → P2 i p (k y) u v Q) :
    P2 i p (Prog.ofExcept x >>= k) u v Q := by
  cases x with
  | error e => exact failR
  | ok y => exact h y rfl

theorem iteL {c : Prop} [Decidable c] {p' : Prog α} (h1 : c → P2 i p q u v Q) (h2 : ¬ c → P2 i p' q u v Q) :
    P2 i (if c then p else p') q u v Q := by
  split
  · exact h1 ‹_›
  · exact h2 ‹_›

theorem iteR {c : Prop} [Decidable c] {q' : Prog α} (h1 : c → P2 i p q u v Q) (h2 : ¬ c → P2 i p q' u v Q) :
    P2 i p (if c then q else q') u v Q := by
  split
  · exact h1 ‹_›
  · exact h2 ‹_›

/-- Sequencing. -/
theorem bind {β : Type} {p q : Prog β} {k k' : β → Prog α} {u v : List Bytes}
    {R : (Party → List Bytes) → (Party → List Bytes) → β → β → Prop}
    {Q : (Party → List Bytes) → (Party → List Bytes) → α → α → Prop} (h : P2 i p q u v R)
    (hk : ∀ r r' a b, R r r' a b → P2 i (k a) (k' b) [] [] fun s s' => Q (fun d => r d ++ s d) fun d => r' d ++ s' d) :
    P2 i (p >>= k) (q >>= k') u v Q := by
  intro r s r' s' a b h1 h2 h3 h4
  obtain ⟨x, r1, s1, r2, s2, a1, a2, rfl, rfl⟩ := Local.bind_ret h1
  obtain ⟨y, r3, s3, r4, s4, b1, b2, rfl, rfl⟩ := Local.bind_ret h2
  simp only [← List.append_assoc] at h3 h4
  obtain ⟨e1, e2, hR⟩ := h _ _ _ _ x y a1 b1 h3.of_append h4.of_append
  simp only [e1, e2] at h3 h4
  obtain ⟨f1, f2, hQ⟩ := hk _ _ _ _ hR _ _ _ _ a b a2 b2 (by simpa using h3.of_append_eq) (by simpa using h4.of_append_eq)
  refine ⟨?_, ?_, hQ⟩
  · show u ++ _ = r3 i ++ r4 i
    rw [← List.append_assoc, e1, ← f1]; rfl
  · show v ++ _ = r1 i.next ++ r2 i.next
    rw [← List.append_assoc, e2, ← f2]; rfl
/-- What finished runs of the honest parties satisfy. -/
theorem views {p : Party → Prog α} (h : P2 i (p i) (p i.next) [] [] Q) {rcvd sent : Party → Party → List Bytes}
    {out : Party → α} (hv : HonestViews p i.prev rcvd sent out) :
    Q (rcvd i) (rcvd i.next) (out i) (out i.next) := by
  have n1 := Party.next_ne i
  have n2 := Party.prev_ne i
  have n3 := Party.next_ne_prev i
  refine (h (rcvd i) (sent i) (rcvd i.next) (sent i.next) (out i) (out i.next) (hv.run i n2.symm) (hv.run i.next n3)
    ?_ ?_).2.2
  · exact .inr (hv.chan i i.next n2.symm n3 n1.symm)
  · exact .inr (hv.chan i.next i n3 n2.symm n1)

end P2

/-- From explicit programs to the joint rule. -/
theorem PW.of_p2 {p : Party → Prog α} {E : List Bytes → Prop} {Q : List Bytes → (Party → α) → Prop}
    (h : P2 i (p i) (p i.next) [] [] fun r _ a b => ∃ o : Party → α, o i = a ∧ o i.next = b ∧ Q (r i.prev) o) :
    PW i p E Q := by
  intro r s a b h1 h2 h3 h4
  obtain ⟨e1, e2, o, o1, o2, hq⟩ := h (r i) (s i) (r i.next) (s i.next) a b h1 h2 h3 h4
  exact .inr ⟨e1, e2, o, o1, o2, hq⟩

/-- Run the two explicit programs as far as possible. -/
macro "run2" : tactic =>
  `(tactic| repeat (first
      | refine P2.sendL rfl ?_ | refine P2.sendL' rfl ?_ | refine P2.sendR rfl ?_ | refine P2.sendR' rfl ?_
      | refine P2.recvL rfl ?_ | refine P2.recvR rfl ?_
      | (refine P2.recvL' rfl fun _ => ?_) | (refine P2.recvR' rfl fun _ => ?_)
      | (refine P2.exceptL fun _ _ => ?_) | (refine P2.exceptR fun _ _ => ?_)
      | (refine P2.iteL (fun _ => P2.failL) fun _ => ?_) | (refine P2.iteR (fun _ => P2.failR) fun _ => ?_)
      | exact P2.failL | exact P2.failR
      | (simp only [List.nil_append, List.cons_append])))

end Verif
