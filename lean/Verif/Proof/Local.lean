import Verif.Spec.Adversary
import Verif.Proof.Run3

/-! # Local views of executions -/

namespace Verif

variable {α β : Type}

theorem Local.snoc_send {p k : Prog α} {d : Party} {m : Bytes} {r s : Party → List Bytes}
    (h : Local p r s (.send d m k)) : Local p r (fun j => if j = d then s j ++ [m] else s j) k := by
  generalize hq : Prog.send d m k = q at h
  induction h with
  | stop p =>
    subst hq
    have := Local.send (d := d) (m := m) (Local.stop k)
    convert this using 1
    funext j; simp only [push]; split <;> simp
  | @send d' m' k' q r s h ih =>
    have := Local.send (d := d') (m := m') (ih hq)
    convert this using 1
    funext j; simp only [push]; split <;> split <;> simp
  | recv h ih => exact Local.recv (ih hq)

theorem Local.snoc_recv {p : Prog α} {k : Bytes → Prog α} {j : Party} {m : Bytes} {r s : Party → List Bytes}
    (h : Local p r s (.recv j k)) : Local p (fun i => if i = j then r i ++ [m] else r i) s (k m) := by
  generalize hq : Prog.recv j k = q at h
  induction h with
  | stop p =>
    subst hq
    have := Local.recv (j := j) (m := m) (k := k) (Local.stop (k m))
    convert this using 1
    funext i; simp only [push]; split <;> simp
  | send h ih => exact Local.send (ih hq)
  | @recv j' m' k' q r s h ih =>
    have := Local.recv (j := j') (m := m') (k := k') (ih hq)
    convert this using 1
    funext i; simp only [push]; split <;> split <;> simp

/-- Every reachable state decomposes into local views that agree on what went over the channels. -/
theorem Reaches.views {p : Party → Prog α} {c : Config α} (h : Reaches p c) :
    ∃ r s : Party → Party → List Bytes, (∀ i, Local (p i) (r i) (s i) (c.prog i)) ∧
      ∀ i d, s i d = r d i ++ c.chan i d := by
  obtain ⟨n, h⟩ := h
  have key : ∀ {n : Nat} {c c' : Config α}, StepsN n c c' →
      ∀ r s : Party → Party → List Bytes, (∀ i, Local (p i) (r i) (s i) (c.prog i)) →
        (∀ i d, s i d = r d i ++ c.chan i d) →
      ∃ r s : Party → Party → List Bytes, (∀ i, Local (p i) (r i) (s i) (c'.prog i)) ∧
      ∀ i d, s i d = r d i ++ c'.chan i d := by
    intro n c c' h
    induction h with
    | zero c => exact fun r s h1 h2 => ⟨r, s, h1, h2⟩
    | @succ n c c' c'' h t ih =>
      intro r s h1 h2
      obtain ⟨i, h⟩ := h
      cases h with
      | @send d m k h =>
        refine ih r (Function.update s i (fun j => if j = d then s i j ++ [m] else s i j)) ?_ ?_
        · intro j
          by_cases hj : j = i
          · subst hj
            simp only [Function.update_self]
            have := h1 j
            rw [h] at this
            exact this.snoc_send
          · simp only [Function.update_of_ne hj]; exact h1 j
        · intro j e
          by_cases hj : j = i
          · subst hj
            simp only [Function.update_self, setChan, true_and]
            split
            · next he => subst he; rw [h2, List.append_assoc]
            · exact h2 _ _
          · simp only [Function.update_of_ne hj, setChan, hj, false_and, if_false]
            exact h2 _ _
      | @recv src m k rest h hc =>
        refine ih (Function.update r i (fun j => if j = src then r i j ++ [m] else r i j)) s ?_ ?_
        · intro j
          by_cases hj : j = i
          · subst hj
            simp only [Function.update_self]
            have := h1 j
            rw [h] at this
            exact this.snoc_recv
          · simp only [Function.update_of_ne hj]; exact h1 j
        · intro j e
          by_cases he : e = i
          · subst he
            simp only [Function.update_self, setChan, and_true]
            split
            · next hj => subst hj; rw [h2, hc, List.append_assoc]; rfl
            · exact h2 _ _
          · simp only [Function.update_of_ne he, setChan, he, and_false, if_false]
            exact h2 _ _
  exact key h (fun _ _ => []) (fun _ _ => []) (fun i => .stop _) (fun _ _ => rfl)

/-! ## Inversion -/

namespace Local

variable {r s : Party → List Bytes} {q : Prog α}

theorem ret_inv {a : α} (h : Local (.ret a) r s q) : r = (fun _ => []) ∧ s = (fun _ => []) ∧ q = .ret a := by
  cases h; exact ⟨rfl, rfl, rfl⟩

theorem fail_inv {e : Err} (h : Local (.fail e) r s q) : r = (fun _ => []) ∧ s = (fun _ => []) ∧ q = .fail e := by
  cases h; exact ⟨rfl, rfl, rfl⟩

theorem send_ret {d : Party} {m : Bytes} {k : Prog α} {a : α} (h : Local (.send d m k) r s (.ret a)) :
    ∃ s', s = push d m s' ∧ Local k r s' (.ret a) := by
  cases h with | send h => exact ⟨_, rfl, h⟩

theorem recv_ret {j : Party} {k : Bytes → Prog α} {a : α} (h : Local (.recv j k) r s (.ret a)) :
    ∃ m r', r = push j m r' ∧ Local (k m) r' s (.ret a) := by
  cases h with | recv h => exact ⟨_, _, rfl, h⟩

theorem send_inv {d : Party} {m : Bytes} {k : Prog α} (h : Local (.send d m k) r s q) :
    (r = (fun _ => []) ∧ s = (fun _ => []) ∧ q = .send d m k) ∨ ∃ s', s = push d m s' ∧ Local k r s' q := by
  cases h with
  | stop => exact .inl ⟨rfl, rfl, rfl⟩
  | send h => exact .inr ⟨_, rfl, h⟩

theorem recv_inv {j : Party} {k : Bytes → Prog α} (h : Local (.recv j k) r s q) :
    (r = (fun _ => []) ∧ s = (fun _ => []) ∧ q = .recv j k) ∨ ∃ m r', r = push j m r' ∧ Local (k m) r' s q := by
  cases h with
  | stop => exact .inl ⟨rfl, rfl, rfl⟩
  | recv h => exact .inr ⟨_, _, rfl, h⟩

theorem append_push {j : Party} {m : Bytes} {f g h : Party → List Bytes} (e : f = fun d => g d ++ h d) :
    push j m f = fun d => push j m g d ++ h d := by
  funext d; simp only [push, e]; split <;> simp

/-- A run of a sequence of two pieces of code ends in the first or consists of a complete run of the first followed by a
run of the second. -/
theorem bind_inv {p : Prog α} {k : α → Prog β} {r s : Party → List Bytes} {q : Prog β} (h : Local (p >>= k) r s q) :
    (∃ p', Local p r s p' ∧ q = p' >>= k) ∨
    ∃ a r1 s1 r2 s2, Local p r1 s1 (.ret a) ∧ Local (k a) r2 s2 q ∧ (r = fun d => r1 d ++ r2 d) ∧
      (s = fun d => s1 d ++ s2 d) := by
  induction p generalizing r s with
  | ret a => exact .inr ⟨a, _, _, r, s, .stop _, h, rfl, rfl⟩
  | fail e =>
    obtain ⟨rfl, rfl, rfl⟩ := fail_inv h
    exact .inl ⟨.fail e, .stop _, rfl⟩
  | send d m p ih =>
    obtain ⟨rfl, rfl, rfl⟩ | ⟨s', rfl, h'⟩ := send_inv h
    · exact .inl ⟨.send d m p, .stop _, rfl⟩
    · rcases ih h' with ⟨p', hp, rfl⟩ | ⟨a, r1, s1, r2, s2, h1, h2, e1, e2⟩
      · exact .inl ⟨p', .send hp, rfl⟩
      · exact .inr ⟨a, r1, push d m s1, r2, s2, .send h1, h2, e1, append_push e2⟩
  | recv j f ih =>
    obtain ⟨rfl, rfl, rfl⟩ | ⟨m, r', rfl, h'⟩ := recv_inv h
    · exact .inl ⟨.recv j f, .stop _, rfl⟩
    · rcases ih m h' with ⟨p', hp, rfl⟩ | ⟨a, r1, s1, r2, s2, h1, h2, e1, e2⟩
      · exact .inl ⟨p', .recv hp, rfl⟩
      · exact .inr ⟨a, push j m r1, s1, r2, s2, .recv h1, h2, append_push e1, e2⟩

/-- A finished run of a sequence of two pieces of code. -/
theorem bind_ret {p : Prog α} {k : α → Prog β} {r s : Party → List Bytes} {b : β} (h : Local (p >>= k) r s (.ret b)) :
    ∃ a r1 s1 r2 s2, Local p r1 s1 (.ret a) ∧ Local (k a) r2 s2 (.ret b) ∧ (r = fun d => r1 d ++ r2 d) ∧
      (s = fun d => s1 d ++ s2 d) := by
  rcases bind_inv h with ⟨p', hp, e⟩ | h
  · cases p' with
    | ret a => exact ⟨a, r, s, _, _, hp, by rw [e]; exact .stop _, by simp, by simp⟩
    | fail e' => cases e
    | send => cases e
    | recv => cases e
  · exact h

end Local

@[simp] theorem push_same (j : Party) (m : Bytes) (f : Party → List Bytes) : push j m f j = m :: f j := by simp [push]
theorem push_ne {j k : Party} (h : k ≠ j) (m : Bytes) (f : Party → List Bytes) : push j m f k = f k := by simp [push, h]

theorem corrupt_of_ne {p : Party → Prog α} {c i : Party} (h : i ≠ c) (adv : Prog α) : corrupt p c adv i = p i := by
  simp [corrupt, h]

end Verif
