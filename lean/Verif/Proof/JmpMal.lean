import Verif.Proof.Jmp
import Verif.Proof.Local
import Mathlib.Data.Nat.ModEq
import Mathlib.Data.Finset.Card
import Mathlib.Data.Nat.Factorization.Basic

/-! # Opening with a corrupt party -/

namespace Verif

variable {σ α β γ : Type} {G : Prg}

theorem Party.next_ne_prev (me : Party) : me.next ≠ me.prev := by
  match me with | 0 => decide | 1 => decide | 2 => decide

namespace Local

/-- A finished run of a sequence of two protocol methods. -/
theorem pbind_ret {p : Proto σ α} {k : α → Proto σ β} {st : σ} {r s : Party → List Bytes} {b : β × σ}
    (h : Local ((p >>= k) st) r s (.ret b)) :
    ∃ a st1 r1 s1 r2 s2, Local (p st) r1 s1 (.ret (a, st1)) ∧ Local (k a st1) r2 s2 (.ret b) ∧
      (r = fun d => r1 d ++ r2 d) ∧ (s = fun d => s1 d ++ s2 d) := by
  obtain ⟨⟨a, st1⟩, r1, s1, r2, s2, h1, h2, e⟩ := bind_ret (k := fun (x : α × σ) => k x.1 x.2) h
  exact ⟨a, st1, r1, s1, r2, s2, h1, h2, e⟩

/-- A run of a sequence of two protocol methods. -/
theorem pbind_inv {p : Proto σ α} {k : α → Proto σ β} {st : σ} {r s : Party → List Bytes} {q : Prog (β × σ)}
    (h : Local ((p >>= k) st) r s q) :
    (∃ p', Local (p st) r s p' ∧ q = p' >>= fun x => k x.1 x.2) ∨
    ∃ a st1 r1 s1 r2 s2, Local (p st) r1 s1 (.ret (a, st1)) ∧ Local (k a st1) r2 s2 q ∧
      (r = fun d => r1 d ++ r2 d) ∧ (s = fun d => s1 d ++ s2 d) := by
  rcases bind_inv (k := fun (x : α × σ) => k x.1 x.2) h with h | ⟨⟨a, st1⟩, r1, s1, r2, s2, h1, h2, e⟩
  · exact .inl h
  · exact .inr ⟨a, st1, r1, s1, r2, s2, h1, h2, e⟩

/-- `expr?` in protocol code. -/
theorem plift_inv {x : Except Err α} {k : α → Proto σ β} {st : σ} {r s : Party → List Bytes} {q : Prog (β × σ)}
    (h : Local ((Proto.lift x >>= k) st) r s q) :
    (∃ e, x = .error e ∧ r = (fun _ => []) ∧ s = (fun _ => []) ∧ q = .fail e) ∨
    ∃ a, x = .ok a ∧ Local (k a st) r s q := by
  cases x with
  | error e =>
    obtain ⟨h1, h2, h3⟩ := fail_inv (α := β × σ) (e := e) h
    exact .inl ⟨e, rfl, h1, h2, h3⟩
  | ok a => exact .inr ⟨a, rfl, h⟩

/-- `expr?` in finished protocol code. -/
theorem plift_ret {x : Except Err α} {k : α → Proto σ β} {st : σ} {r s : Party → List Bytes} {b : β × σ}
    (h : Local ((Proto.lift x >>= k) st) r s (.ret b)) : ∃ a, x = .ok a ∧ Local (k a st) r s (.ret b) := by
  rcases plift_inv h with ⟨e, -, -, -, h⟩ | h
  · cases h
  · exact h

end Local

namespace Jmp

/-- One message to the previous party, none to the next. -/
def toPrev (me : Party) (m : Bytes) : Party → List Bytes := push me.prev m (fun _ => [])

theorem jmpVerify_done {H : Hash} {me : Party} {st st' : JmpSt G} {u : Unit} {r s : Party → List Bytes}
    (h : Local (jmpVerify H me st) r s (.ret (u, st'))) :
    r = push me.next (H.h st.rcvQueueNext) (fun _ => []) ∧ s = push me.prev (H.h st.sendQueuePrev) (fun _ => []) ∧
      st' = { st with sendQueuePrev := [], rcvQueueNext := [] } := by
  obtain ⟨s1, rfl, h1⟩ := Local.send_ret h
  obtain ⟨m, r1, rfl, h2⟩ := Local.recv_ret h1
  change Local ((if m ≠ H.h st.rcvQueueNext then _ else _ : Proto (JmpSt G) Unit) _) _ _ _ at h2
  by_cases hm : m ≠ H.h st.rcvQueueNext
  · rw [if_pos hm] at h2; cases h2
  · rw [if_neg hm] at h2
    obtain ⟨rfl, rfl, e⟩ := Local.ret_inv h2
    injection e with e
    injection e with _ e
    push Not at hm
    exact ⟨by rw [hm], rfl, e⟩

theorem jmpVerify_run {H : Hash} {me : Party} {st : JmpSt G} {r s : Party → List Bytes} {q : Prog (Unit × JmpSt G)}
    (h : Local (jmpVerify H me st) r s q) :
    s me.prev <+: [H.h st.sendQueuePrev] ∧ s me.next = [] ∧ r me.prev = [] := by
  have hnp := Party.next_ne_prev me
  obtain ⟨rfl, rfl, -⟩ | ⟨s1, rfl, h1⟩ := Local.send_inv h
  · simp
  obtain ⟨rfl, rfl, -⟩ | ⟨m, r1, rfl, h2⟩ := Local.recv_inv h1
  · simp [push_ne hnp]
  change Local ((if m ≠ H.h st.rcvQueueNext then _ else _ : Proto (JmpSt G) Unit) _) _ _ _ at h2
  split at h2
  · obtain ⟨rfl, rfl, -⟩ := Local.fail_inv h2
    simp [push_ne hnp, push_ne hnp.symm]
  · obtain ⟨rfl, rfl, -⟩ := Local.ret_inv h2
    simp [push_ne hnp, push_ne hnp.symm]

/-- The common shape of the opening methods: check, exchange one message each, check. -/
def openLike (H : Hash) (me : Party) (buf : Bytes → Bytes) (M : Bytes) (dec : Bytes → Except Err γ)
    (upd : Bytes → γ → Bytes) (fin : γ → α) : Proto (JmpSt G) α := do
  jmpVerify H me
  Proto.step fun s => ((), { s with sendQueuePrev := buf s.sendQueuePrev })
  Proto.net (sendNext me M)
  let m ← Proto.net (recvPrev me)
  let c ← Proto.lift (dec m)
  Proto.step fun s => ((), { s with rcvQueueNext := upd s.rcvQueueNext c })
  jmpVerify H me
  pure (fin c)

variable {H : Hash} {me : Party} {buf : Bytes → Bytes} {M : Bytes} {dec : Bytes → Except Err γ}
  {upd : Bytes → γ → Bytes} {fin : γ → α} {st : JmpSt G}

theorem openLike_done {r s : Party → List Bytes} {v : α} {st' : JmpSt G}
    (h : Local (openLike H me buf M dec upd fin st) r s (.ret (v, st'))) :
    ∃ m c h1, r me.prev = [m] ∧ dec m = .ok c ∧ r me.next = [h1, H.h (upd [] c)] ∧ v = fin c := by
  have hnp := Party.next_ne_prev me
  obtain ⟨u, st1, r1, s1, r2, s2, hv, h2, rfl, rfl⟩ := Local.pbind_ret h
  obtain ⟨rfl, rfl, rfl⟩ := jmpVerify_done hv
  obtain ⟨s3, rfl, h3⟩ := Local.send_ret h2
  obtain ⟨m, r3, rfl, h4⟩ := Local.recv_ret h3
  change Local ((Proto.lift (dec m) >>= fun c => _) (⟨st.prf, buf [], []⟩ : JmpSt G)) _ _ _ at h4
  obtain ⟨c, hd, h5⟩ := Local.plift_ret h4
  change Local ((jmpVerify H me >>= fun _ => _) (⟨st.prf, buf [], upd [] c⟩ : JmpSt G)) _ _ _ at h5
  obtain ⟨u, st1, r4, s4, r5, s5, hv, h6, rfl, rfl⟩ := Local.pbind_ret h5
  obtain ⟨rfl, rfl, rfl⟩ := jmpVerify_done hv
  obtain ⟨rfl, rfl, e⟩ := Local.ret_inv h6
  injection e with e
  injection e with e _
  refine ⟨m, c, H.h st.rcvQueueNext, ?_, hd, ?_, e⟩
  · simp [push, hnp.symm]
  · simp [push, hnp]

theorem openLike_run {r s : Party → List Bytes} {q : Prog (α × JmpSt G)}
    (h : Local (openLike H me buf M dec upd fin st) r s q) :
    s me.prev <+: [H.h st.sendQueuePrev, H.h (buf [])] ∧ s me.next <+: [M] := by
  have hnp := Party.next_ne_prev me
  rcases Local.pbind_inv h with ⟨p', hp, -⟩ | ⟨u, st1, r1, s1, r2, s2, hv, h2, rfl, rfl⟩
  · obtain ⟨h1, h2, -⟩ := jmpVerify_run hp
    exact ⟨h1.trans (by simp), by simp [h2]⟩
  obtain ⟨rfl, rfl, rfl⟩ := jmpVerify_done hv
  obtain ⟨rfl, rfl, -⟩ | ⟨s3, rfl, h3⟩ := Local.send_inv h2
  · simp [push, hnp, hnp.symm]
  obtain ⟨rfl, rfl, -⟩ | ⟨m, r3, rfl, h4⟩ := Local.recv_inv h3
  · simp [push, hnp, hnp.symm]
  change Local ((Proto.lift (dec m) >>= fun c => _) (⟨st.prf, buf [], []⟩ : JmpSt G)) _ _ _ at h4
  obtain ⟨e, -, rfl, rfl, -⟩ | ⟨c, hd, h5⟩ := Local.plift_inv h4
  · simp [push, hnp, hnp.symm]
  change Local ((jmpVerify H me >>= fun _ => _) (⟨st.prf, buf [], upd [] c⟩ : JmpSt G)) _ _ _ at h5
  rcases Local.pbind_inv h5 with ⟨p', hp, -⟩ | ⟨u, st1, r1, s1, r2, s2, hv, h6, rfl, rfl⟩
  · obtain ⟨h1, h2, -⟩ := jmpVerify_run hp
    simp [push, hnp, hnp.symm, h1, h2]
  · obtain ⟨rfl, rfl, rfl⟩ := jmpVerify_done hv
    obtain ⟨rfl, rfl, -⟩ := Local.ret_inv h6
    simp [push, hnp, hnp.symm]

/-- Opening with one corrupt party: an honest party that finishes has accepted a value `c` that was sent by an honest
party, or whose encoding has the digest of what the honest co-sender recorded. -/
theorem openLike_corrupt {buf : Party → Bytes → Bytes} {M : Party → Bytes} {dec : Party → Bytes → Except Err γ}
    {fin : Party → γ → α} {st : Party → JmpSt G} {c i : Party} (hi : i ≠ c) {adv : Prog (α × JmpSt G)}
    {conf : Config (α × JmpSt G)}
    (h : Reaches (corrupt (fun i => openLike H i (buf i) (M i) (dec i) upd (fin i) (st i)) c adv) conf)
    {v : α} {st' : JmpSt G} (hv : conf.prog i = .ret (v, st')) :
    ∃ m y, dec i m = .ok y ∧ v = fin i y ∧ ((i.prev = c ∧ H.h (upd [] y) = H.h (buf i.next [])) ∨
      (i.next = c ∧ dec i (M i.prev) = .ok y)) := by
  obtain ⟨r, s, hl, hc⟩ := h.views
  have h1 := hl i
  rw [corrupt_of_ne hi, hv] at h1
  obtain ⟨m, y, g, hm, hd, hg, hfin⟩ := openLike_done h1
  refine ⟨m, y, hd, hfin, ?_⟩
  by_cases hp : i.prev = c
  · left
    refine ⟨hp, ?_⟩
    have hne : i.next ≠ c := by rw [← hp]; exact Party.next_ne_prev i
    have h2 := hl i.next
    rw [corrupt_of_ne hne] at h2
    have h3 := (openLike_run h2).1
    rw [Party.prev_next, hc i.next i, hg] at h3
    obtain ⟨t, ht⟩ := h3
    simp only [List.cons_append, List.nil_append, List.cons.injEq] at ht
    exact ht.2.1
  · right
    have hn : i.next = c := by
      have : ∀ i c : Party, i ≠ c → i.prev ≠ c → i.next = c := by decide
      exact this i c hi hp
    refine ⟨hn, ?_⟩
    have h2 := hl i.prev
    rw [corrupt_of_ne hp] at h2
    have h3 := (openLike_run h2).2
    rw [Party.next_prev, hc i.prev i, hm] at h3
    obtain ⟨t, ht⟩ := h3
    simp only [List.cons_append, List.nil_append, List.cons.injEq] at ht
    rw [← ht.1]; exact hd

variable {K : Nat}

theorem openShare_like (me : Party) (s : AShare K) : (openShare H me s : Proto (JmpSt G) _) =
    openLike H me (fun q => q ++ toBytes s.a) (toBytes s.b) (fromBytes K) (fun q v => q ++ toBytes v)
      (fun c => s.a + s.b + c) := by
  unfold openShare openLike jmpSendReceive jmpBuffer jmpSend jmpReceive sendValueNext receiveValuePrev
  simp only [bind_assoc]
  congr 1

theorem openBit_like (me : Party) (s : AShare 1) : (openBit H me s : Proto (JmpSt G) _) =
    openLike H me (fun q => q ++ toBytes s.a) (toBytes s.b) (fromBytes 1) (fun q v => q ++ toBytes v)
      (fun c => bitVal (s.a ^^^ s.b ^^^ c)) := by
  unfold openBit openLike jmpSendReceive jmpBuffer jmpSend jmpReceive sendValueNext receiveValuePrev
  simp only [bind_assoc]
  congr 1

theorem openLists_like {δ : Type} (me : Party) (ss : List (AShare K)) (f : List (BitVec K) → δ) :
    (do
      jmpVerify H me
      let cs ← jmpSendReceiveMany me (ss.map (·.b)) (ss.map (·.a))
      jmpVerify H me
      pure (f cs) : Proto (JmpSt G) δ) =
    openLike H me (fun q => q ++ ringSliceToBytes (ss.map (·.a))) (ringSliceToBytes (ss.map (·.b)))
      (fun m => ringVecFromBytes K m ss.length) (fun q v => q ++ ringSliceToBytes v) f := by
  unfold openLike jmpSendReceiveMany jmpBufferMany jmpSendMany jmpReceiveMany sendVecNext receiveVecPrev
  simp only [bind_assoc, foldl_toBytes, List.length_map]
  congr 1

end Jmp

/-! ## The hash-based zero check with a corrupt party -/

/-- Both hash-based zero checks: broadcast a digest and compare the three. -/
def digestCheck (me : Party) (D : Bytes) : Prog Unit := do
  let hashes ← broadcast me D
  let h0 ← Prog.ofExcept (idx hashes 0)
  let h1 ← Prog.ofExcept (idx hashes 1)
  let h2 ← Prog.ofExcept (idx hashes 2)
  if h0 ≠ h1 ∨ h0 ≠ h2 then .fail .verify else pure ()

theorem digestCheck_done {me : Party} {D : Bytes} {r s : Party → List Bytes} {u : Unit}
    (h : Local (digestCheck me D) r s (.ret u)) (j : Party) (hj : j ≠ me) : r j = [D] := by
  have key : ∀ (p : Prog Unit), Local p r s (.ret u) → ∀ k : Bytes → Bytes → Prog Unit,
      ∀ d1 d2 : Party, p = .send d1 D (.send d2 D (.recv d1 fun x => .recv d2 fun y => k x y)) →
      (∀ x y, k x y = .ret () ∧ x = D ∧ y = D ∨ ∃ e, k x y = .fail e) →
      ∀ j, (j = d1 ∨ j = d2) → d1 ≠ d2 → r j = [D] := by
    rintro p hp k d1 d2 rfl hk j hj hne
    obtain ⟨s1, rfl, h1⟩ := Local.send_ret hp
    obtain ⟨s2, rfl, h2⟩ := Local.send_ret h1
    obtain ⟨x, r1, rfl, h3⟩ := Local.recv_ret h2
    obtain ⟨y, r2, rfl, h4⟩ := Local.recv_ret h3
    rcases hk x y with ⟨e, rfl, rfl⟩ | ⟨e, e'⟩
    · rw [e] at h4
      obtain ⟨rfl, -, -⟩ := Local.ret_inv h4
      rcases hj with rfl | rfl
      · simp [push, hne]
      · simp [push, hne.symm]
    · rw [e'] at h4; cases h4
  match me, hj with
  | 0, hj =>
    refine key _ h (fun x y => if D ≠ x ∨ D ≠ y then .fail .verify else pure ()) 1 2 ?_ ?_ j ?_ (by decide)
    · rfl
    · intro x y
      by_cases hc : D ≠ x ∨ D ≠ y
      · right; exact ⟨.verify, if_pos hc⟩
      · left; push Not at hc; refine ⟨?_, hc.1.symm, hc.2.symm⟩; rw [if_neg (by simp [← hc.1, ← hc.2])]; rfl
    · exact (by decide : ∀ j : Party, j ≠ 0 → j = 1 ∨ j = 2) j hj
  | 1, hj =>
    refine key _ h (fun x y => if x ≠ D ∨ x ≠ y then .fail .verify else pure ()) 0 2 ?_ ?_ j ?_ (by decide)
    · rfl
    · intro x y
      by_cases hc : x ≠ D ∨ x ≠ y
      · right; exact ⟨.verify, if_pos hc⟩
      · left; push Not at hc; obtain ⟨rfl, rfl⟩ := hc; refine ⟨?_, rfl, rfl⟩; rw [if_neg (by simp)]; rfl
    · exact (by decide : ∀ j : Party, j ≠ 1 → j = 0 ∨ j = 2) j hj
  | 2, hj =>
    refine key _ h (fun x y => if x ≠ y ∨ x ≠ D then .fail .verify else pure ()) 0 1 ?_ ?_ j ?_ (by decide)
    · rfl
    · intro x y
      by_cases hc : x ≠ y ∨ x ≠ D
      · right; exact ⟨.verify, if_pos hc⟩
      · left; push Not at hc; obtain ⟨rfl, rfl⟩ := hc; refine ⟨?_, rfl, rfl⟩; rw [if_neg (by simp)]; rfl
    · exact (by decide : ∀ j : Party, j ≠ 2 → j = 0 ∨ j = 1) j hj

theorem digestCheck_run {me : Party} {D : Bytes} {r s : Party → List Bytes} {q : Prog Unit}
    (h : Local (digestCheck me D) r s q) (j : Party) : s j <+: [D] := by
  have key : ∀ (p : Prog Unit), Local p r s q → ∀ k : Bytes → Bytes → Prog Unit,
      ∀ d1 d2 : Party, p = .send d1 D (.send d2 D (.recv d1 fun x => .recv d2 fun y => k x y)) →
      (∀ x y, k x y = .ret () ∨ ∃ e, k x y = .fail e) → d1 ≠ d2 → s j <+: [D] := by
    rintro p hp k d1 d2 rfl hk hne
    have e1 : push d1 D (fun _ => []) j <+: [D] := by simp only [push]; split <;> simp
    have e2 : push d1 D (push d2 D fun _ => []) j <+: [D] := by
      simp only [push]; split <;> split <;> simp_all
    obtain ⟨-, rfl, -⟩ | ⟨s1, rfl, h1⟩ := Local.send_inv hp
    · simp
    obtain ⟨-, rfl, -⟩ | ⟨s2, rfl, h2⟩ := Local.send_inv h1
    · exact e1
    obtain ⟨-, rfl, -⟩ | ⟨x, r1, rfl, h3⟩ := Local.recv_inv h2
    · exact e2
    obtain ⟨-, rfl, -⟩ | ⟨y, r2, rfl, h4⟩ := Local.recv_inv h3
    · exact e2
    rcases hk x y with e | ⟨e, e'⟩
    · rw [e] at h4; obtain ⟨-, rfl, -⟩ := Local.ret_inv h4; exact e2
    · rw [e'] at h4; obtain ⟨-, rfl, -⟩ := Local.fail_inv h4; exact e2
  match me with
  | 0 =>
    refine key _ h (fun x y => if D ≠ x ∨ D ≠ y then .fail .verify else pure ()) 1 2 ?_ ?_ (by decide)
    · rfl
    · intro x y; split
      · right; exact ⟨_, rfl⟩
      · left; rfl
  | 1 =>
    refine key _ h (fun x y => if x ≠ D ∨ x ≠ y then .fail .verify else pure ()) 0 2 ?_ ?_ (by decide)
    · rfl
    · intro x y; split
      · right; exact ⟨_, rfl⟩
      · left; rfl
  | 2 =>
    refine key _ h (fun x y => if x ≠ y ∨ x ≠ D then .fail .verify else pure ()) 0 1 ?_ ?_ (by decide)
    · rfl
    · intro x y; split
      · right; exact ⟨_, rfl⟩
      · left; rfl

theorem hashZero_done {K : Nat} {H : Hash} {me : Party} {ws : List (AShare K)} {r s : Party → List Bytes} {u : Unit}
    (h : Local (hashZeroVerify H me ws) r s (.ret u)) (j : Party) (hj : j ≠ me) :
    r j = [H.h (ws.flatMap (zeroBytes me))] := digestCheck_done h j hj

theorem hashZero_run {K : Nat} {H : Hash} {me : Party} {ws : List (AShare K)} {r s : Party → List Bytes} {q : Prog Unit}
    (h : Local (hashZeroVerify H me ws) r s q) (j : Party) :
    s j <+: [H.h (ws.flatMap (zeroBytes me))] := digestCheck_run h j

/-- One corrupt party: an honest party that gets through has the digest of the other honest party. -/
theorem digestCheck_corrupt {D : Party → Bytes} {c i j : Party} (hi : i ≠ c) (hj : j ≠ c) (hij : i ≠ j) {adv : Prog Unit}
    {conf : Config Unit} (hr : Reaches (corrupt (fun k => digestCheck k (D k)) c adv) conf)
    (hv : conf.prog i = .ret ()) : D i = D j := by
  obtain ⟨r, s, hl, hc⟩ := hr.views
  have h1 := hl i
  rw [corrupt_of_ne hi, hv] at h1
  have h2 := hl j
  rw [corrupt_of_ne hj] at h2
  have h3 := digestCheck_run h2 i
  rw [hc j i, digestCheck_done h1 j hij.symm] at h3
  obtain ⟨t, ht⟩ := h3
  simp only [List.cons_append, List.nil_append, List.cons.injEq] at ht
  exact ht.1

/-- Honest parties with different digests all reject. -/
theorem digestCheck_fails {D : Party → Bytes} (h : D 0 ≠ D 1 ∨ D 0 ≠ D 2) : WPF (fun i => digestCheck i (D i)) .verify := by
  unfold digestCheck
  refine WPF.bind_wp (WP.broadcast ?_)
  have : ∀ i : Party, (do
      let h0 ← Prog.ofExcept (idx [D 0, D 1, D 2] 0)
      let h1 ← Prog.ofExcept (idx [D 0, D 1, D 2] 1)
      let h2 ← Prog.ofExcept (idx [D 0, D 1, D 2] 2)
      if h0 ≠ h1 ∨ h0 ≠ h2 then Prog.fail Err.verify else pure () : Prog Unit) = .fail .verify := by
    intro i
    show (if D 0 ≠ D 1 ∨ D 0 ≠ D 2 then Prog.fail Err.verify else pure () : Prog Unit) = _
    rw [if_pos h]
  exact Eq.mpr (congrArg (fun p => WPF p Err.verify) (funext this)) (WPF.fail _)

theorem leBytes_length (n v : Nat) : (leBytes n v).length = n := by
  induction n generalizing v with
  | zero => rfl
  | succ n ih => simp [leBytes, ih]

theorem leBytes_inj (n : Nat) {v w : Nat} (hv : v < 256 ^ n) (hw : w < 256 ^ n) (h : leBytes n v = leBytes n w) : v = w := by
  induction n generalizing v w with
  | zero => simp at hv hw; omega
  | succ n ih =>
    simp only [leBytes, List.cons.injEq] at h
    have h1 := congrArg BitVec.toNat h.1
    simp only [BitVec.toNat_ofNat] at h1
    rw [Nat.pow_succ] at hv hw
    have h2 := ih (by omega) (by omega) h.2
    omega

theorem hashBytes_length {K : Nat} (x : BitVec K) : (hashBytes x).length = byteLen K := leBytes_length _ _

theorem hashBytes_inj {K : Nat} {x y : BitVec K} (h : hashBytes x = hashBytes y) : x = y := by
  have : ∀ z : BitVec K, z.toNat < 256 ^ byteLen K := fun z => by
    refine lt_of_lt_of_le z.isLt ?_
    rw [show (256 : Nat) = 2 ^ 8 from rfl, ← Nat.pow_mul]
    exact Nat.pow_le_pow_right (by omega) (by unfold byteLen; omega)
  exact BitVec.eq_of_toNat_eq (leBytes_inj _ (this x) (this y) h)

theorem zeroBytes_length {K : Nat} (me : Party) (w : AShare K) : (zeroBytes me w).length = 3 * byteLen K := by
  match me with
  | 0 => simp [zeroBytes, hashBytes_length]; omega
  | 1 => simp [zeroBytes, hashBytes_length]; omega
  | 2 => simp [zeroBytes, hashBytes_length]; omega

/-- Two parties feed the same bytes to the hash only for a sharing of zero. -/
theorem zeroBytes_eq {K : Nat} {x : BitVec K} {w : Party → AShare K} (hw : SharesOf x w) {i j : Party} (hij : i ≠ j)
    (h : zeroBytes i (w i) = zeroBytes j (w j)) : x = 0 := by
  obtain ⟨b0, b1, b2⟩ := hw.b_eq
  have hs := hw.1
  have z1 : (w 1).a = -(w 0).a - (w 2).a → x = 0 := fun e => by rw [← hs, e]; ring
  have z2 : (w 0).a = -(w 2).a - (w 1).a → x = 0 := fun e => by rw [← hs, e]; ring
  have z3 : (w 2).a = -(w 1).a - (w 0).a → x = 0 := fun e => by rw [← hs, e]; ring
  have split : ∀ (a b c a' b' c' : BitVec K),
      hashBytes a ++ hashBytes b ++ hashBytes c = hashBytes a' ++ hashBytes b' ++ hashBytes c' →
      a = a' ∧ b = b' ∧ c = c' := by
    intro a b c a' b' c' h
    have h1 := List.append_inj_right' h (by simp [hashBytes_length])
    have h2 := List.append_inj_left' h (by simp [hashBytes_length])
    have h3 := List.append_inj_right' h2 (by simp [hashBytes_length])
    have h4 := List.append_inj_left' h2 (by simp [hashBytes_length])
    exact ⟨hashBytes_inj h4, hashBytes_inj h3, hashBytes_inj h1⟩
  have t01 : zeroBytes 0 (w 0) = zeroBytes 1 (w 1) → x = 0 := fun h => by
    obtain ⟨-, e, -⟩ := split _ _ _ _ _ _ h
    rw [b0] at e; exact z1 e.symm
  have t02 : zeroBytes 0 (w 0) = zeroBytes 2 (w 2) → x = 0 := fun h => by
    obtain ⟨e, -, -⟩ := split _ _ _ _ _ _ h
    rw [b2] at e; exact z2 e
  have t12 : zeroBytes 1 (w 1) = zeroBytes 2 (w 2) → x = 0 := fun h => by
    obtain ⟨-, -, e⟩ := split _ _ _ _ _ _ h
    rw [b1] at e; exact z3 e.symm
  match i, j, hij with
  | 0, 0, h' => exact absurd rfl h'
  | 1, 1, h' => exact absurd rfl h'
  | 2, 2, h' => exact absurd rfl h'
  | 0, 1, _ => exact t01 h
  | 0, 2, _ => exact t02 h
  | 1, 2, _ => exact t12 h
  | 1, 0, _ => exact t01 h.symm
  | 2, 0, _ => exact t02 h.symm
  | 2, 1, _ => exact t12 h.symm

theorem zeroBytes_all {K : Nat} {xs : List (BitVec K)} {ws : Party → List (AShare K)} (hw : Rels SharesOf xs ws)
    {i j : Party} (hij : i ≠ j) (h : (ws i).flatMap (zeroBytes i) = (ws j).flatMap (zeroBytes j)) : ∀ x ∈ xs, x = 0 := by
  induction xs generalizing ws with
  | nil => simp
  | cons x xs ih =>
    obtain ⟨b, ls, hb, h', rfl⟩ := hw.uncons
    simp only [List.flatMap_cons] at h
    have h1 := List.append_inj_left h (by simp [zeroBytes_length])
    have h2 := List.append_inj_right h (by simp [zeroBytes_length])
    intro y hy
    rcases List.mem_cons.1 hy with rfl | hy
    · exact zeroBytes_eq hb hij h1
    · exact ih h' h2 y hy

/-! ## How many challenges let a wrong product pass -/

/-- A linear equation over `V` bits whose coefficient does not vanish modulo `2^K` has at most `2^(K-1)` solutions. -/
theorem card_solutions {V K : Nat} (hK : K ≤ V) (d e : BitVec V) (hd : d.setWidth K ≠ 0) :
    ((Finset.range (2 ^ V)).filter fun r => BitVec.ofNat V r * d = e).card ≤ 2 ^ (K - 1) := by
  have hd0 : d.toNat % 2 ^ K ≠ 0 := by
    intro h
    apply hd
    apply BitVec.eq_of_toNat_eq
    rw [BitVec.toNat_setWidth, h]; simp
  have hdn : d.toNat ≠ 0 := fun h => hd0 (by rw [h]; simp)
  obtain ⟨t, u, hu, e1⟩ := Nat.exists_eq_two_pow_mul_odd hdn
  have ht : t < K := by
    by_contra h
    apply hd0
    rw [e1]
    exact Nat.mod_eq_zero_of_dvd (Dvd.dvd.mul_right (pow_dvd_pow 2 (by omega)) u)
  have hpos : 0 < 2 ^ (V - t) := Nat.two_pow_pos _
  have hmul : 2 ^ (V - t) * 2 ^ t = 2 ^ V := by rw [← pow_add]; congr 1; omega
  have hsol : ∀ r, BitVec.ofNat V r * d = e → r * d.toNat % 2 ^ V = e.toNat := by
    intro r h
    have := congrArg BitVec.toNat h
    rw [BitVec.toNat_mul, BitVec.toNat_ofNat, Nat.mod_mul_mod] at this
    exact this
  have hcong : ∀ r r', BitVec.ofNat V r * d = e → BitVec.ofNat V r' * d = e → r ≡ r' [MOD 2 ^ (V - t)] := by
    intro r r' h h'
    have h1 : r * d.toNat ≡ r' * d.toNat [MOD 2 ^ V] := by
      unfold Nat.ModEq; rw [hsol r h, hsol r' h']
    rw [e1, ← hmul] at h1
    have h2 : r * u * 2 ^ t ≡ r' * u * 2 ^ t [MOD 2 ^ (V - t) * 2 ^ t] := by
      have e2 : ∀ r, r * (2 ^ t * u) = r * u * 2 ^ t := fun r => by ring
      rw [e2, e2] at h1
      exact h1
    have h3 := Nat.ModEq.mul_right_cancel' (Nat.two_pow_pos t).ne' h2
    refine Nat.ModEq.cancel_right_of_coprime ?_ h3
    exact (Nat.Coprime.pow_left _ (Nat.coprime_two_left.2 hu))
  calc _ ≤ (Finset.range (2 ^ t)).card := by
        refine Finset.card_le_card_of_injOn (fun r => r / 2 ^ (V - t)) ?_ ?_
        · intro r hr
          simp only [Finset.coe_filter, Finset.mem_range, Set.mem_setOf_eq] at hr
          simp only [Finset.coe_range, Set.mem_Iio]
          rw [Nat.div_lt_iff_lt_mul hpos, mul_comm, hmul]
          exact hr.1
        · intro r hr r' hr' h
          simp only [Finset.coe_filter, Finset.mem_range, Set.mem_setOf_eq] at hr hr'
          have hc := hcong r r' hr.2 hr'.2
          simp only at h
          rw [← Nat.div_add_mod r (2 ^ (V - t)), ← Nat.div_add_mod r' (2 ^ (V - t)), h, hc]
    _ ≤ 2 ^ (K - 1) := by rw [Finset.card_range]; exact Nat.pow_le_pow_right (by omega) (by omega)

end Verif
