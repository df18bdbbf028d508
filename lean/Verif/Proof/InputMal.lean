import Verif.Proof.JmpMal
import Verif.Proof.MalAby3Iris

/-! # Input followed by open with a corrupt party -/

namespace Verif

variable {σ α β : Type} {G : Prg} {K : Nat} {H : Hash}

namespace Local

variable {r s : Party → List Bytes} {st : σ} {me : Party}

theorem toBytes_of_ok {m : Bytes} {v : BitVec K} (h : fromBytes K m = .ok v) : m = toBytes v :=
  (toBytes_of_fromBytes h).symm

/-- A local computation. -/
theorem pstep {f : σ → α × σ} {k : α → Proto σ β} {q : Prog (β × σ)} (h : Local ((Proto.step f >>= k) st) r s q) :
    Local (k (f st).1 (f st).2) r s q := h

/-- Receiving one ring element. -/
theorem precv_ret {j : Party} {k : BitVec K → Proto σ β} {b : β × σ}
    (h : Local ((Proto.net (.recv j fun m => Prog.ofExcept (fromBytes K m)) >>= k) st) r s (.ret b)) :
    ∃ v r', r = push j (toBytes v) r' ∧ Local (k v st) r' s (.ret b) := by
  obtain ⟨m, r', rfl, h'⟩ := Local.recv_ret h
  change Local ((Proto.lift (fromBytes K m) >>= k) st) _ _ _ at h'
  obtain ⟨v, hv, h2⟩ := plift_ret h'
  exact ⟨v, r', by rw [toBytes_of_ok hv], h2⟩

theorem precv_inv {j : Party} {k : BitVec K → Proto σ β} {q : Prog (β × σ)}
    (h : Local ((Proto.net (.recv j fun m => Prog.ofExcept (fromBytes K m)) >>= k) st) r s q) :
    s = (fun _ => []) ∨ ∃ v r', r = push j (toBytes v) r' ∧ Local (k v st) r' s q := by
  obtain ⟨-, h, -⟩ | ⟨m, r', rfl, h'⟩ := Local.recv_inv h
  · exact .inl h
  change Local ((Proto.lift (fromBytes K m) >>= k) st) _ _ _ at h'
  obtain ⟨e, -, -, h, -⟩ | ⟨v, hv, h2⟩ := plift_inv h'
  · exact .inl h
  · exact .inr ⟨v, r', by rw [toBytes_of_ok hv], h2⟩

end Local

namespace Jmp

variable {γ : Type} {me : Party} {buf : Bytes → Bytes} {M : Bytes} {dec : Bytes → Except Err γ}
  {upd : Bytes → γ → Bytes} {fin : γ → α} {st : JmpSt G}

/-- What a finished opening has received. -/
theorem openLike_done' {r s : Party → List Bytes} {v : α} {st' : JmpSt G}
    (h : Local (openLike H me buf M dec upd fin st) r s (.ret (v, st'))) :
    ∃ m c, r me.prev = [m] ∧ dec m = .ok c ∧ r me.next = [H.h st.rcvQueueNext, H.h (upd [] c)] ∧ v = fin c := by
  have hnp := Party.next_ne_prev me
  obtain ⟨u, st1, r1, s1, r2, s2, hv, h2, rfl, rfl⟩ := Local.pbind_ret h
  obtain ⟨rfl, rfl, rfl⟩ := jmpVerify_done hv
  obtain ⟨s3, rfl, h3⟩ := Local.send_ret h2
  obtain ⟨m, r3, rfl, h4⟩ := Local.recv_ret h3
  change Local ((Proto.lift (dec m) >>= fun c => _) (⟨st.prf, buf [], []⟩ : JmpSt G)) _ _ _ at h4
  obtain ⟨c, hd, h5⟩ := Local.plift_ret h4
  change Local ((jmpVerify H me >>= fun _ => _) (⟨st.prf, buf [], upd [] c⟩ : JmpSt G)) _ _ _ at h5
  obtain ⟨u, st1, r4, s4, r5, s5, hv, h6, rfl, rfl⟩ := Local.pbind_ret h5
  obtain ⟨rfl, rfl, rfl⟩ := jmpVerify_done hv
  obtain ⟨rfl, rfl, e⟩ := Local.ret_inv h6
  injection e with e
  injection e with e _
  refine ⟨m, c, ?_, hd, ?_, e⟩
  · simp [push, hnp.symm]
  · simp [push, hnp]

/-- What a finished opening has sent. -/
theorem openLike_sent {r s : Party → List Bytes} {v : α} {st' : JmpSt G}
    (h : Local (openLike H me buf M dec upd fin st) r s (.ret (v, st'))) : s me.next = [M] := by
  have hnp := Party.next_ne_prev me
  obtain ⟨u, st1, r1, s1, r2, s2, hv, h2, rfl, rfl⟩ := Local.pbind_ret h
  obtain ⟨rfl, rfl, rfl⟩ := jmpVerify_done hv
  obtain ⟨s3, rfl, h3⟩ := Local.send_ret h2
  obtain ⟨m, r3, rfl, h4⟩ := Local.recv_ret h3
  change Local ((Proto.lift (dec m) >>= fun c => _) (⟨st.prf, buf [], []⟩ : JmpSt G)) _ _ _ at h4
  obtain ⟨c, hd, h5⟩ := Local.plift_ret h4
  change Local ((jmpVerify H me >>= fun _ => _) (⟨st.prf, buf [], upd [] c⟩ : JmpSt G)) _ _ _ at h5
  obtain ⟨u, st1, r4, s4, r5, s5, hv, h6, rfl, rfl⟩ := Local.pbind_ret h5
  obtain ⟨rfl, rfl, rfl⟩ := jmpVerify_done hv
  obtain ⟨rfl, rfl, e⟩ := Local.ret_inv h6
  simp [push, hnp]

theorem openLike_sent' {r s : Party → List Bytes} {v : α} {st' : JmpSt G}
    (h : Local (openLike H me buf M dec upd fin st) r s (.ret (v, st'))) :
    s me.prev = [H.h st.sendQueuePrev, H.h (buf [])] := by
  have hnp := Party.next_ne_prev me
  obtain ⟨u, st1, r1, s1, r2, s2, hv, h2, rfl, rfl⟩ := Local.pbind_ret h
  obtain ⟨rfl, rfl, rfl⟩ := jmpVerify_done hv
  obtain ⟨s3, rfl, h3⟩ := Local.send_ret h2
  obtain ⟨m, r3, rfl, h4⟩ := Local.recv_ret h3
  change Local ((Proto.lift (dec m) >>= fun c => _) (⟨st.prf, buf [], []⟩ : JmpSt G)) _ _ _ at h4
  obtain ⟨c, hd, h5⟩ := Local.plift_ret h4
  change Local ((jmpVerify H me >>= fun _ => _) (⟨st.prf, buf [], upd [] c⟩ : JmpSt G)) _ _ _ at h5
  obtain ⟨u, st1, r4, s4, r5, s5, hv, h6, rfl, rfl⟩ := Local.pbind_ret h5
  obtain ⟨rfl, rfl, rfl⟩ := jmpVerify_done hv
  obtain ⟨rfl, rfl, e⟩ := Local.ret_inv h6
  simp [push, hnp.symm]

/-- A party that has sent its component has passed the first check. -/
theorem openLike_passed {r s : Party → List Bytes} {q : Prog (α × JmpSt G)}
    (h : Local (openLike H me buf M dec upd fin st) r s q) (hs : s me.next ≠ []) :
    [H.h st.rcvQueueNext] <+: r me.next ∧ s me.next = [M] := by
  rcases Local.pbind_inv h with ⟨p', hp, -⟩ | ⟨u, st1, r1, s1, r2, s2, hv, h2, rfl, rfl⟩
  · exact absurd (jmpVerify_run hp).2.1 hs
  obtain ⟨rfl, rfl, rfl⟩ := jmpVerify_done hv
  refine ⟨by simp [push], ?_⟩
  have := (openLike_run h).2
  rcases List.prefix_cons_iff.1 this with h | ⟨t, h, ht⟩
  · exact absurd h hs
  · exact h.trans (by rw [List.prefix_nil.1 ht])

end Jmp

namespace MalAby3

open Jmp

theorem input_dealer (me : Party) (x : BitVec K) : (input me (some x) me.val : Proto (JmpSt G) _) = (do
    let share ← genRand K
    let o ← Proto.net (receiveValuePrev K me)
    Proto.step fun s => ((), { s with rcvQueueNext := s.rcvQueueNext ++ toBytes o })
    Proto.net (sendValueNext me (x - (share.a + share.b + o)))
    Proto.net (sendValuePrev me (x - (share.a + share.b + o)))
    pure ⟨share.a + (x - (share.a + share.b + o)), share.b⟩) := by
  have h3 : ¬ me.val ≥ 3 := by have := me.isLt; omega
  unfold input reconstructId jmpReceive
  simp only [if_neg h3, if_true, bind_assoc, pure_bind]
  rfl

theorem input_next (me : Party) (inp : Option (BitVec K)) : (input me inp me.prev.val : Proto (JmpSt G) _) = (do
    let share ← genRand K
    jmpBuffer share.a
    let value ← Proto.net (receiveValuePrev K me)
    Proto.net (sendValueNext me value)
    let value' ← Proto.net (receiveValueNext K me)
    if value ≠ value' then Proto.throw .verify
    else pure ⟨share.a, share.b + value⟩) := by
  have h3 : ¬ me.prev.val ≥ 3 := by have := me.prev.isLt; omega
  have h4 : ¬ me.val = me.prev.val := by match me with | 0 => decide | 1 => decide | 2 => decide
  have h4' : ¬ me.prev.val = me.val := fun h => h4 h.symm
  have h5 : ¬ me.val = (me.prev.val + 2) % 3 := by match me with | 0 => decide | 1 => decide | 2 => decide
  have h6 : me.val = (me.prev.val + 1) % 3 := by match me with | 0 => decide | 1 => decide | 2 => decide
  unfold input reconstructId
  simp only [if_neg h3, if_neg h4, if_neg h4', if_neg h5, if_pos h6, bind_assoc, pure_bind]

theorem input_prev (me : Party) (inp : Option (BitVec K)) : (input me inp me.next.val : Proto (JmpSt G) _) = (do
    let share ← genRand K
    jmpSend me share.b
    let value ← Proto.net (receiveValueNext K me)
    Proto.net (sendValuePrev me value)
    let value' ← Proto.net (receiveValuePrev K me)
    if value ≠ value' then Proto.throw .verify
    else pure share) := by
  have h3 : ¬ me.next.val ≥ 3 := by have := me.next.isLt; omega
  have h4 : ¬ me.val = me.next.val := by match me with | 0 => decide | 1 => decide | 2 => decide
  have h4' : ¬ me.next.val = me.val := fun h => h4 h.symm
  have h5 : me.val = (me.next.val + 2) % 3 := by match me with | 0 => decide | 1 => decide | 2 => decide
  have h6 : ¬ me.val = (me.next.val + 1) % 3 := by match me with | 0 => decide | 1 => decide | 2 => decide
  unfold input reconstructId
  simp only [if_neg h3, if_neg h4, if_neg h4', if_pos h5, if_neg h6, bind_assoc, pure_bind]


variable {me : Party} {st : JmpSt G} {r s : Party → List Bytes}

theorem input_dealer_done {x : BitVec K} {sh : AShare K} {st' : JmpSt G}
    (h : Local (input me (some x) me.val st) r s (.ret (sh, st'))) :
    ∃ o, let g := (st.prf.genRand K).1
      let w := x - (g.a + g.b + o)
      r me.prev = [toBytes o] ∧ r me.next = [] ∧ s me.next = [toBytes w] ∧ s me.prev = [toBytes w] ∧
      sh = ⟨g.a + w, g.b⟩ ∧ st' = ⟨(st.prf.genRand K).2, st.sendQueuePrev, st.rcvQueueNext ++ toBytes o⟩ := by
  have hnp := Party.next_ne_prev me
  rw [input_dealer] at h
  replace h := Local.pstep h
  change Local ((Proto.net (.recv me.prev fun m => Prog.ofExcept (fromBytes K m)) >>= fun v => _) (⟨(st.prf.genRand K).2, st.sendQueuePrev, st.rcvQueueNext⟩ : JmpSt G)) _ _ _ at h
  obtain ⟨o, r', rfl, h1⟩ := Local.precv_ret h
  obtain ⟨s2, rfl, h2⟩ := Local.send_ret h1
  obtain ⟨s3, rfl, h3⟩ := Local.send_ret h2
  obtain ⟨rfl, rfl, e⟩ := Local.ret_inv h3
  injection e with e
  injection e with e1 e2
  refine ⟨o, by simp [push], by simp [push, hnp], ?_, ?_, e1, e2⟩
  · rw [push_same, push_ne hnp]
  · rw [push_ne hnp.symm, push_same]

/-- What an unfinished dealer has sent. -/
theorem input_dealer_run {x : BitVec K} {q : Prog (AShare K × JmpSt G)}
    (h : Local (input me (some x) me.val st) r s q) :
    ∃ o, let g := (st.prf.genRand K).1
      let w := x - (g.a + g.b + o)
      s me.next <+: [toBytes w] ∧ s me.prev <+: [toBytes w] ∧ (s me.next ≠ [] → r me.prev = [toBytes o]) ∧
      (s me.prev ≠ [] → s me.next ≠ []) := by
  have hnp := Party.next_ne_prev me
  rw [input_dealer] at h
  replace h := Local.pstep h
  change Local ((Proto.net (.recv me.prev fun m => Prog.ofExcept (fromBytes K m)) >>= fun v => _) (⟨(st.prf.genRand K).2, st.sendQueuePrev, st.rcvQueueNext⟩ : JmpSt G)) _ _ _ at h
  obtain rfl | ⟨o, r', rfl, h1⟩ := Local.precv_inv h
  · exact ⟨0, by simp⟩
  refine ⟨o, ?_⟩
  obtain ⟨rfl, rfl, -⟩ | ⟨s2, rfl, h2⟩ := Local.send_inv h1
  · simp
  obtain ⟨rfl, rfl, -⟩ | ⟨s3, rfl, h3⟩ := Local.send_inv h2
  · simp only [push, hnp, hnp.symm]; simp
  obtain ⟨rfl, rfl, -⟩ := Local.ret_inv h3
  simp only [push, hnp, hnp.symm]; simp

theorem input_next_done {inp : Option (BitVec K)} {sh : AShare K} {st' : JmpSt G}
    (h : Local (input me inp me.prev.val st) r s (.ret (sh, st'))) :
    ∃ v : BitVec K, let g := (st.prf.genRand K).1
      r me.prev = [toBytes v] ∧ r me.next = [toBytes v] ∧ s me.next = [toBytes v] ∧ s me.prev = [] ∧
      sh = ⟨g.a, g.b + v⟩ ∧ st' = ⟨(st.prf.genRand K).2, st.sendQueuePrev ++ toBytes g.a, st.rcvQueueNext⟩ := by
  have hnp := Party.next_ne_prev me
  rw [input_next] at h
  replace h := Local.pstep h
  replace h := Local.pstep h
  change Local ((Proto.net (.recv me.prev fun m => Prog.ofExcept (fromBytes K m)) >>= fun v => _) (⟨(st.prf.genRand K).2, st.sendQueuePrev ++ toBytes (st.prf.genRand K).1.a, st.rcvQueueNext⟩ : JmpSt G)) _ _ _ at h
  obtain ⟨v, r', rfl, h1⟩ := Local.precv_ret h
  obtain ⟨s2, rfl, h2⟩ := Local.send_ret h1
  change Local ((Proto.net (.recv me.next fun m => Prog.ofExcept (fromBytes K m)) >>= fun v => _) (⟨(st.prf.genRand K).2, st.sendQueuePrev ++ toBytes (st.prf.genRand K).1.a, st.rcvQueueNext⟩ : JmpSt G)) _ _ _ at h2
  obtain ⟨v', r3, rfl, h3⟩ := Local.precv_ret h2
  by_cases hvv : v ≠ v'
  · rw [if_pos hvv] at h3; cases h3
  rw [if_neg hvv] at h3
  obtain ⟨rfl, rfl, e⟩ := Local.ret_inv h3
  injection e with e
  injection e with e1 e2
  push Not at hvv
  subst hvv
  exact ⟨v, by simp [push, hnp.symm], by simp [push, hnp], by simp [push], by simp [push, hnp.symm], e1, e2⟩

theorem input_next_run {inp : Option (BitVec K)} {q : Prog (AShare K × JmpSt G)}
    (h : Local (input me inp me.prev.val st) r s q) : s me.prev = [] := by
  have hnp := Party.next_ne_prev me
  rw [input_next] at h
  replace h := Local.pstep h
  replace h := Local.pstep h
  change Local ((Proto.net (.recv me.prev fun m => Prog.ofExcept (fromBytes K m)) >>= fun v => _) (⟨(st.prf.genRand K).2, st.sendQueuePrev ++ toBytes (st.prf.genRand K).1.a, st.rcvQueueNext⟩ : JmpSt G)) _ _ _ at h
  obtain rfl | ⟨v, r', rfl, h1⟩ := Local.precv_inv h
  · rfl
  obtain ⟨rfl, rfl, -⟩ | ⟨s2, rfl, h2⟩ := Local.send_inv h1
  · rfl
  rw [push_ne hnp.symm]
  change Local ((Proto.net (.recv me.next fun m => Prog.ofExcept (fromBytes K m)) >>= fun v => _) (⟨(st.prf.genRand K).2, st.sendQueuePrev ++ toBytes (st.prf.genRand K).1.a, st.rcvQueueNext⟩ : JmpSt G)) _ _ _ at h2
  obtain rfl | ⟨v', r3, rfl, h3⟩ := Local.precv_inv h2
  · rfl
  by_cases hvv : v ≠ v'
  · rw [if_pos hvv] at h3; obtain ⟨-, rfl, -⟩ := Local.fail_inv h3; rfl
  · rw [if_neg hvv] at h3; obtain ⟨-, rfl, -⟩ := Local.ret_inv h3; rfl

theorem input_prev_done {inp : Option (BitVec K)} {sh : AShare K} {st' : JmpSt G}
    (h : Local (input me inp me.next.val st) r s (.ret (sh, st'))) :
    ∃ v : BitVec K, let g := (st.prf.genRand K).1
      r me.prev = [toBytes v] ∧ r me.next = [toBytes v] ∧ s me.next = [toBytes g.b] ∧ s me.prev = [toBytes v] ∧
      sh = g ∧ st' = ⟨(st.prf.genRand K).2, st.sendQueuePrev, st.rcvQueueNext⟩ := by
  have hnp := Party.next_ne_prev me
  rw [input_prev] at h
  obtain ⟨s1, rfl, h0⟩ := Local.send_ret h
  change Local ((Proto.net (.recv me.next fun m => Prog.ofExcept (fromBytes K m)) >>= fun v => _) (⟨(st.prf.genRand K).2, st.sendQueuePrev, st.rcvQueueNext⟩ : JmpSt G)) _ _ _ at h0
  obtain ⟨v, r', rfl, h1⟩ := Local.precv_ret h0
  obtain ⟨s2, rfl, h2⟩ := Local.send_ret h1
  change Local ((Proto.net (.recv me.prev fun m => Prog.ofExcept (fromBytes K m)) >>= fun v => _) (⟨(st.prf.genRand K).2, st.sendQueuePrev, st.rcvQueueNext⟩ : JmpSt G)) _ _ _ at h2
  obtain ⟨v', r3, rfl, h3⟩ := Local.precv_ret h2
  by_cases hvv : v ≠ v'
  · rw [if_pos hvv] at h3; cases h3
  rw [if_neg hvv] at h3
  obtain ⟨rfl, rfl, e⟩ := Local.ret_inv h3
  injection e with e
  injection e with e1 e2
  push Not at hvv
  subst hvv
  exact ⟨v, by simp [push, hnp.symm], by simp [push, hnp], by simp [push, hnp], by simp [push, hnp.symm], e1, e2⟩

theorem input_prev_run {inp : Option (BitVec K)} {q : Prog (AShare K × JmpSt G)}
    (h : Local (input me inp me.next.val st) r s q) : s me.next <+: [toBytes (st.prf.genRand K).1.b] := by
  have hnp := Party.next_ne_prev me
  rw [input_prev] at h
  obtain ⟨rfl, rfl, -⟩ | ⟨s1, rfl, h0⟩ := Local.send_inv h
  · simp
  rw [push_same]
  have : s1 me.next = [] := by
    change Local ((Proto.net (.recv me.next fun m => Prog.ofExcept (fromBytes K m)) >>= fun v => _) (⟨(st.prf.genRand K).2, st.sendQueuePrev, st.rcvQueueNext⟩ : JmpSt G)) _ _ _ at h0
    obtain rfl | ⟨v, r', rfl, h1⟩ := Local.precv_inv h0
    · rfl
    obtain ⟨rfl, rfl, -⟩ | ⟨s2, rfl, h2⟩ := Local.send_inv h1
    · rfl
    rw [push_ne hnp]
    change Local ((Proto.net (.recv me.prev fun m => Prog.ofExcept (fromBytes K m)) >>= fun v => _) (⟨(st.prf.genRand K).2, st.sendQueuePrev, st.rcvQueueNext⟩ : JmpSt G)) _ _ _ at h2
    obtain rfl | ⟨v', r3, rfl, h3⟩ := Local.precv_inv h2
    · rfl
    by_cases hvv : v ≠ v'
    · rw [if_pos hvv] at h3; obtain ⟨-, rfl, -⟩ := Local.fail_inv h3; rfl
    · rw [if_neg hvv] at h3; obtain ⟨-, rfl, -⟩ := Local.ret_inv h3; rfl
  rw [this]

/-! ## The two methods in sequence -/

/-- Provide a value and open it at once. -/
def inputOpen (H : Hash) (me : Party) (inp : Option (BitVec K)) (id : Nat) : Proto (JmpSt G) (BitVec K) := do
  let s ← input me inp id
  openShare H me s

section

variable {v : BitVec K} {st' : JmpSt G} {q : Prog (BitVec K × JmpSt G)}


theorem io_dealer_done {x : BitVec K} (h : Local (inputOpen H me (some x) me.val st) r s (.ret (v, st'))) :
    ∃ o y : BitVec K, r me.prev = [toBytes o, toBytes y] ∧
      r me.next = [H.h (st.rcvQueueNext ++ toBytes o), H.h (toBytes y)] ∧
      v = (st.prf.genRand K).1.a + (x - ((st.prf.genRand K).1.a + (st.prf.genRand K).1.b + o)) + (st.prf.genRand K).1.b + y := by
  obtain ⟨sh, st1, r1, s1, r2, s2, hv, h2, rfl, rfl⟩ := Local.pbind_ret h
  obtain ⟨o, h1, h3, -, -, rfl, rfl⟩ := input_dealer_done hv
  rw [openShare_like] at h2
  obtain ⟨m, y, hm, hy, hn, rfl⟩ := openLike_done' h2
  refine ⟨o, y, ?_, ?_, rfl⟩
  · simp only [h1, hm, Local.toBytes_of_ok hy, List.cons_append, List.nil_append]
  · simp only [h3, hn, List.nil_append]

theorem io_dealer_run {x : BitVec K} (h : Local (inputOpen H me (some x) me.val st) r s q) :
    ∃ o, s me.next <+: [toBytes (x - ((st.prf.genRand K).1.a + (st.prf.genRand K).1.b + o)), toBytes (st.prf.genRand K).1.b] ∧
      s me.prev <+: [toBytes (x - ((st.prf.genRand K).1.a + (st.prf.genRand K).1.b + o)), H.h st.sendQueuePrev,
        H.h (toBytes ((st.prf.genRand K).1.a + (x - ((st.prf.genRand K).1.a + (st.prf.genRand K).1.b + o))))] ∧
      (s me.prev ≠ [] → [toBytes o] <+: r me.prev) ∧
      (2 ≤ (s me.next).length → [toBytes o] <+: r me.prev ∧ [H.h (st.rcvQueueNext ++ toBytes o)] <+: r me.next) := by
  rcases Local.pbind_inv h with ⟨p', hp, -⟩ | ⟨sh, st1, r1, s1, r2, s2, hv, h2, rfl, rfl⟩
  · obtain ⟨o, h1, h2, h3, h4⟩ := input_dealer_run hp
    refine ⟨o, h1.trans (by simp), h2.trans (by simp), fun h => ?_, fun h => ?_⟩
    · rw [h3 (h4 h)]
    · have := h1.length_le
      simp only [List.length_singleton] at this
      omega
  · obtain ⟨o, h1, h3, h4, h5, rfl, rfl⟩ := input_dealer_done hv
    rw [openShare_like] at h2
    obtain ⟨h6, h7⟩ := openLike_run h2
    refine ⟨o, ?_, ?_, fun _ => ?_, fun h => ⟨?_, ?_⟩⟩
    · simp only [h4, List.cons_append, List.nil_append, List.prefix_cons_inj]; exact h7
    · simp only [h5, List.cons_append, List.nil_append, List.prefix_cons_inj]; exact h6
    · simp only [h1]; exact List.prefix_append _ _
    · simp only [h1]; exact List.prefix_append _ _
    · simp only [h3, List.nil_append]
      refine (openLike_passed h2 fun h0 => ?_).1
      simp only [h4, h0, List.append_nil, List.length_singleton] at h
      omega

theorem io_next_done {inp : Option (BitVec K)} (h : Local (inputOpen H me inp me.prev.val st) r s (.ret (v, st'))) :
    ∃ (w y : BitVec K) (h1 : Bytes), r me.prev = [toBytes w, toBytes y] ∧ r me.next = [toBytes w, h1, H.h (toBytes y)] ∧
      s me.next = [toBytes w, toBytes ((st.prf.genRand K).1.b + w)] ∧ v = (st.prf.genRand K).1.a + ((st.prf.genRand K).1.b + w) + y := by
  obtain ⟨sh, st1, r1, s1, r2, s2, hv, h2, rfl, rfl⟩ := Local.pbind_ret h
  obtain ⟨w, h1, h3, h4, -, rfl, rfl⟩ := input_next_done hv
  rw [openShare_like] at h2
  obtain ⟨m, y, hm, hy, hn, rfl⟩ := openLike_done' h2
  have hs : s2 me.next = [toBytes ((st.prf.genRand K).1.b + w)] := by
    have := openLike_sent h2
    exact this
  refine ⟨w, y, _, ?_, (congrArg₂ (· ++ ·) h3 hn), ?_, rfl⟩
  · simp only [h1, hm, Local.toBytes_of_ok hy, List.cons_append, List.nil_append]
  · simp only [h4, hs, List.cons_append, List.nil_append]

theorem io_next_run {inp : Option (BitVec K)} (h : Local (inputOpen H me inp me.prev.val st) r s q) :
    s me.prev <+: [H.h (st.sendQueuePrev ++ toBytes (st.prf.genRand K).1.a), H.h (toBytes (st.prf.genRand K).1.a)] := by
  rcases Local.pbind_inv h with ⟨p', hp, -⟩ | ⟨sh, st1, r1, s1, r2, s2, hv, h2, rfl, rfl⟩
  · rw [input_next_run hp]; simp
  · obtain ⟨w, h1, h3, h4, h5, rfl, rfl⟩ := input_next_done hv
    rw [openShare_like] at h2
    simp only [h5, List.nil_append]
    exact (openLike_run h2).1

theorem io_prev_done {inp : Option (BitVec K)} (h : Local (inputOpen H me inp me.next.val st) r s (.ret (v, st'))) :
    ∃ (w y : BitVec K) (h1 : Bytes), r me.prev = [toBytes w, toBytes y] ∧ r me.next = [toBytes w, h1, H.h (toBytes y)] ∧
      s me.prev = [toBytes w, H.h st.sendQueuePrev, H.h (toBytes (st.prf.genRand K).1.a)] ∧ v = (st.prf.genRand K).1.a + (st.prf.genRand K).1.b + y := by
  obtain ⟨sh, st1, r1, s1, r2, s2, hv, h2, rfl, rfl⟩ := Local.pbind_ret h
  obtain ⟨w, h1, h3, h4, h5, rfl, rfl⟩ := input_prev_done hv
  rw [openShare_like] at h2
  obtain ⟨m, y, hm, hy, hn, rfl⟩ := openLike_done' h2
  have hs := openLike_sent' h2
  refine ⟨w, y, _, ?_, (congrArg₂ (· ++ ·) h3 hn), ?_, rfl⟩
  · simp only [h1, hm, Local.toBytes_of_ok hy, List.cons_append, List.nil_append]
  · simp only [h5, hs, List.cons_append, List.nil_append]

theorem io_prev_run {inp : Option (BitVec K)} (h : Local (inputOpen H me inp me.next.val st) r s q) :
    s me.next <+: [toBytes (st.prf.genRand K).1.b, toBytes (st.prf.genRand K).1.b] := by
  rcases Local.pbind_inv h with ⟨p', hp, -⟩ | ⟨sh, st1, r1, s1, r2, s2, hv, h2, rfl, rfl⟩
  · exact (input_prev_run hp).trans (by simp)
  · obtain ⟨w, h1, h3, h4, h5, rfl, rfl⟩ := input_prev_done hv
    rw [openShare_like] at h2
    simp only [h4, List.cons_append, List.nil_append, List.prefix_cons_inj]
    exact (openLike_run h2).2

end

end MalAby3

end Verif
