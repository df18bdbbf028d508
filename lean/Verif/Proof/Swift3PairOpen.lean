import Verif.Proof.PairExec
import Verif.Proof.Swift3Ops

/-! # Swift3 openings with a corrupt party -/

namespace Verif

namespace Swift3

variable {G : Prg} {H : Hash} {K L : Nat} {β : Type}

/-- The state with empty queues. -/
def noQueues (s : S3St G K) : S3St G K := { s with sendQNext := [], sendQPrev := [], rcvQNext := [], rcvQPrev := [] }

theorem verify_ite {c : Prop} [Decidable c] (s : S3St G K) :
    (if c then Proto.throw .jmpVerify else pure () : Proto (S3St G K) Unit) s = if c then .fail .jmpVerify else .ret ((), s) := by
  split <;> rfl

theorem verify0 (s : S3St G K) : jmpVerify H 0 s = (.send 1 (H.h s.sendQNext) (.send 2 (H.h s.sendQPrev)
      (.recv 2 fun rp => .recv 1 fun rn => if rp ≠ H.h s.rcvQPrev ∨ rn ≠ H.h s.rcvQNext then .fail .jmpVerify
        else .ret ((), noQueues s)))) := by
  simp only [← verify_ite]; rfl
theorem verify1 (s : S3St G K) : jmpVerify H 1 s = (.send 2 (H.h s.sendQNext) (.send 0 (H.h s.sendQPrev)
      (.recv 0 fun rp => .recv 2 fun rn => if rp ≠ H.h s.rcvQPrev ∨ rn ≠ H.h s.rcvQNext then .fail .jmpVerify
        else .ret ((), noQueues s)))) := by
  simp only [← verify_ite]; rfl
theorem verify2 (s : S3St G K) : jmpVerify H 2 s = (.send 0 (H.h s.sendQNext) (.send 1 (H.h s.sendQPrev)
      (.recv 1 fun rp => .recv 0 fun rn => if rp ≠ H.h s.rcvQPrev ∨ rn ≠ H.h s.rcvQNext then .fail .jmpVerify
        else .ret ((), noQueues s)))) := by
  simp only [← verify_ite]; rfl

theorem ite_bind {α γ : Type} {c : Prop} [Decidable c] (e : Err) (p : Prog α) (k : α → Prog γ) :
    ((if c then .fail e else p) >>= k) = if c then .fail e else p >>= k := by split <;> rfl

/-- The opening of one share, with the final computation `f`. -/
def openWith (H : Hash) (me : Party) (s : S3Share L) (f : BitVec L → β) : Proto (S3St G K) β := do
  jmpVerify H me
  let rcv ← openExchange me s
  jmpVerify H me
  pure (f rcv)

theorem openWith_p2 (i : Party) {st : Party → S3St G K} {s : Party → S3Share L}
    (f : Party → BitVec L → β) :
    P2 i (openWith H i (s i) (f i) (st i)) (openWith H i.next (s i.next) (f i.next) (st i.next)) [] []
      fun r r' a b => H.h (st i).rcvQNext = H.h (st i.next).sendQPrev ∧ H.h (st i.next).rcvQPrev = H.h (st i).sendQNext ∧
        ∃ x y, a = (f i x, noQueues (st i)) ∧ b = (f i.next y, noQueues (st i.next)) ∧
          (x = (s i.next).a ∨ ∃ m ∈ r i.prev, m = toBytes x ∧ H.h m = H.h (toBytes (s i.next).a)) ∧
          (y = (s i).b ∨ ∃ m ∈ r' i.prev, m = toBytes y ∧ H.h m = H.h (toBytes (s i).b)) := by
  unfold openWith openExchange
  rcases (by decide : ∀ i : Party, i = 0 ∨ i = 1 ∨ i = 2) i with rfl | rfl | rfl
  · simp only [Party.next_zero]
    s3_norm [verify0, verify1, ite_bind]
    run2
    rename_i m1 m2 c1 c2 x hx m3 y hy m4 c3 c4
    rw [fromBytes_toBytes] at hx hy
    injection hx with hx
    injection hy with hy
    push Not at c1 c2
    exact P2.done ⟨c1.2.symm, c2.1.symm, x, y, rfl, rfl, .inl hx.symm, .inl hy.symm⟩
  · simp only [Party.next_one]
    s3_norm [verify1, verify2, ite_bind]
    run2
    rename_i m1 m2 c1 m3 x hx m4 c2 m5 y hy m6 c3 c4
    push Not at c1 c2 c3 c4
    have hx' := toBytes_of_fromBytes hx
    have hy' := toBytes_of_fromBytes hy
    refine P2.done ⟨c1.2.symm, c2.1.symm, x, y, rfl, rfl, .inr ⟨m3, ?_, hx'.symm, ?_⟩, .inr ⟨m5, ?_, hy'.symm, ?_⟩⟩
    · simp [push]
    · have := c3.2
      simp only [noQueues, List.nil_append, hx'] at this
      exact this.symm
    · simp [push]
    · have := c4.1
      simp only [noQueues, List.nil_append, hy'] at this
      exact this.symm
  · simp only [Party.next_two]
    s3_norm [verify2, verify0, ite_bind]
    run2
    rename_i m1 m2 c1 c2 m3 x hx m4 y hy m5 c3 c4
    push Not at c1 c2 c3 c4
    have hy' := toBytes_of_fromBytes hy
    rw [fromBytes_toBytes] at hx
    injection hx with hx
    refine P2.done ⟨c1.2.symm, c2.1.symm, x, y, rfl, rfl, .inl hx.symm, .inr ⟨m3, ?_, hy'.symm, ?_⟩⟩
    · simp [push]
    · have := c4.1
      simp only [noQueues, List.nil_append, hy'] at this
      exact this.symm

/-- The opening of a list of shares, with the final computation `f`. -/
def openManyWith (H : Hash) (me : Party) (s : List (S3Share L)) (f : List (BitVec L) → β) : Proto (S3St G K) β := do
  jmpVerify H me
  let rcv ← openExchangeMany me s
  jmpVerify H me
  pure (f rcv)

theorem openManyWith_p2 (i : Party) {st : Party → S3St G K} {s : Party → List (S3Share L)}
    (hl : (s i).length = (s i.next).length) (f : Party → List (BitVec L) → β) :
    P2 i (openManyWith H i (s i) (f i) (st i)) (openManyWith H i.next (s i.next) (f i.next) (st i.next)) [] []
      fun r r' a b => H.h (st i).rcvQNext = H.h (st i.next).sendQPrev ∧ H.h (st i.next).rcvQPrev = H.h (st i).sendQNext ∧
        ∃ x y, x.length = (s i.next).length ∧ y.length = (s i).length ∧ a = (f i x, noQueues (st i)) ∧ b = (f i.next y, noQueues (st i.next)) ∧
          (x = (s i.next).map (·.a) ∨ ∃ m ∈ r i.prev, m = ringSliceToBytes x ∧ H.h m = H.h (ringSliceToBytes ((s i.next).map (·.a)))) ∧
          (y = (s i).map (·.b) ∨ ∃ m ∈ r' i.prev, m = ringSliceToBytes y ∧ H.h m = H.h (ringSliceToBytes ((s i).map (·.b)))) := by
  unfold openManyWith openExchangeMany
  rcases (by decide : ∀ i : Party, i = 0 ∨ i = 1 ∨ i = 2) i with rfl | rfl | rfl
  · simp only [Party.next_zero] at hl ⊢
    s3_norm [verify0, verify1, ite_bind, Jmp.foldl_toBytes]
    run2
    rename_i m1 m2 c1 c2 x hx m3 y hy m4 c3 c4
    rw [show (s 0).length = ((s 1).map (·.a)).length by simp [hl], ringVecFromBytes_roundtrip] at hx
    rw [show (s 1).length = ((s 0).map (·.b)).length by simp [hl], ringVecFromBytes_roundtrip] at hy
    injection hx with hx
    injection hy with hy
    push Not at c1 c2
    exact P2.done ⟨c1.2.symm, c2.1.symm, x, y, by simp [← hx], by simp [← hy], rfl, rfl, .inl hx.symm, .inl hy.symm⟩
  · simp only [Party.next_one] at hl ⊢
    s3_norm [verify1, verify2, ite_bind, Jmp.foldl_toBytes]
    run2
    rename_i m1 m2 c1 m3 x hx m4 c2 m5 y hy m6 c3 c4
    push Not at c1 c2 c3 c4
    have hx' := (ringVecFromBytes_ok hx).2
    have hy' := (ringVecFromBytes_ok hy).2
    refine P2.done ⟨c1.2.symm, c2.1.symm, x, y, (ringVecFromBytes_ok hx).1.trans hl, (ringVecFromBytes_ok hy).1.trans hl.symm, rfl, rfl, .inr ⟨m3, ?_, hx'.symm, ?_⟩, .inr ⟨m5, ?_, hy'.symm, ?_⟩⟩
    · simp [push]
    · have := c3.2
      simp only [noQueues, List.nil_append, hx'] at this
      exact this.symm
    · simp [push]
    · have := c4.1
      simp only [noQueues, List.nil_append, hy'] at this
      exact this.symm
  · simp only [Party.next_two] at hl ⊢
    s3_norm [verify2, verify0, ite_bind, Jmp.foldl_toBytes]
    run2
    rename_i m1 m2 c1 c2 m3 x hx m4 y hy m5 c3 c4
    push Not at c1 c2 c3 c4
    have hy' := (ringVecFromBytes_ok hy).2
    rw [show (s 2).length = ((s 0).map (·.a)).length by simp [hl], ringVecFromBytes_roundtrip] at hx
    injection hx with hx
    refine P2.done ⟨c1.2.symm, c2.1.symm, x, y, by simp [← hx], (ringVecFromBytes_ok hy).1.trans hl.symm, rfl, rfl, .inl hx.symm, .inr ⟨m3, ?_, hy'.symm, ?_⟩⟩
    · simp [push]
    · have := c4.1
      simp only [noQueues, List.nil_append, hy'] at this
      exact this.symm

end Swift3

end Verif
