import Verif.Proof.UniOpen
import Verif.Proof.UniAby3

/-!
# Uniform views of the single gates of ABY3
-/

namespace Verif

namespace Uni

variable {K n : Nat} {i : Party}

theorem mul {a b : Party → AShare K} :
    Uni i [(K, 1)] (fun j => Aby3.mul (G := bitPrg) j (a j) (b j)) (fun _ => True) := by
  refine Uni.congr (q := fun j => ((Aby3.genZero K >>= fun r => Pure.pure (((a j).mulLocal (b j)).a + r) :
    Proto (Aby3St bitPrg) (BitVec K)) >>= fun x => Proto.net (sendAndReceiveValue j x) >>= fun y => Pure.pure ⟨x, y⟩))
    (fun j => by simp only [Aby3.mul, bind_assoc, pure_bind]) ?_
  refine Uni.exchangeValue (f := fun _ x y => AShare.mk x y) ?_ fun _ _ => trivial
  refine Masks.congr (fun j => ?_) (Masks.consZero (f := fun j c => ((a j).mulLocal (b j)).a + c)
    (fun j c => by rw [add_zero, BitVec.add_comm]) Masks.nil)
  simp only [bind_assoc, pure_bind]

theorem dotAcc_shift (r : BitVec K) (ps : List (AShare K × AShare K)) : Aby3.dotAcc r ps = r + Aby3.dotAcc 0 ps := by
  unfold Aby3.dotAcc
  induction ps generalizing r with
  | nil => simp
  | cons p ps ih =>
    simp only [List.foldl_cons]
    rw [ih, ih (0 + _), zero_add, BitVec.add_assoc]

theorem dot {a b : Party → List (AShare K)} (h : ∀ j, (a j).length = (b j).length) :
    Uni i [(K, 1)] (fun j => Aby3.dot (G := bitPrg) j (a j) (b j)) (fun _ => True) := by
  unfold Aby3.dot
  refine Uni.ite_neg (fun j => by simp [h j]) ?_
  refine Uni.congr (q := fun j => ((Aby3.genZero K >>= fun r => Pure.pure (Aby3.dotAcc r ((a j).zip (b j))) :
    Proto (Aby3St bitPrg) (BitVec K)) >>= fun x => Proto.net (sendAndReceiveValue j x) >>= fun y => Pure.pure ⟨x, y⟩))
    (fun j => by simp only [bind_assoc, pure_bind]) ?_
  refine Uni.exchangeValue (f := fun _ x y => AShare.mk x y) ?_ fun _ _ => trivial
  refine Masks.congr (fun j => ?_) (Masks.consZero (f := fun j c => Aby3.dotAcc c ((a j).zip (b j)))
    (fun j c => dotAcc_shift _ _) Masks.nil)
  simp only [bind_assoc, pure_bind]

theorem dotLoop : ∀ (n : Nat) {b : Party → List (List (AShare K) × List (AShare K))}, Sh n b →
    (∀ j, ∀ p ∈ b j, p.1.length = p.2.length) → Masks i n (fun j => Aby3.dotLoop (G := bitPrg) (b j)) := by
  intro n
  induction n with
  | zero =>
    intro b hb _
    refine Masks.congr (q := fun _ => Pure.pure []) (fun j => ?_) Masks.nil
    rw [List.length_eq_zero_iff.1 (hb j)]; rfl
  | succ n ih =>
    intro b hb hl
    have hc : ∀ j, ∃ x r, b j = x :: r := fun j => List.exists_cons_of_length_eq_add_one (hb j)
    choose x r hx using hc
    refine Masks.congr (fun j => ?_) (Masks.consZero (f := fun j c => Aby3.dotAcc c ((x j).1.zip (x j).2))
      (q := fun j => Aby3.dotLoop (r j)) (fun j c => dotAcc_shift _ _) (ih (fun j => ?_) fun j p hp => ?_))
    · rw [hx]
      have := hl j (x j) (by simp [hx])
      generalize x j = y at this
      obtain ⟨y1, y2⟩ := y
      conv_lhs => unfold Aby3.dotLoop
      simp only [show y1.length = y2.length from this, ne_eq, not_true, if_false]
    · have := hb j
      rw [hx] at this
      simpa using this
    · exact hl j p (by simp [hx, hp])

theorem dotMany {a b : Party → List (List (AShare K))} (ha : Sh n a) (hb : Sh n b)
    (hl : ∀ j, ∀ p ∈ (a j).zip (b j), p.1.length = p.2.length) :
    Uni i [(K, n)] (fun j => Aby3.dotMany (G := bitPrg) j (a j) (b j)) (Sh n) := by
  unfold Aby3.dotMany
  refine Uni.ite_neg (fun j => by simp [ha j, hb j]) ?_
  refine Uni.exchange (f := fun _ x y => List.zipWith AShare.mk x y) (dotLoop n (fun j => by simp [ha j, hb j]) hl) ?_
  intro v w hv hw j
  simp [hv, hw]

theorem koggeLoop (i : Party) : ∀ (r k : Nat) (p g : Party → AShare K),
    Uni i (List.replicate r (K, 2)) (fun j => ((Aby3.fam bitPrg j).ops K).koggeLoop r k (p j) (g j)) (fun _ => True) := by
  intro r
  induction r with
  | zero => intro k p g; exact Uni.pure trivial
  | succ r ih =>
    intro k p g
    unfold BinOps.koggeLoop
    rw [List.replicate_succ]
    have hA : Uni i [(K, 2)] (fun j => Aby3.andMany (G := bitPrg) j [p j, p j] [(g j).shl (2 ^ k), (p j).shl (2 ^ k)]) (Sh 2) :=
      Uni.andMany (fun _ => rfl) fun _ => rfl
    refine Uni.bind (F := [(K, 2)]) (F' := List.replicate r (K, 2)) hA fun c hc => ?_
    have h1 : ∀ j, ∃ x, idx (c j) 1 = .ok x := fun j => ⟨(c j)[1]'(by rw [hc j]; omega), by simp [idx, hc j]⟩
    have h0 : ∀ j, ∃ x, idx (c j) 0 = .ok x := fun j => ⟨(c j)[0]'(by rw [hc j]; omega), by simp [idx, hc j]⟩
    choose x1 h1 using h1
    choose x0 h0 using h0
    refine Uni.bind' (Uni.lift (Q := (· = x1)) h1 rfl) ?_
    rintro _ rfl
    refine Uni.bind' (Uni.lift (Q := (· = x0)) h0 rfl) ?_
    rintro _ rfl
    exact ih _ _ _

theorem getMsb (i : Party) (a : Party → AShare K) :
    Uni i ([(K, 1)] ++ ([(K, 1)] ++ (List.replicate (ceilLog2 K) (K, 2) ++ []))) (fun j => Aby3.getMsb (G := bitPrg) j (a j)) (fun _ => True) := by
  unfold Aby3.getMsb Aby3.a2b BinOps.binaryAdd3
  simp only [bind_assoc, pure_bind]
  refine Uni.bind Uni.and fun c _ => ?_
  refine Uni.bind Uni.and fun g _ => ?_
  exact Uni.bind (koggeLoop i _ _ _ _) fun z _ => Uni.pure trivial

end Uni

end Verif
