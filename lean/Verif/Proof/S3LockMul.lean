import Verif.Proof.S3LockAnd
import Verif.Proof.S3LockOpen

/-!
# Lock-step runs of a single multiplication and dot product of Swift3
-/

namespace Verif

open Swift3

variable {f : Bytes → List Bool} {K L m n : Nat} {α β γ δ : Type} {i : Party}

/-- `postArith` cut into phases that all parties go through together. -/
def arithPhases (me : Party) (p : Post K) : Proto (S3St (idealPrg f) K) (S3Share K) := do
  (match me with
    | 0 => pure ()
    | 1 => jmpQueue 1 p.yb 2
    | 2 => jmpQueue 2 p.ya 1 : Proto (S3St (idealPrg f) K) Unit)
  let b1 ← Proto.net (match me with
      | 0 => Prog.send 2 (toBytes p.ya) (.send 1 (toBytes p.yb) (.ret []))
      | 1 => .recv 0 .ret
      | 2 => .recv 0 .ret)
  let y ← Proto.lift (match me with
      | 0 => .ok 0
      | _ => fromBytes K b1)
  (match me with
    | 0 => pure ()
    | 1 => Proto.step fun s => ((), { s with rcvQNext := s.rcvQNext ++ toBytes y })
    | 2 => Proto.step fun s => ((), { s with rcvQPrev := s.rcvQPrev ++ toBytes y }) : Proto (S3St (idealPrg f) K) Unit)
  let ts ← jdraw mixAdd (draw0 K) me [match me with
    | 2 => y + p.yb + p.ya + p.zc
    | _ => p.yb + p.ya + y + p.zc]
  let b2 ← Proto.net (match me with
      | 0 => Prog.recv 1 .ret
      | 1 => .send 0 (toBytes (hd3 ts).2.2) (.ret [])
      | 2 => .ret [])
  let b ← Proto.lift (match me with
      | 0 => fromBytes K b2
      | _ => .ok 0)
  (match me with
    | 0 => Proto.step fun s => ((), { s with rcvQPrev := s.rcvQPrev ++ toBytes b })
    | 1 => pure ()
    | 2 => jmpQueue 2 (hd3 ts).2.2 0 : Proto (S3St (idealPrg f) K) Unit)
  pure ((match me with
    | 0 => (⟨(hd3 ts).1, (hd3 ts).1, b⟩ : S3Share K)
    | 1 => ⟨(hd3 ts).1, (hd3 ts).2.1, (hd3 ts).2.2⟩
    | 2 => ⟨(hd3 ts).2.1, (hd3 ts).1, (hd3 ts).2.2⟩).sub ⟨p.r1, p.r2, 0⟩)

theorem postArith_eq (me : Party) (p : Post K) :
    (postArith me p : Proto (S3St (idealPrg f) K) _) = arithPhases me p := by
  match me with
  | 0 =>
    show (jmpSend 0 p.ya 2 >>= fun _ => jmpSend 0 p.yb 1 >>= fun _ => (genP K >>= fun q => jmpReceive K 0 1 >>= fun b => pure (⟨q, q, b⟩ : S3Share K)) >>= fun r =>
        pure (r.sub ⟨p.r1, p.r2, 0⟩)) = _
    rw [jmpReceive01]
    simp only [bind_assoc, pure_bind]
    rfl
  | 1 =>
    show (jmpQueue 1 p.yb 2 >>= fun _ => jmpReceive K 1 0 >>= fun y => (genP K >>= fun q => gen1 K >>= fun a =>
      jmpSend 1 (mixAdd a q (p.yb + p.ya + y + p.zc)) 0 >>= fun _ => pure (⟨a, q, mixAdd a q (p.yb + p.ya + y + p.zc)⟩ : S3Share K)) >>= fun r =>
        pure (r.sub ⟨p.r1, p.r2, 0⟩)) = _
    rw [jmpReceive10]
    simp only [bind_assoc, pure_bind]
    rfl
  | 2 =>
    show (jmpQueue 2 p.ya 1 >>= fun _ => jmpReceive K 2 0 >>= fun y => (genP K >>= fun q => gen2 K >>= fun a =>
      jmpQueue 2 (mixAdd a q (y + p.yb + p.ya + p.zc)) 0 >>= fun _ => pure (⟨q, a, mixAdd a q (y + p.yb + p.ya + p.zc)⟩ : S3Share K)) >>= fun r =>
        pure (r.sub ⟨p.r1, p.r2, 0⟩)) = _
    rw [jmpReceive20]
    simp only [bind_assoc, pure_bind]
    rfl

theorem postArith_cpl {p : Bool → Party → Post K} (hy : SameY i fun w j => [p w j]) :
    Cpl3 (f := f) (K := K) i (jbits i (K * 1)) (fun w j => postArith j (p w j)) fun _ => True := by
  refine Cpl3.congr (fun w j => postArith_eq _ _) ?_
  unfold arithPhases
  refine Cpl3.bind' (Cpl3.quiet fun w j => ?_) fun _ _ => ?_
  · match j with
    | 0 => exact ⟨fun s => s, fun _ _ => rfl, rfl⟩
    | 1 => exact ⟨fun s => { s with sendQNext := s.sendQNext ++ toBytes (p w 1).yb }, fun _ _ => rfl, rfl⟩
    | 2 => exact ⟨fun s => { s with sendQPrev := s.sendQPrev ++ toBytes (p w 2).ya }, fun _ _ => rfl, rfl⟩
  refine Cpl3.bind' (Cpl3.net (a := fun w j => match j with
    | 0 => []
    | 1 => toBytes (p w 0).yb
    | 2 => toBytes (p w 0).ya) ?_ rfl) fun b1 hb1 => ?_
  · refine Talk.congr (fun w j => ?_) (Talk.fan (x := fun w => toBytes (p w 0).ya) (y := fun w => toBytes (p w 0).yb)
      (fun h => ?_) fun h => ?_)
    · match j with
      | 0 => rfl
      | 1 => rfl
      | 2 => rfl
    · have := hy.1 h
      simp only [List.map_cons, List.map_nil, List.cons.injEq, and_true] at this
      simp only [this]
    · have := hy.2 h
      simp only [List.map_cons, List.map_nil, List.cons.injEq, and_true] at this
      simp only [this]
  subst hb1
  refine Cpl3.bind' (Cpl3.lift (a := fun w j => match j with
    | 0 => 0
    | 1 => (p w 0).yb
    | 2 => (p w 0).ya) (fun w j => ?_) rfl) fun y hy' => ?_
  · match j with
    | 0 => rfl
    | 1 => exact fromBytes_toBytes _
    | 2 => exact fromBytes_toBytes _
  subst hy'
  refine Cpl3.bind' (Cpl3.quiet fun w j => ?_) fun _ _ => ?_
  · match j with
    | 0 => exact ⟨fun s => s, fun _ _ => rfl, rfl⟩
    | 1 => exact ⟨fun s => { s with rcvQNext := s.rcvQNext ++ toBytes (p w 0).yb }, fun _ _ => rfl, rfl⟩
    | 2 => exact ⟨fun s => { s with rcvQPrev := s.rcvQPrev ++ toBytes (p w 0).ya }, fun _ _ => rfl, rfl⟩
  refine Cpl3.bind_local (jdraw_cpl (m := 1) mixAdd_ok draw0_common fun w j => rfl) fun ts hts => ?_
  refine Cpl3.bind' (Cpl3.net (a := fun w j => match j with
    | 0 => toBytes (hd3 (ts w 1)).2.2
    | 1 => []
    | 2 => []) ?_ rfl) fun b2 hb2 => ?_
  · refine Talk.congr (fun w j => ?_) (Talk.up (x := fun w => toBytes (hd3 (ts w 1)).2.2) fun h => by rw [hd3_beta, hd3_beta, hts.2 h])
    match j with
    | 0 => rfl
    | 1 => rfl
    | 2 => rfl
  subst hb2
  refine Cpl3.bind' (Cpl3.lift (a := fun w j => match j with
    | 0 => (hd3 (ts w 1)).2.2
    | 1 => 0
    | 2 => 0) (fun w j => ?_) rfl) fun bs hbs => ?_
  · match j with
    | 0 => exact fromBytes_toBytes _
    | 1 => rfl
    | 2 => rfl
  subst hbs
  refine Cpl3.bind' (Cpl3.quiet fun w j => ?_) fun _ _ => ?_
  · match j with
    | 0 => exact ⟨fun s => { s with rcvQPrev := s.rcvQPrev ++ toBytes (hd3 (ts w 1)).2.2 }, fun _ _ => rfl, rfl⟩
    | 1 => exact ⟨fun s => s, fun _ _ => rfl, rfl⟩
    | 2 => exact ⟨fun s => { s with sendQNext := s.sendQNext ++ toBytes (hd3 (ts w 2)).2.2 }, fun _ _ => rfl, rfl⟩
  exact Cpl3.pure trivial

/-- The draws of `abyMul`. -/
def mulStep (p : AShare K × AShare K) (r1 r2 : BitVec K) : BitVec K × AShare K := ((p.1.mulLocal p.2).a + (r1 - r2), ⟨r1, r2⟩)

theorem mulStep_masked (p : AShare K × AShare K) (a c : BitVec K) : ∃ b, (mulStep p a b).1 = c :=
  ⟨(p.1.mulLocal p.2).a + a - c, by
    show _ + (a - (_ + a - c)) = c
    ring⟩

theorem abyMul3_cpl {a b : Bool → Party → AShare K} :
    Cpl3 (f := f) (K := K) i (K * 1) (fun w j => Swift3.abyMul j (a w j) (b w j)) fun _ => True := by
  refine Cpl3.congr (q := fun w j => drawLoop mulStep [(a w j, b w j)] >>= fun r =>
    Proto.net (sendAndReceiveValue j ((r.map (·.1)).headD 0)) >>= fun y => Proto.step fun s : S3St (idealPrg f) K =>
      ((⟨(r.map (·.1)).headD 0, y⟩ : AShare K), { s with
        mulProof := s.mulProof.registerMul (a w j) (b w j) ((r.map (·.2)).headD ⟨0, 0⟩) ⟨(r.map (·.1)).headD 0, y⟩ })) (fun w j => rfl) ?_
  refine Cpl3.bind_local (drawLoop_prev (m := 1) (o := (·.1)) (fun x a c => mulStep_masked x a c) fun w j => rfl) fun r hr => ?_
  refine Cpl3.bind' (Cpl3.net (Talk.value (x := fun w j => ((r w j).map (·.1)).headD 0) (by rw [hr.2])) rfl) fun y hy => ?_
  subst hy
  exact Cpl3.step (a := fun w j => (⟨((r w j).map (·.1)).headD 0, ((r w j.prev).map (·.1)).headD 0⟩ : AShare K))
    (Q := fun _ => True) (g := fun w j s => { s with
      mulProof := s.mulProof.registerMul (a w j) (b w j) (((r w j).map (·.2)).headD ⟨0, 0⟩) ⟨((r w j).map (·.1)).headD 0, ((r w j.prev).map (·.1)).headD 0⟩ }) trivial fun _ _ _ _ => rfl

theorem abyDot3_cpl {a b : Bool → Party → List (AShare K)} :
    Cpl3 (f := f) (K := K) i (K * 1) (fun w j => Swift3.abyDot j (a w j) (b w j)) fun _ => True := by
  refine Cpl3.congr (q := fun w j => drawLoop dotStep [(a w j, b w j)] >>= fun r =>
    Proto.net (sendAndReceiveValue j ((r.map (·.1)).headD 0)) >>= fun y => Proto.step fun s : S3St (idealPrg f) K =>
      ((⟨(r.map (·.1)).headD 0, y⟩ : AShare K), { s with
        dotProof := s.dotProof.registerDot ((a w j).zip (b w j)) ((r.map (·.2)).headD ⟨0, 0⟩) ⟨(r.map (·.1)).headD 0, y⟩ })) (fun w j => rfl) ?_
  refine Cpl3.bind_local (drawLoop_prev (m := 1) (o := (·.1)) (fun x a c => dotStep_masked x a c) fun w j => rfl) fun r hr => ?_
  refine Cpl3.bind' (Cpl3.net (Talk.value (x := fun w j => ((r w j).map (·.1)).headD 0) (by rw [hr.2])) rfl) fun y hy => ?_
  subst hy
  exact Cpl3.step (a := fun w j => (⟨((r w j).map (·.1)).headD 0, ((r w j.prev).map (·.1)).headD 0⟩ : AShare K))
    (Q := fun _ => True) (g := fun w j s => { s with
      dotProof := s.dotProof.registerDot ((a w j).zip (b w j)) (((r w j).map (·.2)).headD ⟨0, 0⟩) ⟨((r w j).map (·.1)).headD 0, ((r w j.prev).map (·.1)).headD 0⟩ }) trivial fun _ _ _ _ => rfl

/-- The draws of `mulPostLocal`. -/
def mulPostStep (x : AShare K × (S3Share K × S3Share K)) (r1 r2 : BitVec K) : Post K :=
  ⟨-x.2.1.a * x.2.2.c - x.2.2.a * x.2.1.c + x.1.a - r1, -x.2.1.b * x.2.2.c - x.2.2.b * x.2.1.c + x.1.b - r2, x.2.1.c * x.2.2.c, r1, r2⟩

theorem mulPostStep_masked : PostMasked (mulPostStep (K := K)) :=
  ⟨fun x _ c => ⟨-x.2.1.a * x.2.2.c - x.2.2.a * x.2.1.c + x.1.a - c, sub_sub_cancel _ _⟩,
    fun x _ c => ⟨-x.2.1.b * x.2.2.c - x.2.2.b * x.2.1.c + x.1.b - c, sub_sub_cancel _ _⟩⟩

theorem post1 {ps : Bool → Party → List (Post K)} (hps : ∀ w j, (ps w j).length = 1) (h : SameY i ps) :
    SameY i fun w j => [(ps w j).headD ⟨0, 0, 0, 0, 0⟩] := by
  have e : (fun w j => [(ps w j).headD ⟨0, 0, 0, 0, 0⟩]) = ps := by
    funext w j
    obtain ⟨x, e⟩ := List.length_eq_one_iff.1 (hps w j)
    rw [e]
    rfl
  rw [e]
  exact h

theorem s3Mul_cpl {a b : Bool → Party → S3Share K} :
    Cpl3 (f := f) (K := K) i (gateBits i (K * 1)) (fun w j => Swift3.mul j (a w j) (b w j)) fun _ => True := by
  unfold Swift3.mul
  refine Cpl3.bind abyMul3_cpl fun de _ => ?_
  refine Cpl3.congr (q := fun w j => drawLoop mulPostStep [(de w j, (a w j, b w j))] >>= fun ps => postArith j (ps.headD ⟨0, 0, 0, 0, 0⟩))
    (fun w j => rfl) ?_
  exact Cpl3.bind (postLoop_cpl (m := 1) mulPostStep_masked fun w j => rfl) fun ps hps => postArith_cpl (post1 hps.1 hps.2)

theorem s3Dot_cpl {a b : Bool → Party → List (S3Share K)} (hl : ∀ w j, (a w j).length = (b w j).length) :
    Cpl3 (f := f) (K := K) i (gateBits i (K * 1)) (fun w j => Swift3.dot j (a w j) (b w j)) fun _ => True := by
  unfold Swift3.dot
  refine Cpl3.congr (fun w j => if_neg (by rw [hl]; simp)) ?_
  refine Cpl3.bind abyDot3_cpl fun de _ => ?_
  refine Cpl3.congr (q := fun w j => drawLoop dotPostStep [(de w j, (a w j, b w j))] >>= fun ps => postArith j (ps.headD ⟨0, 0, 0, 0, 0⟩))
    (fun w j => rfl) ?_
  exact Cpl3.bind (postLoop_cpl (m := 1) dotPostStep_masked fun w j => rfl) fun ps hps => postArith_cpl (post1 hps.1 hps.2)

end Verif
