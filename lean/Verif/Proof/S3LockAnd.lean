import Verif.Proof.S3LockMany

/-!
# Lock-step runs of a single AND gate of Swift3
-/

namespace Verif

open Swift3

variable {f : Bytes → List Bool} {K L m n : Nat} {α β γ δ : Type} {i : Party}

/-- The common draw of party 0. -/
def draw0 (L : Nat) : Proto (S3St (idealPrg f) K) (List (BitVec L × BitVec L × BitVec L)) := do
  let p ← genP L
  pure [(p, p, 0)]

theorem draw0_common : CommonDraw (draw0 L : Proto (S3St (idealPrg f) K) _) :=
  ⟨fun t => [(tapeVal L t, tapeVal L t, 0)], L, fun _ => rfl⟩

/-- The first of the triples. -/
def hd3 (ts : List (BitVec L × BitVec L × BitVec L)) : BitVec L × BitVec L × BitVec L := ts.headD (0, 0, 0)

/-- `postBinary` cut into phases that all parties go through together. -/
def binPhases (me : Party) (p : Post L) : Proto (S3St (idealPrg f) K) (S3Share L) := do
  (match me with
    | 0 => pure ()
    | 1 => jmpQueue 1 p.yb 2
    | 2 => jmpQueue 2 p.ya 1 : Proto (S3St (idealPrg f) K) Unit)
  let b1 ← Proto.net (match me with
      | 0 => Prog.send 2 (toBytes p.ya) (.send 1 (toBytes p.yb) (.ret []))
      | 1 => .recv 0 .ret
      | 2 => .recv 0 .ret)
  let y ← Proto.lift (match me with
      | 0 => .ok 0
      | _ => fromBytes L b1)
  (match me with
    | 0 => pure ()
    | 1 => Proto.step fun s => ((), { s with rcvQNext := s.rcvQNext ++ toBytes y })
    | 2 => Proto.step fun s => ((), { s with rcvQPrev := s.rcvQPrev ++ toBytes y }) : Proto (S3St (idealPrg f) K) Unit)
  let ts ← jdraw mixXor (draw0 L) me [match me with
    | 2 => y ^^^ p.yb ^^^ p.ya ^^^ p.zc
    | _ => p.yb ^^^ p.ya ^^^ y ^^^ p.zc]
  let b2 ← Proto.net (match me with
      | 0 => Prog.recv 1 .ret
      | 1 => .send 0 (toBytes (hd3 ts).2.2) (.ret [])
      | 2 => .ret [])
  let b ← Proto.lift (match me with
      | 0 => fromBytes L b2
      | _ => .ok 0)
  (match me with
    | 0 => Proto.step fun s => ((), { s with rcvQPrev := s.rcvQPrev ++ toBytes b })
    | 1 => pure ()
    | 2 => jmpQueue 2 (hd3 ts).2.2 0 : Proto (S3St (idealPrg f) K) Unit)
  pure ((match me with
    | 0 => (⟨(hd3 ts).1, (hd3 ts).1, b⟩ : S3Share L)
    | 1 => ⟨(hd3 ts).1, (hd3 ts).2.1, (hd3 ts).2.2⟩
    | 2 => ⟨(hd3 ts).2.1, (hd3 ts).1, (hd3 ts).2.2⟩).xor ⟨p.r1, p.r2, 0⟩)

theorem Proto.net_recvValue {σ : Type} (me : Party) (p : Party) (id : Nat) (h : netRecv me id = .recv p .ret) :
    (Proto.net (receiveValue L me id) : Proto σ _) = Proto.net (.recv p .ret) >>= fun b => Proto.lift (fromBytes L b) := by
  unfold receiveValue
  rw [h]
  rfl

theorem jmpReceive10 : (jmpReceive L 1 0 : Proto (S3St (idealPrg f) K) _) = (do
    let b ← Proto.net (.recv 0 .ret)
    let y ← Proto.lift (fromBytes L b)
    (Proto.step fun s => ((), { s with rcvQNext := s.rcvQNext ++ toBytes y }))
    pure y) := by
  unfold jmpReceive
  rw [Proto.net_recvValue 1 0 0 rfl]
  rw [bind_assoc]
  rfl

theorem jmpReceive20 : (jmpReceive L 2 0 : Proto (S3St (idealPrg f) K) _) = (do
    let b ← Proto.net (.recv 0 .ret)
    let y ← Proto.lift (fromBytes L b)
    (Proto.step fun s => ((), { s with rcvQPrev := s.rcvQPrev ++ toBytes y }))
    pure y) := by
  unfold jmpReceive
  rw [Proto.net_recvValue 2 0 0 rfl]
  rw [bind_assoc]
  rfl

theorem jmpReceive01 : (jmpReceive L 0 1 : Proto (S3St (idealPrg f) K) _) = (do
    let b ← Proto.net (.recv 1 .ret)
    let y ← Proto.lift (fromBytes L b)
    (Proto.step fun s => ((), { s with rcvQPrev := s.rcvQPrev ++ toBytes y }))
    pure y) := by
  unfold jmpReceive
  rw [Proto.net_recvValue 0 1 1 rfl]
  rw [bind_assoc]
  rfl

theorem postBinary_eq (me : Party) (p : Post L) :
    (postBinary me p : Proto (S3St (idealPrg f) K) _) = binPhases me p := by
  match me with
  | 0 =>
    show (jmpSend 0 p.ya 2 >>= fun _ => jmpSend 0 p.yb 1 >>= fun _ => (genP L >>= fun q => jmpReceive L 0 1 >>= fun b => pure (⟨q, q, b⟩ : S3Share L)) >>= fun r =>
        pure (r.xor ⟨p.r1, p.r2, 0⟩)) = _
    rw [jmpReceive01]
    simp only [bind_assoc, pure_bind]
    rfl
  | 1 =>
    show (jmpQueue 1 p.yb 2 >>= fun _ => jmpReceive L 1 0 >>= fun y => (genP L >>= fun q => gen1 L >>= fun a =>
      jmpSend 1 (mixXor a q (p.yb ^^^ p.ya ^^^ y ^^^ p.zc)) 0 >>= fun _ => pure (⟨a, q, mixXor a q (p.yb ^^^ p.ya ^^^ y ^^^ p.zc)⟩ : S3Share L)) >>= fun r =>
        pure (r.xor ⟨p.r1, p.r2, 0⟩)) = _
    rw [jmpReceive10]
    simp only [bind_assoc, pure_bind]
    rfl
  | 2 =>
    show (jmpQueue 2 p.ya 1 >>= fun _ => jmpReceive L 2 0 >>= fun y => (genP L >>= fun q => gen2 L >>= fun a =>
      jmpQueue 2 (mixXor a q (y ^^^ p.yb ^^^ p.ya ^^^ p.zc)) 0 >>= fun _ => pure (⟨q, a, mixXor a q (y ^^^ p.yb ^^^ p.ya ^^^ p.zc)⟩ : S3Share L)) >>= fun r =>
        pure (r.xor ⟨p.r1, p.r2, 0⟩)) = _
    rw [jmpReceive20]
    simp only [bind_assoc, pure_bind]
    rfl

theorem hd3_beta (ts : List (BitVec L × BitVec L × BitVec L)) : (hd3 ts).2.2 = (ts.map (·.2.2)).headD 0 := by
  cases ts <;> rfl

theorem postBinary_cpl {p : Bool → Party → Post L} (hy : SameY i fun w j => [p w j]) :
    Cpl3 (f := f) (K := K) i (jbits i (L * 1)) (fun w j => postBinary j (p w j)) fun _ => True := by
  refine Cpl3.congr (fun w j => postBinary_eq _ _) ?_
  unfold binPhases
  refine Cpl3.bind' (Cpl3.quiet fun w j => ?_) fun _ _ => ?_
  · match j with
    | 0 => exact ⟨fun s => s, fun _ _ => rfl, rfl⟩
    | 1 => exact ⟨fun s => { s with sendQNext := s.sendQNext ++ toBytes (p w 1).yb }, fun _ _ => rfl, rfl⟩
    | 2 => exact ⟨fun s => { s with sendQPrev := s.sendQPrev ++ toBytes (p w 2).ya }, fun _ _ => rfl, rfl⟩
  refine Cpl3.bind' (Cpl3.net (a := fun w j => match j with
    | 0 => []
    | 1 => toBytes (p w 0).yb
    | 2 => toBytes (p w 0).ya) ?_ rfl) fun b1 hb1 => ?_
  · refine Talk.congr (fun w j => ?_) (Talk.fan (x := fun w => toBytes (p w 0).ya) (y := fun w => toBytes (p w 0).yb)
      (fun h => ?_) fun h => ?_)
    · match j with
      | 0 => rfl
      | 1 => rfl
      | 2 => rfl
    · have := hy.1 h
      simp only [List.map_cons, List.map_nil, List.cons.injEq, and_true] at this
      simp only [this]
    · have := hy.2 h
      simp only [List.map_cons, List.map_nil, List.cons.injEq, and_true] at this
      simp only [this]
  subst hb1
  refine Cpl3.bind' (Cpl3.lift (a := fun w j => match j with
    | 0 => 0
    | 1 => (p w 0).yb
    | 2 => (p w 0).ya) (fun w j => ?_) rfl) fun y hy' => ?_
  · match j with
    | 0 => rfl
    | 1 => exact fromBytes_toBytes _
    | 2 => exact fromBytes_toBytes _
  subst hy'
  refine Cpl3.bind' (Cpl3.quiet fun w j => ?_) fun _ _ => ?_
  · match j with
    | 0 => exact ⟨fun s => s, fun _ _ => rfl, rfl⟩
    | 1 => exact ⟨fun s => { s with rcvQNext := s.rcvQNext ++ toBytes (p w 0).yb }, fun _ _ => rfl, rfl⟩
    | 2 => exact ⟨fun s => { s with rcvQPrev := s.rcvQPrev ++ toBytes (p w 0).ya }, fun _ _ => rfl, rfl⟩
  refine Cpl3.bind_local (jdraw_cpl (m := 1) mixXor_ok draw0_common fun w j => rfl) fun ts hts => ?_
  refine Cpl3.bind' (Cpl3.net (a := fun w j => match j with
    | 0 => toBytes (hd3 (ts w 1)).2.2
    | 1 => []
    | 2 => []) ?_ rfl) fun b2 hb2 => ?_
  · refine Talk.congr (fun w j => ?_) (Talk.up (x := fun w => toBytes (hd3 (ts w 1)).2.2) fun h => by rw [hd3_beta, hd3_beta, hts.2 h])
    match j with
    | 0 => rfl
    | 1 => rfl
    | 2 => rfl
  subst hb2
  refine Cpl3.bind' (Cpl3.lift (a := fun w j => match j with
    | 0 => (hd3 (ts w 1)).2.2
    | 1 => 0
    | 2 => 0) (fun w j => ?_) rfl) fun bs hbs => ?_
  · match j with
    | 0 => exact fromBytes_toBytes _
    | 1 => rfl
    | 2 => rfl
  subst hbs
  refine Cpl3.bind' (Cpl3.quiet fun w j => ?_) fun _ _ => ?_
  · match j with
    | 0 => exact ⟨fun s => { s with rcvQPrev := s.rcvQPrev ++ toBytes (hd3 (ts w 1)).2.2 }, fun _ _ => rfl, rfl⟩
    | 1 => exact ⟨fun s => s, fun _ _ => rfl, rfl⟩
    | 2 => exact ⟨fun s => { s with sendQNext := s.sendQNext ++ toBytes (hd3 (ts w 2)).2.2 }, fun _ _ => rfl, rfl⟩
  exact Cpl3.pure trivial

theorem s3And_cpl {a b : Bool → Party → S3Share L} :
    Cpl3 (f := f) (K := K) i (gateBits i (L * 1)) (fun w j => Swift3.and j (a w j) (b w j)) fun _ => True := by
  unfold Swift3.and
  refine Cpl3.bind abyAnd_cpl fun de _ => ?_
  refine Cpl3.congr (q := fun w j => drawLoop andPostStep [(de w j, (a w j, b w j))] >>= fun ps => postBinary j (ps.headD ⟨0, 0, 0, 0, 0⟩))
    (fun w j => rfl) ?_
  refine Cpl3.bind (postLoop_cpl (m := 1) andPostStep_masked fun w j => rfl) fun ps hps => ?_
  refine postBinary_cpl ?_
  have e : (fun w j => [(ps w j).headD ⟨0, 0, 0, 0, 0⟩]) = ps := by
    funext w j
    obtain ⟨x, e⟩ := List.length_eq_one_iff.1 (hps.1 w j)
    rw [e]
    rfl
  rw [e]
  exact hps.2

end Verif
