import Verif.Proof.S3LockPost

/-!
# Lock-step runs of the AND gates and inner products of Swift3
-/

namespace Verif

open Swift3

variable {f : Bytes → List Bool} {K L m n : Nat} {α β γ δ : Type} {i : Party}

/-- `postManyWith` cut into phases that all parties go through together. -/
def postPhases (mix comb : BitVec L → BitVec L → BitVec L) (jmix : BitVec L → BitVec L → BitVec L → BitVec L)
    (out : S3Share L → S3Share L → S3Share L) (me : Party) (ps : List (Post L)) (len : Nat) :
    Proto (S3St (idealPrg f) K) (List (S3Share L)) := do
  (match me with
    | 0 => pure ()
    | 1 => jmpQueueMany 1 (ps.map (·.yb)) 2
    | 2 => jmpQueueMany 2 (ps.map (·.ya)) 1 : Proto (S3St (idealPrg f) K) Unit)
  let b1 ← Proto.net (match me with
      | 0 => Prog.send 2 (ringSliceToBytes (ps.map (·.ya))) (.send 1 (ringSliceToBytes (ps.map (·.yb))) (.ret []))
      | 1 => .recv 0 .ret
      | 2 => .recv 0 .ret)
  let y ← Proto.lift (match me with
      | 0 => .ok []
      | _ => ringVecFromBytes L b1 len)
  (match me with
    | 0 => pure ()
    | 1 => Proto.step fun s => ((), { s with rcvQNext := y.foldl (fun q x => q ++ toBytes x) s.rcvQNext })
    | 2 => Proto.step fun s => ((), { s with rcvQPrev := y.foldl (fun q x => q ++ toBytes x) s.rcvQPrev }) : Proto (S3St (idealPrg f) K) Unit)
  let xs := List.zipWith comb (match me with
    | 2 => ps.map fun p => mix (mix p.yb p.zc) p.ya
    | _ => ps.map fun p => mix (mix p.ya p.zc) p.yb) y
  let _ ← Proto.lift (if me ≠ 0 ∧ xs.length ≠ len then .error .invalidSize else .ok ())
  let ts ← jdraw jmix (pure []) me xs
  let b2 ← Proto.net (match me with
      | 0 => Prog.recv 1 .ret
      | 1 => .send 0 (ringSliceToBytes (ts.map (·.2.2))) (.ret [])
      | 2 => .ret [])
  let bs ← Proto.lift (match me with
      | 0 => ringVecFromBytes L b2 len
      | _ => .ok [])
  (match me with
    | 0 => Proto.step fun s => ((), { s with rcvQPrev := bs.foldl (fun q x => q ++ toBytes x) s.rcvQPrev })
    | 1 => pure ()
    | 2 => jmpQueueMany 2 (ts.map (·.2.2)) 0 : Proto (S3St (idealPrg f) K) Unit)
  let r ← (match me with
    | 0 => jshareLoopR bs
    | 1 => pure (ts.map fun t => ⟨t.1, t.2.1, t.2.2⟩)
    | 2 => pure (ts.map fun t => ⟨t.2.1, t.1, t.2.2⟩) : Proto (S3St (idealPrg f) K) (List (S3Share L)))
  pure (List.zipWith out r (ps.map fun p => ⟨p.r1, p.r2, 0⟩))

theorem Proto.net_recvVec {σ : Type} (me : Party) (p : Party) (id len : Nat) (h : netRecv me id = .recv p .ret) :
    (Proto.net (receiveVec L me id len) : Proto σ _) = Proto.net (.recv p .ret) >>= fun b => Proto.lift (ringVecFromBytes L b len) := by
  unfold receiveVec
  rw [h]
  rfl

theorem jmpReceiveMany10 (len : Nat) : (jmpReceiveMany L 1 0 len : Proto (S3St (idealPrg f) K) _) = (do
    let b ← Proto.net (.recv 0 .ret)
    let y ← Proto.lift (ringVecFromBytes L b len)
    (Proto.step fun s => ((), { s with rcvQNext := y.foldl (fun q x => q ++ toBytes x) s.rcvQNext }))
    pure y) := by
  unfold jmpReceiveMany
  rw [Proto.net_recvVec 1 0 0 len rfl]
  rw [bind_assoc]
  rfl

theorem jmpReceiveMany20 (len : Nat) : (jmpReceiveMany L 2 0 len : Proto (S3St (idealPrg f) K) _) = (do
    let b ← Proto.net (.recv 0 .ret)
    let y ← Proto.lift (ringVecFromBytes L b len)
    (Proto.step fun s => ((), { s with rcvQPrev := y.foldl (fun q x => q ++ toBytes x) s.rcvQPrev }))
    pure y) := by
  unfold jmpReceiveMany
  rw [Proto.net_recvVec 2 0 0 len rfl]
  rw [bind_assoc]
  rfl

theorem jmpReceiveMany01 (len : Nat) : (jmpReceiveMany L 0 1 len : Proto (S3St (idealPrg f) K) _) = (do
    let b ← Proto.net (.recv 1 .ret)
    let y ← Proto.lift (ringVecFromBytes L b len)
    (Proto.step fun s => ((), { s with rcvQPrev := y.foldl (fun q x => q ++ toBytes x) s.rcvQPrev }))
    pure y) := by
  unfold jmpReceiveMany
  rw [Proto.net_recvVec 0 1 1 len rfl]
  rw [bind_assoc]
  rfl

theorem ite_lift {c : Prop} [Decidable c] (p : Proto (S3St (idealPrg f) K) α) :
    (Proto.lift (if c then .error .invalidSize else .ok ()) >>= fun _ => p : Proto (S3St (idealPrg f) K) α) =
      if c then Proto.throw .invalidSize else p := by
  split_ifs <;> rfl

theorem postManyWith_eq (mix comb : BitVec L → BitVec L → BitVec L) (jmix : BitVec L → BitVec L → BitVec L → BitVec L)
    (out : S3Share L → S3Share L → S3Share L) (me : Party) (ps : List (Post L)) (len : Nat) :
    (postManyWith mix comb jmix out me ps len : Proto (S3St (idealPrg f) K) _) = postPhases mix comb jmix out me ps len := by
  match me with
  | 0 =>
    show (jmpSendMany 0 (ps.map (·.ya)) 2 >>= fun _ => jmpSendMany 0 (ps.map (·.yb)) 1 >>= fun _ =>
      (jmpReceiveMany L 0 1 len >>= fun betas => jshareLoopR betas) >>= fun r =>
        pure (List.zipWith out r (ps.map fun p => ⟨p.r1, p.r2, 0⟩))) = _
    rw [jmpReceiveMany01]
    simp only [bind_assoc, pure_bind]
    rfl
  | 1 =>
    show (jmpQueueMany 1 (ps.map (·.yb)) 2 >>= fun _ => jmpReceiveMany L 1 0 len >>= fun y =>
      jshareManyWith jmix 1 (some (List.zipWith comb (ps.map fun p => mix (mix p.ya p.zc) p.yb) y)) 1 2 0 len >>= fun r =>
        pure (List.zipWith out r (ps.map fun p => ⟨p.r1, p.r2, 0⟩))) = _
    rw [jmpReceiveMany10]
    simp only [bind_assoc, pure_bind, postPhases]
    congr 1; funext _; congr 1; funext b; congr 1; funext y; congr 1; funext _
    rw [ite_lift]
    have e : ∀ xs : List (BitVec L), (jshareManyWith jmix 1 (some xs) 1 2 0 len : Proto (S3St (idealPrg f) K) _) =
        if xs.length ≠ len then Proto.throw .invalidSize else (do
      let ts ← jshareLoop1 jmix xs
      jmpSendMany 1 (ts.map (·.2.2)) 0
      pure (ts.map fun t => ⟨t.1, t.2.1, t.2.2⟩)) := fun xs => rfl
    rw [e]
    by_cases h : (List.zipWith comb (ps.map fun p => mix (mix p.ya p.zc) p.yb) y).length ≠ len
    · rw [if_pos h, if_pos ⟨by decide, h⟩]
      rfl
    · rw [if_neg h, if_neg (fun h' => h h'.2)]
      simp only [bind_assoc]
      rfl
  | 2 =>
    show (jmpQueueMany 2 (ps.map (·.ya)) 1 >>= fun _ => jmpReceiveMany L 2 0 len >>= fun y =>
      jshareManyWith jmix 2 (some (List.zipWith comb (ps.map fun p => mix (mix p.yb p.zc) p.ya) y)) 1 2 0 len >>= fun r =>
        pure (List.zipWith out r (ps.map fun p => ⟨p.r1, p.r2, 0⟩))) = _
    rw [jmpReceiveMany20]
    simp only [bind_assoc, pure_bind, postPhases]
    congr 1; funext _; congr 1; funext b; congr 1; funext y; congr 1; funext _
    rw [ite_lift]
    have e : ∀ xs : List (BitVec L), (jshareManyWith jmix 2 (some xs) 1 2 0 len : Proto (S3St (idealPrg f) K) _) =
        if xs.length ≠ len then Proto.throw .invalidSize else (do
      let ts ← jshareLoop2 jmix xs
      jmpQueueMany 2 (ts.map (·.2.2)) 0
      pure (ts.map fun t => ⟨t.2.1, t.1, t.2.2⟩)) := fun xs => rfl
    rw [e]
    by_cases h : (List.zipWith comb (ps.map fun p => mix (mix p.yb p.zc) p.ya) y).length ≠ len
    · rw [if_pos h, if_pos ⟨by decide, h⟩]
      rfl
    · rw [if_neg h, if_neg (fun h' => h h'.2)]
      simp only [bind_assoc]
      rfl

/-- Local code that leaves the generators alone. -/
theorem Cpl3.quiet {p : Bool → Party → Proto (S3St (idealPrg f) K) Unit}
    (h : ∀ w j, ∃ g : S3St (idealPrg f) K → S3St (idealPrg f) K, (∀ s q, g { s with prf := q } = { g s with prf := q }) ∧
      p w j = Proto.step fun s => ((), g s)) : Cpl3 i 0 p fun _ => True := by
  choose g h1 h2 using h
  exact Cpl3.congr h2 (Cpl3.step (a := fun _ _ => ()) trivial h1)

theorem postManyWith_cpl {mix comb : BitVec L → BitVec L → BitVec L} {jmix : BitVec L → BitVec L → BitVec L → BitVec L} (hm : MixOk jmix)
    {out : S3Share L → S3Share L → S3Share L} {ps : Bool → Party → List (Post L)} (hp : ∀ w j, (ps w j).length = m) (hy : SameY i ps) :
    Cpl3 (f := f) (K := K) i (jbits i (L * m)) (fun w j => postManyWith mix comb jmix out j (ps w j) m) fun r => ∀ w j, (r w j).length = m := by
  refine Cpl3.congr (fun w j => postManyWith_eq _ _ _ _ _ _ _) ?_
  unfold postPhases
  refine Cpl3.bind' (Cpl3.quiet fun w j => ?_) fun _ _ => ?_
  · match j with
    | 0 => exact ⟨fun s => s, fun _ _ => rfl, rfl⟩
    | 1 => exact ⟨fun s => { s with sendQNext := _ }, fun _ _ => rfl, rfl⟩
    | 2 => exact ⟨fun s => { s with sendQPrev := _ }, fun _ _ => rfl, rfl⟩
  refine Cpl3.bind' (Cpl3.net (a := fun w j => match j with
    | 0 => []
    | 1 => ringSliceToBytes ((ps w 0).map (·.yb))
    | 2 => ringSliceToBytes ((ps w 0).map (·.ya))) ?_ rfl) fun b1 hb1 => ?_
  · refine Talk.congr (fun w j => ?_) (Talk.fan (x := fun w => ringSliceToBytes ((ps w 0).map (·.ya)))
      (y := fun w => ringSliceToBytes ((ps w 0).map (·.yb))) (fun h => by rw [hy.1 h]) fun h => by rw [hy.2 h])
    match j with
    | 0 => rfl
    | 1 => rfl
    | 2 => rfl
  subst hb1
  refine Cpl3.bind' (Cpl3.lift (a := fun w j => match j with
    | 0 => []
    | 1 => (ps w 0).map (·.yb)
    | 2 => (ps w 0).map (·.ya)) (fun w j => ?_) rfl) fun y hy' => ?_
  · have r : ∀ g : Post L → BitVec L, ringVecFromBytes L (ringSliceToBytes ((ps w 0).map g)) m = .ok ((ps w 0).map g) := fun g => by
      have := ringVecFromBytes_roundtrip ((ps w 0).map g)
      rwa [List.length_map, hp] at this
    match j with
    | 0 => rfl
    | 1 => exact r _
    | 2 => exact r _
  subst hy'
  refine Cpl3.bind' (Cpl3.quiet fun w j => ?_) fun _ _ => ?_
  · match j with
    | 0 => exact ⟨fun s => s, fun _ _ => rfl, rfl⟩
    | 1 => exact ⟨fun s => { s with rcvQNext := _ }, fun _ _ => rfl, rfl⟩
    | 2 => exact ⟨fun s => { s with rcvQPrev := _ }, fun _ _ => rfl, rfl⟩
  refine Cpl3.bind' (Cpl3.lift (a := fun _ _ => ()) (fun w j => ?_) rfl) fun _ _ => ?_
  · refine if_neg ?_
    match j with
    | 0 => exact fun h => h.1 rfl
    | 1 => exact fun h => h.2 (by simp [hp])
    | 2 => exact fun h => h.2 (by simp [hp])
  refine Cpl3.bind_local (Cpl3.congr (q := fun w j => jdraw jmix (pure []) j (if j = 0 then List.replicate m 0 else
    List.zipWith comb (match j with
    | 2 => (ps w j).map fun p => mix (mix p.yb p.zc) p.ya
    | _ => (ps w j).map fun p => mix (mix p.ya p.zc) p.yb) (match j with
    | 0 => []
    | 1 => (ps w 0).map (·.yb)
    | 2 => (ps w 0).map (·.ya)))) (fun w j => ?_) (jdraw_cpl hm (CommonDraw.pure _) fun w j => ?_)) fun ts hts => ?_
  · match j with
    | 0 => rfl
    | 1 => rfl
    | 2 => rfl
  · match j with
    | 0 => simp
    | 1 => simp [hp]
    | 2 => simp [hp]
  refine Cpl3.bind' (Cpl3.net (a := fun w j => match j with
    | 0 => ringSliceToBytes ((ts w 1).map (·.2.2))
    | 1 => []
    | 2 => []) ?_ rfl) fun b2 hb2 => ?_
  · refine Talk.congr (fun w j => ?_) (Talk.up (x := fun w => ringSliceToBytes ((ts w 1).map (·.2.2))) fun h => by rw [hts.2 h])
    match j with
    | 0 => rfl
    | 1 => rfl
    | 2 => rfl
  subst hb2
  refine Cpl3.bind' (Cpl3.lift (a := fun w j => match j with
    | 0 => (ts w 1).map (·.2.2)
    | 1 => []
    | 2 => []) (fun w j => ?_) rfl) fun bs hbs => ?_
  · match j with
    | 0 =>
      have := ringVecFromBytes_roundtrip ((ts w 1).map (·.2.2))
      rwa [List.length_map, hts.1 w 1 (by decide)] at this
    | 1 => rfl
    | 2 => rfl
  subst hbs
  refine Cpl3.bind' (Cpl3.quiet fun w j => ?_) fun _ _ => ?_
  · match j with
    | 0 => exact ⟨fun s => { s with rcvQPrev := _ }, fun _ _ => rfl, rfl⟩
    | 1 => exact ⟨fun s => s, fun _ _ => rfl, rfl⟩
    | 2 => exact ⟨fun s => { s with sendQNext := _ }, fun _ _ => rfl, rfl⟩
  refine Cpl3.ret (Cpl3.congr (fun w j => ?_) (jlast_cpl (m := m) (bs := fun w _ => (ts w 1).map (·.2.2)) (fun w => by
    simp [hts.1 w 1 (by decide)]) (o := fun w j => match j with
    | 0 => []
    | 1 => (ts w 1).map fun t => ⟨t.1, t.2.1, t.2.2⟩
    | 2 => (ts w 2).map fun t => ⟨t.2.1, t.1, t.2.2⟩) fun w j hj => ?_)) fun r hr w j => ?_
  · match j with
    | 0 => rfl
    | 1 => rfl
    | 2 => rfl
  · match j with
    | 0 => exact absurd rfl hj
    | 1 => simp [hts.1 w 1 (by decide)]
    | 2 => simp [hts.1 w 2 (by decide)]
  · simp [hr, hp]

/-! ## The gates -/

/-- The random bits, unknown to party `i`, in `m` gates of `L` bits. -/
def gateBits (i : Party) (n : Nat) : Nat := n + (n + jbits i n)

theorem s3AndMany_cpl {a b : Bool → Party → List (S3Share L)} (ha : ∀ w j, (a w j).length = m) (hb : ∀ w j, (b w j).length = m) :
    Cpl3 (f := f) (K := K) i (gateBits i (L * m)) (fun w j => Swift3.andMany j (a w j) (b w j)) fun c => ∀ w j, (c w j).length = m := by
  unfold Swift3.andMany
  refine Cpl3.ite_neg (fun w j => by simp [ha, hb]) ?_
  refine Cpl3.bind (abyAndMany_cpl (m := m) (fun w j => by simp [ha]) fun w j => by simp [hb]) fun de hde => ?_
  unfold andPostMany
  simp only [ha]
  refine Cpl3.bind (Cpl3.congr (fun w j => andPostLoop_eq _) (postLoop_cpl andPostStep_masked fun w j => by simp [ha, hb, hde])) fun ps hps => ?_
  exact postManyWith_cpl mixXor_ok hps.1 hps.2

theorem s3DotMany_cpl {a b : Bool → Party → List (List (S3Share K))} (ha : ∀ w j, (a w j).length = m) (hb : ∀ w j, (b w j).length = m) :
    Cpl3 (f := f) (K := K) i (gateBits i (K * m)) (fun w j => Swift3.dotMany j (a w j) (b w j)) fun c => ∀ w j, (c w j).length = m := by
  unfold Swift3.dotMany
  refine Cpl3.ite_neg (fun w j => by simp [ha, hb]) ?_
  refine Cpl3.bind (abyDotMany_cpl (m := m) (fun w j => by simp [ha, hb]) fun w j => by simp [ha, hb]) fun de hde => ?_
  unfold dotPostMany
  simp only [ha]
  refine Cpl3.bind (Cpl3.congr (fun w j => dotPostLoop_eq _) (postLoop_cpl dotPostStep_masked fun w j => by simp [ha, hb, hde])) fun ps hps => ?_
  exact postManyWith_cpl mixAdd_ok hps.1 hps.2

end Verif
