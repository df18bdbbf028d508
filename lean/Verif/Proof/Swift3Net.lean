import Verif.Proof.Swift3Gates

/-! # Swift3: joint executions of honest parties -/

namespace Verif

variable {G : Prg} {K L : Nat}

namespace Swift3

variable {st : Party → S3St G K} {u v : Nat} {w : DotCount}

/-! ## Executing the network primitives of a concrete party -/

theorem netSend01 (m : Bytes) : netSend 0 1 m = .send 1 m (.ret ()) := rfl
theorem netSend02 (m : Bytes) : netSend 0 2 m = .send 2 m (.ret ()) := rfl
theorem netSend10 (m : Bytes) : netSend 1 0 m = .send 0 m (.ret ()) := rfl
theorem netSend12 (m : Bytes) : netSend 1 2 m = .send 2 m (.ret ()) := rfl
theorem netSend20 (m : Bytes) : netSend 2 0 m = .send 0 m (.ret ()) := rfl
theorem netSend21 (m : Bytes) : netSend 2 1 m = .send 1 m (.ret ()) := rfl
theorem netRecv01 : netRecv 0 1 = .recv 1 .ret := rfl
theorem netRecv02 : netRecv 0 2 = .recv 2 .ret := rfl
theorem netRecv10 : netRecv 1 0 = .recv 0 .ret := rfl
theorem netRecv12 : netRecv 1 2 = .recv 2 .ret := rfl
theorem netRecv20 : netRecv 2 0 = .recv 0 .ret := rfl
theorem netRecv21 : netRecv 2 1 = .recv 1 .ret := rfl

theorem queue01 (x : BitVec L) (s : S3St G K) :
    jmpQueue 0 x 1 s = .ret ((), { s with sendQNext := s.sendQNext ++ toBytes x }) := rfl
theorem queue02 (x : BitVec L) (s : S3St G K) :
    jmpQueue 0 x 2 s = .ret ((), { s with sendQPrev := s.sendQPrev ++ toBytes x }) := rfl
theorem queue12 (x : BitVec L) (s : S3St G K) :
    jmpQueue 1 x 2 s = .ret ((), { s with sendQNext := s.sendQNext ++ toBytes x }) := rfl
theorem queue10 (x : BitVec L) (s : S3St G K) :
    jmpQueue 1 x 0 s = .ret ((), { s with sendQPrev := s.sendQPrev ++ toBytes x }) := rfl
theorem queue20 (x : BitVec L) (s : S3St G K) :
    jmpQueue 2 x 0 s = .ret ((), { s with sendQNext := s.sendQNext ++ toBytes x }) := rfl
theorem queue21 (x : BitVec L) (s : S3St G K) :
    jmpQueue 2 x 1 s = .ret ((), { s with sendQPrev := s.sendQPrev ++ toBytes x }) := rfl

theorem queueMany12 (x : List (BitVec L)) (s : S3St G K) : jmpQueueMany 1 x 2 s =
    .ret ((), { s with sendQNext := x.foldl (fun q x => q ++ toBytes x) s.sendQNext }) := rfl
theorem queueMany20 (x : List (BitVec L)) (s : S3St G K) : jmpQueueMany 2 x 0 s =
    .ret ((), { s with sendQNext := x.foldl (fun q x => q ++ toBytes x) s.sendQNext }) := rfl
theorem queueMany21 (x : List (BitVec L)) (s : S3St G K) : jmpQueueMany 2 x 1 s =
    .ret ((), { s with sendQPrev := x.foldl (fun q x => q ++ toBytes x) s.sendQPrev }) := rfl

/-- The effect of receiving a value from the next party. -/
theorem receive01 (s : S3St G K) : jmpReceive L 0 1 s = .recv 1 fun m => Prog.ofExcept (fromBytes L m) >>= fun x =>
    .ret (x, { s with rcvQPrev := s.rcvQPrev ++ toBytes x }) := by
  simp only [jmpReceive, receiveValue, Proto.bind_apply, Proto.net_apply, netRecv01, Prog.recv_bind, Prog.ret_bind,
    Prog.bind_assoc']; rfl
theorem receive12 (s : S3St G K) : jmpReceive L 1 2 s = .recv 2 fun m => Prog.ofExcept (fromBytes L m) >>= fun x =>
    .ret (x, { s with rcvQPrev := s.rcvQPrev ++ toBytes x }) := by
  simp only [jmpReceive, receiveValue, Proto.bind_apply, Proto.net_apply, netRecv12, Prog.recv_bind, Prog.ret_bind,
    Prog.bind_assoc']; rfl
theorem receive20 (s : S3St G K) : jmpReceive L 2 0 s = .recv 0 fun m => Prog.ofExcept (fromBytes L m) >>= fun x =>
    .ret (x, { s with rcvQPrev := s.rcvQPrev ++ toBytes x }) := by
  simp only [jmpReceive, receiveValue, Proto.bind_apply, Proto.net_apply, netRecv20, Prog.recv_bind, Prog.ret_bind,
    Prog.bind_assoc']; rfl
theorem receive02 (s : S3St G K) : jmpReceive L 0 2 s = .recv 2 fun m => Prog.ofExcept (fromBytes L m) >>= fun x =>
    .ret (x, { s with rcvQNext := s.rcvQNext ++ toBytes x }) := by
  simp only [jmpReceive, receiveValue, Proto.bind_apply, Proto.net_apply, netRecv02, Prog.recv_bind, Prog.ret_bind,
    Prog.bind_assoc']; rfl
theorem receive10 (s : S3St G K) : jmpReceive L 1 0 s = .recv 0 fun m => Prog.ofExcept (fromBytes L m) >>= fun x =>
    .ret (x, { s with rcvQNext := s.rcvQNext ++ toBytes x }) := by
  simp only [jmpReceive, receiveValue, Proto.bind_apply, Proto.net_apply, netRecv10, Prog.recv_bind, Prog.ret_bind,
    Prog.bind_assoc']; rfl
theorem receive21 (s : S3St G K) : jmpReceive L 2 1 s = .recv 1 fun m => Prog.ofExcept (fromBytes L m) >>= fun x =>
    .ret (x, { s with rcvQNext := s.rcvQNext ++ toBytes x }) := by
  simp only [jmpReceive, receiveValue, Proto.bind_apply, Proto.net_apply, netRecv21, Prog.recv_bind, Prog.ret_bind,
    Prog.bind_assoc']; rfl


theorem receiveMany01 (n : Nat) (s : S3St G K) : jmpReceiveMany L 0 1 n s =
    .recv 1 fun m => Prog.ofExcept (ringVecFromBytes L m n) >>= fun x =>
    .ret (x, { s with rcvQPrev := x.foldl (fun q x => q ++ toBytes x) s.rcvQPrev }) := by
  simp only [jmpReceiveMany, receiveVec, Proto.bind_apply, Proto.net_apply, netRecv01, Prog.recv_bind, Prog.ret_bind,
    Prog.bind_assoc']; rfl
theorem receiveMany20 (n : Nat) (s : S3St G K) : jmpReceiveMany L 2 0 n s =
    .recv 0 fun m => Prog.ofExcept (ringVecFromBytes L m n) >>= fun x =>
    .ret (x, { s with rcvQPrev := x.foldl (fun q x => q ++ toBytes x) s.rcvQPrev }) := by
  simp only [jmpReceiveMany, receiveVec, Proto.bind_apply, Proto.net_apply, netRecv20, Prog.recv_bind, Prog.ret_bind,
    Prog.bind_assoc']; rfl
theorem receiveMany10 (n : Nat) (s : S3St G K) : jmpReceiveMany L 1 0 n s =
    .recv 0 fun m => Prog.ofExcept (ringVecFromBytes L m n) >>= fun x =>
    .ret (x, { s with rcvQNext := x.foldl (fun q x => q ++ toBytes x) s.rcvQNext }) := by
  simp only [jmpReceiveMany, receiveVec, Proto.bind_apply, Proto.net_apply, netRecv10, Prog.recv_bind, Prog.ret_bind,
    Prog.bind_assoc']; rfl

/-- Normalise the code of concrete parties. -/
macro "s3_norm" "[" ls:Lean.Parser.Tactic.simpLemma,* "]" : tactic =>
  `(tactic| proto_norm [jmpSend, jmpSendMany, sendValue, sendVec, receiveValue, receiveVec, netSend01, netSend02,
      netSend10, netSend12, netSend20, netSend21,
      netRecv01, netRecv02, netRecv10, netRecv12, netRecv20, netRecv21, queue01, queue02, queue12, queue10, queue20,
      queue21, queueMany12, queueMany20, queueMany21, receive01, receive02, receive10, receive12, receive20, receive21,
      receiveMany01, receiveMany20, receiveMany10, fromBytes_toBytes, Prog.bind_assoc', $ls,*])

/-! ## Keeping the joint state consistent -/

/-- Only generators and queues change. -/
theorem ok_update {st' : Party → S3St G K} (h : S3Ok u v w st) (hp : S3PrfOk fun i => (st' i).prf) (hq : S3QueuesOk st')
    (ha : ∀ i, (st' i).andProof = (st i).andProof) (hm : ∀ i, (st' i).mulProof = (st i).mulProof)
    (hd : ∀ i, (st' i).dotProof = (st i).dotProof) : S3Ok u v w st' := by
  refine ⟨hp, hq, fun i => ?_, fun i => ?_, fun i => ?_, fun i => ?_⟩
  · simp only [ha]; exact h.ands i
  · simp only [hm]; exact h.muls i
  · simp only [hd]; exact h.dots i
  · simp only [hd]; exact h.sizes i

theorem prf_prev (h : S3Ok u v w st) (i : Party) : (st i).prf.p2 = (st i.prev).prf.p1 := by
  have := h.prf.1 i.prev
  rw [Party.next_prev] at this
  exact this.symm

/-- Two draws with the pairwise generators. -/
theorem gen12_wp {α : Type} {k : Party → BitVec L → BitVec L → Proto (S3St G K) α}
    {Q : (Party → α) → (Party → S3St G K) → Prop} (hI : S3Ok u v w st)
    (h : ∀ (r1 r2 : Party → BitVec L) st', (∀ i, r2 i = r1 (Party.prev i)) → S3Ok u v w st' → WPS (fun i => k i (r1 i) (r2 i)) st' Q) :
    WPS (fun i => do
      let r1 ← gen1 L
      let r2 ← gen2 L
      k i r1 r2) st Q := by
  refine WPS.bind (WPS.step (WPS.bind (WPS.step (h _ _ _ (fun i => ?_) (ok_update hI ⟨fun i => ?_, fun i j => ?_⟩
    hI.queues (fun _ => rfl) (fun _ => rfl) (fun _ => rfl))))))
  · simp only [prf_prev hI i]
  · simp only [hI.prf.1 i]
  · exact hI.prf.2 i j

theorem genForZeroShare_wp (hI : S3Ok u v w st) :
    WPS (fun _ => genForZeroShare L) st (fun r st' => Repl r ∧ S3Ok u v w st') := by
  unfold genForZeroShare
  refine gen12_wp (L := L) (k := fun _ a b => pure (AShare.mk a b)) hI ?_
  intro r1 r2 st' hr hI'
  exact WPS.pure ⟨fun i => hr i, hI'⟩

/-! ## The products of the masks -/

theorem abyMul_wp {x y : BitVec K} {a b : Party → AShare K} (hI : S3Ok u v w st) (ha : SharesOf x a) (hb : SharesOf y b) :
    WPS (fun i => abyMul i (a i) (b i)) st (fun c st' => SharesOf (x * y) c ∧ S3Ok u (v + 1) w st') := by
  unfold abyMul
  refine WPS.bind ((genForZeroShare_wp hI).mono ?_)
  rintro r st1 ⟨hr, hI⟩
  refine WPS.bind (WPS.net (WP.exchangeValue (WPS.step ⟨?_, ?_⟩)))
  · refine SumsTo.shares (c := fun i => ((a i).mulLocal (b i)).a + ((r i).a - (r i).b)) ?_
    refine Aby3.add_zero_sum (ha.mulLocal hb) ?_
    have h0 := hr 0; have h1 := hr 1; have h2 := hr 2
    simp only [Party.prev_zero, Party.prev_one, Party.prev_two] at h0 h1 h2
    simp only [SumsTo, h0, h1, h2]; ring
  · exact ⟨hI.prf, hI.queues, hI.ands, registerMul_ok (s := fun i => ⟨((a i).mulLocal (b i)).a + ((r i).a - (r i).b),
      ((a i.prev).mulLocal (b i.prev)).a + ((r i.prev).a - (r i.prev).b)⟩) hI.muls ha.2 hb.2 hr (fun _ => rfl)
      (fun _ => rfl), hI.dots, hI.sizes⟩

theorem binZero {r : Party → AShare L} (hr : Repl r) : XorsTo 0 (fun i => (r i).a ^^^ (r i).b) := by
  have h0 := hr 0; have h1 := hr 1; have h2 := hr 2
  simp only [Party.prev_zero, Party.prev_one, Party.prev_two] at h0 h1 h2
  simp only [XorsTo, h0, h1, h2]; bitwise

theorem sumZero {r : Party → AShare L} (hr : Repl r) : SumsTo 0 (fun i => (r i).a - (r i).b) := by
  have h0 := hr 0; have h1 := hr 1; have h2 := hr 2
  simp only [Party.prev_zero, Party.prev_one, Party.prev_two] at h0 h1 h2
  simp only [SumsTo, h0, h1, h2]; ring

theorem abyAnd_wp (hL : 0 < L) {x y : BitVec L} {a b : Party → AShare L} (hI : S3Ok u v w st) (ha : BinSharesOf x a)
    (hb : BinSharesOf y b) :
    WPS (fun i => abyAnd i (a i) (b i)) st (fun c st' => BinSharesOf (x &&& y) c ∧ S3Ok (u + L) v w st') := by
  unfold abyAnd
  refine WPS.bind ((genForZeroShare_wp hI).mono ?_)
  rintro r st1 ⟨hr, hI⟩
  refine WPS.bind (WPS.net (WP.exchangeValue (WPS.step ⟨?_, ?_⟩)))
  · exact XorsTo.shares (c := fun i => ((a i).andLocal (b i)).a ^^^ ((r i).a ^^^ (r i).b))
      (Aby3.xor_zero_sum (ha.andLocal hb) (binZero hr))
  · exact ⟨hI.prf, hI.queues, registerAnd_ok (s := fun i => ⟨((a i).andLocal (b i)).a ^^^ ((r i).a ^^^ (r i).b),
      ((a i.prev).andLocal (b i.prev)).a ^^^ ((r i.prev).a ^^^ (r i.prev).b)⟩) hL hI.ands ha.2 hb.2 hr (fun _ => rfl)
      (fun _ => rfl), hI.muls, hI.dots, hI.sizes⟩


/-- The pairs of operands of the three parties. -/
def PairRel {X : Type} (R : X → (Party → AShare L) → Prop) (p : X × X) (q : Party → AShare L × AShare L) : Prop :=
  R p.1 (fun i => (q i).1) ∧ R p.2 (fun i => (q i).2)

theorem abyAndLoop_wp {ps : List (BitVec L × BitVec L)} {qs : List (Party → AShare L × AShare L)} (hI : S3Ok u v w st)
    (h : List.Forall₂ (PairRel BinSharesOf) ps qs) :
    WPS (fun i => abyAndLoop (qs.map fun q => q i)) st (fun cr st' => S3Ok u v w st' ∧
      ∃ rs : List (Party → AShare L), rs.length = qs.length ∧ (∀ r ∈ rs, Repl r) ∧
        ∀ i, cr i = List.zipWith (fun q r => ((((q i).1).andLocal (q i).2).a ^^^ ((r i).a ^^^ (r i).b), r i)) qs rs) := by
  induction h generalizing st with
  | nil => exact WPS.pure (a := fun _ => []) ⟨hI, [], rfl, by simp, fun _ => rfl⟩
  | @cons p q ps qs hp _ ih =>
    simp only [List.map_cons, abyAndLoop]
    refine WPS.bind ((genForZeroShare_wp hI).mono ?_)
    rintro r st1 ⟨hr, hI⟩
    refine WPS.bind ((ih hI).mono ?_)
    rintro cr st2 ⟨hI, rs, h1, h2, h3⟩
    refine WPS.pure (a := fun i => ((((q i).1).andLocal (q i).2).a ^^^ ((r i).a ^^^ (r i).b), r i) :: cr i)
      ⟨hI, r :: rs, by simp [h1], ?_, fun i => by simp [h3]⟩
    intro r' h'
    rcases List.mem_cons.1 h' with rfl | h'
    · exact hr
    · exact h2 _ h'

/-- The joint entries, from the operands and the randomness. -/
def andEntry (q : Party → AShare L × AShare L) (r : Party → AShare L) (i : Party) : BitVec L :=
  (((q i).1).andLocal (q i).2).a ^^^ ((r i).a ^^^ (r i).b)

theorem zipWith_map_zip {A B C D : Type} (f : A → B → C) (g : C → D) (l : List A) (m : List B) :
    (List.zipWith f l m).map g = (l.zip m).map fun p => g (f p.1 p.2) := by
  induction l generalizing m with
  | nil => simp
  | cons x l ih => cases m <;> simp [ih]

theorem forall₂_mem_right {A B : Type} {R : A → B → Prop} {l : List A} {m : List B} (h : List.Forall₂ R l m) {y : B}
    (hy : y ∈ m) : ∃ x, R x y := by
  induction h with
  | nil => simp at hy
  | cons hp _ ih =>
    rcases List.mem_cons.1 hy with rfl | hy
    · exact ⟨_, hp⟩
    · exact ih hy

theorem abyAndMany_wp (hL : 0 < L) {xs ys : List (BitVec L)} {a b : Party → List (AShare L)} (hI : S3Ok u v w st)
    (ha : Rels BinSharesOf xs a) (hb : Rels BinSharesOf ys b) (hl : xs.length = ys.length) :
    WPS (fun i => abyAndMany i (a i) (b i)) st (fun c st' => Rels BinSharesOf (List.zipWith (· &&& ·) xs ys) c ∧
      S3Ok (u + L * xs.length) v w st') := by
  obtain ⟨qs, hq, hz⟩ := Rels.zipWith (f := Prod.mk) (g := fun _ => Prod.mk) (R := BinSharesOf) (S := BinSharesOf)
    (T := PairRel BinSharesOf) (fun _ _ _ _ h h' => ⟨h, h'⟩) ha hb
  have hz : ∀ i, (a i).zip (b i) = qs.map fun q => q i := fun i => congrFun hz i
  have hqlen : qs.length = xs.length := by rw [← hq.length_eq]; simp [hl]
  unfold abyAndMany
  simp only [hz]
  refine WPS.bind ((abyAndLoop_wp hI hq).mono ?_)
  rintro cr st1 ⟨hI, rs, h1, h2, h3⟩
  -- everything in terms of the joint list
  let es := qs.zip rs
  have hes : es.length = xs.length := by simp [es, h1, hqlen]
  have c1 : ∀ i, (cr i).map (·.1) = es.map fun e => andEntry e.1 e.2 i := fun i => by
    rw [h3 i, zipWith_map_zip]; rfl
  have c2 : ∀ i, (cr i).map (·.2) = es.map fun e => e.2 i := fun i => by
    rw [h3 i, zipWith_map_zip]
  have c3 : ∀ i, (qs.map fun q => q i) = es.map fun e => e.1 i := fun i => by
    have : qs = es.map (·.1) := by simp only [es]; rw [List.map_fst_zip]; omega
    conv_lhs => rw [this]
    simp
  simp only [c1, c2, c3]
  refine WPS.bind (WPS.net (WP.exchangeVec (by intro i; simp) (WPS.step ⟨?_, ?_⟩)))
  · have hrel : Rels XorsTo (List.zipWith (· &&& ·) xs ys) (fun i => es.map fun e => andEntry e.1 e.2 i) := by
      refine ⟨es.map fun e i => andEntry e.1 e.2 i, ?_, by funext i; simp⟩
      have e1 : List.zipWith (fun x1 x2 : BitVec L => x1 &&& x2) xs ys = (List.zipWith Prod.mk xs ys).map fun p => p.1 &&& p.2 := by
        simp [List.map_zipWith]
      rw [e1, List.forall₂_map_left_iff, List.forall₂_map_right_iff]
      have : ∀ {ps : List (BitVec L × BitVec L)} {qs : List (Party → AShare L × AShare L)} {rs : List (Party → AShare L)},
          List.Forall₂ (PairRel BinSharesOf) ps qs → rs.length = qs.length → (∀ r ∈ rs, Repl r) →
          List.Forall₂ (fun (p : BitVec L × BitVec L) (e : (Party → AShare L × AShare L) × (Party → AShare L)) =>
            XorsTo (p.1 &&& p.2) (fun i => andEntry e.1 e.2 i)) ps (qs.zip rs) := by
        intro ps qs rs h hl hr
        induction h generalizing rs with
        | nil => simp
        | cons hp _ ih =>
          cases rs with
          | nil => simp at hl
          | cons r rs =>
            refine .cons (Aby3.xor_zero_sum (hp.1.andLocal hp.2) (binZero (hr r (by simp)))) (ih (by simpa using hl) ?_)
            intro r' h'; exact hr r' (by simp [h'])
      exact this hq h1 h2
    exact Rels.reshare (mk := AShare.mk) (S := BinSharesOf) (fun _ _ h => h.shares) hrel
  · have hg : Rels AndRel (List.replicate es.length ()) (fun i =>
        ((es.map fun e => e.1 i).zip (List.zipWith AShare.mk (es.map fun e => andEntry e.1 e.2 i)
          (es.map fun e => andEntry e.1 e.2 i.prev))).zip (es.map fun e => e.2 i)) := by
      refine ⟨es.map fun e i => ((e.1 i, ⟨andEntry e.1 e.2 i, andEntry e.1 e.2 i.prev⟩), e.2 i), ?_, ?_⟩
      · have : ∀ e ∈ es, AndRel () (fun i => ((e.1 i, ⟨andEntry e.1 e.2 i, andEntry e.1 e.2 i.prev⟩), e.2 i)) := by
          intro e he
          have hr : Repl e.2 := h2 _ (List.of_mem_zip he).2
          have hq' : Repl (fun i => (e.1 i).1) ∧ Repl (fun i => (e.1 i).2) := by
            obtain ⟨p, hp⟩ := forall₂_mem_right hq (List.of_mem_zip he).1
            exact ⟨hp.1.2, hp.2.2⟩
          exact ⟨hq'.1, hq'.2, fun _ => rfl, hr, fun _ => rfl⟩
        clear_value es
        clear c1 c2 c3 hes
        induction es with
        | nil => exact .nil
        | cons e es ih =>
          rw [List.length_cons, List.replicate_succ, List.map_cons]
          exact .cons (this e (by simp)) (ih fun e' h' => this e' (by simp [h']))
      · funext i
        clear_value es
        clear c1 c2 c3 hes
        induction es with
        | nil => rfl
        | cons e es ih => simp only [List.map_cons, List.zipWith_cons_cons, List.zip_cons_cons, ih]
    have := registerAnds_ok hL hg hI.ands
    rw [List.length_replicate, hes] at this
    exact ⟨hI.prf, hI.queues, this, hI.muls, hI.dots, hI.sizes⟩


/-! ## Dot products of the masks -/

/-- The pairs of vectors of the three parties. -/
def VecRel (p : List (BitVec K) × List (BitVec K)) (q : Party → List (AShare K) × List (AShare K)) : Prop :=
  Rels SharesOf p.1 (fun i => (q i).1) ∧ Rels SharesOf p.2 (fun i => (q i).2) ∧ p.1.length = p.2.length

theorem rels_comp {X : Type} {R : X → (Party → AShare K) → Prop} (hR : ∀ x s, R x s → Repl s) {xs : List X}
    {a : Party → List (AShare K)} (h : Rels R xs a) (i : Party) : (a i).map (·.b) = (a i.prev).map (·.a) := by
  obtain ⟨js, hj, rfl⟩ := h
  induction hj with
  | nil => rfl
  | cons hx _ ih => simp only [List.map_cons, ih]; congr 1; exact hR _ _ hx i

theorem VecRel.dotRel {p : List (BitVec K) × List (BitVec K)} {q : Party → List (AShare K) × List (AShare K)}
    (h : VecRel p q) : DotRel (fun i => (q i).1.zip (q i).2) := by
  obtain ⟨h1, h2, hl⟩ := h
  refine ⟨fun i j => by simp [h1.length, h2.length], fun i => ?_⟩
  have e1 : ∀ i, ((q i).1).length ≤ ((q i).2).length := fun i => by rw [h1.length, h2.length, hl]
  have e2 : ∀ i, ((q i).2).length ≤ ((q i).1).length := fun i => by rw [h1.length, h2.length, hl]
  have f1 : ∀ {f : AShare K → BitVec K} (i : Party), ((q i).1.zip (q i).2).map (fun x => f x.1) = (q i).1.map f := by
    intro f i
    conv_rhs => rw [← List.map_fst_zip (e1 i), List.map_map]
    rfl
  have f2 : ∀ {f : AShare K → BitVec K} (i : Party), ((q i).1.zip (q i).2).map (fun x => f x.2) = (q i).2.map f := by
    intro f i
    conv_rhs => rw [← List.map_snd_zip (e2 i), List.map_map]
    rfl
  constructor
  · rw [f1, f1]; exact rels_comp (fun _ _ h => h.2) h1 i
  · rw [f2, f2]; exact rels_comp (fun _ _ h => h.2) h2 i

theorem abyDot_wp {xs ys : List (BitVec K)} {a b : Party → List (AShare K)} (hI : S3Ok u v w st)
    (ha : Rels SharesOf xs a) (hb : Rels SharesOf ys b) (hl : xs.length = ys.length) :
    WPS (fun i => abyDot i (a i) (b i)) st (fun c st' => SharesOf (List.zipWith (· * ·) xs ys).sum c ∧
      S3Ok u v (w.add xs.length) st') := by
  unfold abyDot
  refine WPS.bind ((genForZeroShare_wp hI).mono ?_)
  rintro r st1 ⟨hr, hI⟩
  refine WPS.bind (WPS.net (WP.exchangeValue (WPS.step ⟨?_, ?_⟩)))
  · refine SumsTo.shares (c := fun i => Aby3.dotAcc ((r i).a - (r i).b) ((a i).zip (b i))) ?_
    have := Aby3.dotAcc_sum (sumZero hr) ha hb hl
    rwa [zero_add] at this
  · have hd := VecRel.dotRel (p := (xs, ys)) (q := fun i => (a i, b i)) ⟨ha, hb, hl⟩
    have := registerDot_ok (s := fun i => ⟨Aby3.dotAcc ((r i).a - (r i).b) ((a i).zip (b i)),
      Aby3.dotAcc ((r i.prev).a - (r i.prev).b) ((a i.prev).zip (b i.prev))⟩) (z := fun i => (st1 i).dotProof)
      ⟨hI.dots, hI.sizes⟩ hd hr (fun _ => rfl) (fun _ => rfl)
    rw [show ((a 0).zip (b 0)).length = xs.length by simp [ha.length, hb.length, hl]] at this
    exact ⟨hI.prf, hI.queues, hI.ands, hI.muls, this.gates, this.sizes⟩

theorem abyDotLoop_wp {ps : List (List (BitVec K) × List (BitVec K))}
    {qs : List (Party → List (AShare K) × List (AShare K))} (hI : S3Ok u v w st) (h : List.Forall₂ VecRel ps qs) :
    WPS (fun i => abyDotLoop (qs.map fun q => q i)) st (fun cr st' => S3Ok u v w st' ∧
      ∃ rs : List (Party → AShare K), rs.length = qs.length ∧ (∀ r ∈ rs, Repl r) ∧
        ∀ i, cr i = List.zipWith (fun q r => (Aby3.dotAcc ((r i).a - (r i).b) ((q i).1.zip (q i).2), r i)) qs rs) := by
  induction h generalizing st with
  | nil => exact WPS.pure (a := fun _ => []) ⟨hI, [], rfl, by simp, fun _ => rfl⟩
  | @cons p q ps qs hp _ ih =>
    simp only [List.map_cons, abyDotLoop]
    refine WPS.bind ((genForZeroShare_wp hI).mono ?_)
    rintro r st1 ⟨hr, hI⟩
    refine WPS.bind ((ih hI).mono ?_)
    rintro cr st2 ⟨hI, rs, h1, h2, h3⟩
    refine WPS.pure (a := fun i => (Aby3.dotAcc ((r i).a - (r i).b) ((q i).1.zip (q i).2), r i) :: cr i)
      ⟨hI, r :: rs, by simp [h1], ?_, fun i => by simp [h3]⟩
    intro r' h'
    rcases List.mem_cons.1 h' with rfl | h'
    · exact hr
    · exact h2 _ h'

/-- The joint entries, from the operands and the randomness. -/
def dotEntry (q : Party → List (AShare K) × List (AShare K)) (r : Party → AShare K) (i : Party) : BitVec K :=
  Aby3.dotAcc ((r i).a - (r i).b) ((q i).1.zip (q i).2)

theorem abyDotMany_wp {xss yss : List (List (BitVec K))} {a b : Party → List (List (AShare K))} (hI : S3Ok u v w st)
    (ha : Rels (Rels SharesOf) xss a) (hb : Rels (Rels SharesOf) yss b)
    (hl : List.Forall₂ (fun xs ys => xs.length = ys.length) xss yss) :
    WPS (fun i => abyDotMany i (a i) (b i)) st (fun c st' =>
      Rels SharesOf (List.zipWith (fun xs ys => (List.zipWith (· * ·) xs ys).sum) xss yss) c ∧
      S3Ok u v (w.addMany (xss.map List.length)) st') := by
  have : ∃ qs : List (Party → List (AShare K) × List (AShare K)),
      List.Forall₂ VecRel (List.zipWith Prod.mk xss yss) qs ∧ ∀ i, (a i).zip (b i) = qs.map fun q => q i := by
    clear hI
    induction hl generalizing a b with
    | nil => exact ⟨[], .nil, fun i => by rw [ha.eq_nil, hb.eq_nil]; rfl⟩
    | @cons xs ys xss yss hxy _ ih =>
      obtain ⟨a1, a2, h1, h2, rfl⟩ := ha.uncons
      obtain ⟨b1, b2, k1, k2, rfl⟩ := hb.uncons
      obtain ⟨qs, hq, hz⟩ := ih h2 k2
      exact ⟨(fun i => (a1 i, b1 i)) :: qs, .cons ⟨h1, k1, hxy⟩ hq, fun i => by simp [hz]⟩
  obtain ⟨qs, hq, hz⟩ := this
  have hqlen : qs.length = xss.length := by rw [← hq.length_eq]; simp [hl.length_eq]
  unfold abyDotMany
  simp only [hz]
  refine WPS.bind ((abyDotLoop_wp hI hq).mono ?_)
  rintro cr st1 ⟨hI, rs, h1, h2, h3⟩
  let es := qs.zip rs
  have hes : es.length = xss.length := by simp [es, h1, hqlen]
  have c1 : ∀ i, (cr i).map (·.1) = es.map fun e => dotEntry e.1 e.2 i := fun i => by
    rw [h3 i, zipWith_map_zip]; rfl
  have c2 : ∀ i, (cr i).map (·.2) = es.map fun e => e.2 i := fun i => by
    rw [h3 i, zipWith_map_zip]
  have c3 : ∀ i, (qs.map fun q => q i) = es.map fun e => e.1 i := fun i => by
    have : qs = es.map (·.1) := by simp only [es]; rw [List.map_fst_zip]; omega
    conv_lhs => rw [this]
    simp
  simp only [c1, c2, c3]
  refine WPS.bind (WPS.net (WP.exchangeVec (by intro i; simp) (WPS.step ⟨?_, ?_⟩)))
  · have hrel : Rels SumsTo (List.zipWith (fun xs ys => (List.zipWith (· * ·) xs ys).sum) xss yss)
        (fun i => es.map fun e => dotEntry e.1 e.2 i) := by
      refine ⟨es.map fun e i => dotEntry e.1 e.2 i, ?_, by funext i; simp⟩
      have e1 : List.zipWith (fun xs ys : List (BitVec K) => (List.zipWith (· * ·) xs ys).sum) xss yss =
          (List.zipWith Prod.mk xss yss).map fun p => (List.zipWith (· * ·) p.1 p.2).sum := by
        simp [List.map_zipWith]
      rw [e1, List.forall₂_map_left_iff, List.forall₂_map_right_iff]
      have : ∀ {ps : List (List (BitVec K) × List (BitVec K))} {qs : List (Party → List (AShare K) × List (AShare K))}
          {rs : List (Party → AShare K)}, List.Forall₂ VecRel ps qs → rs.length = qs.length → (∀ r ∈ rs, Repl r) →
          List.Forall₂ (fun (p : List (BitVec K) × List (BitVec K))
            (e : (Party → List (AShare K) × List (AShare K)) × (Party → AShare K)) =>
            SumsTo (List.zipWith (· * ·) p.1 p.2).sum (fun i => dotEntry e.1 e.2 i)) ps (qs.zip rs) := by
        intro ps qs rs h hl hr
        induction h generalizing rs with
        | nil => simp
        | cons hp _ ih =>
          cases rs with
          | nil => simp at hl
          | cons r rs =>
            refine .cons ?_ (ih (by simpa using hl) ?_)
            · have := Aby3.dotAcc_sum (sumZero (hr r (by simp))) hp.1 hp.2.1 hp.2.2
              rwa [zero_add] at this
            · intro r' h'; exact hr r' (by simp [h'])
      exact this hq h1 h2
    exact Rels.reshare (mk := AShare.mk) (S := SharesOf) (fun _ _ h => h.shares) hrel
  · have hg : Rels DotGateRel (es.map fun e => ((e.1 0).1.zip (e.1 0).2).length) (fun i =>
        (((es.map fun e => e.1 i).map fun p => p.1.zip p.2).zip (List.zipWith AShare.mk
          (es.map fun e => dotEntry e.1 e.2 i)
          (es.map fun e => dotEntry e.1 e.2 i.prev))).zip (es.map fun e => e.2 i)) := by
      refine ⟨es.map fun e i => (((e.1 i).1.zip (e.1 i).2, ⟨dotEntry e.1 e.2 i, dotEntry e.1 e.2 i.prev⟩), e.2 i), ?_, ?_⟩
      · have : ∀ e ∈ es, DotGateRel ((e.1 0).1.zip (e.1 0).2).length (fun i => (((e.1 i).1.zip (e.1 i).2,
            ⟨dotEntry e.1 e.2 i, dotEntry e.1 e.2 i.prev⟩), e.2 i)) := by
          intro e he
          have hr : Repl e.2 := h2 _ (List.of_mem_zip he).2
          obtain ⟨p, hp⟩ := forall₂_mem_right hq (List.of_mem_zip he).1
          exact ⟨rfl, hp.dotRel, fun _ => rfl, hr, fun _ => rfl⟩
        clear_value es
        clear c1 c2 c3 hes
        induction es with
        | nil => exact .nil
        | cons e es ih =>
          rw [List.map_cons, List.map_cons]
          exact .cons (this e (by simp)) (ih fun e' h' => this e' (by simp [h']))
      · funext i
        clear_value es
        clear c1 c2 c3 hes
        induction es with
        | nil => rfl
        | cons e es ih => simp only [List.map_cons, List.zipWith_cons_cons, List.zip_cons_cons, ih]
    have := registerDots_ok (z := fun i => (st1 i).dotProof) hg ⟨hI.dots, hI.sizes⟩
    have hlens : (es.map fun e => ((e.1 0).1.zip (e.1 0).2).length) = xss.map List.length := by
      have e0 : (es.map fun e => ((e.1 0).1.zip (e.1 0).2).length) = qs.map fun q => ((q 0).1.zip (q 0).2).length := by
        have : qs = es.map (·.1) := by simp only [es]; rw [List.map_fst_zip]; omega
        conv_rhs => rw [this]
        simp
      rw [e0]
      clear * - hq hl
      induction hl generalizing qs with
      | nil => cases hq; rfl
      | @cons xs ys xss yss hxy _ ih =>
        cases hq with
        | @cons _ q _ qs hv hq =>
          simp only [List.map_cons, ih _ hq]
          congr 1
          simp [hv.1.length, hv.2.1.length, hxy]
    rw [hlens] at this
    exact ⟨hI.prf, hI.queues, hI.ands, hI.muls, this.gates, this.sizes⟩

end Swift3
end Verif
