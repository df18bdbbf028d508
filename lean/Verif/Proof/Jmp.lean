import Verif.Spec.Jmp
import Verif.Proof.Run3
import Verif.Proof.Aby3

/-! # Joint message passing between honest parties -/

namespace Verif

variable {σ τ α : Type} {G : Prg} {K : Nat}

theorem WPS.zoom {get : σ → τ} {set : σ → τ → σ} {p : Party → Proto τ α} {st : Party → σ}
    {Q : (Party → α) → (Party → σ) → Prop}
    (h : WPS p (fun i => get (st i)) (fun a t => Q a (fun i => set (st i) (t i)))) :
    WPS (fun i => Proto.zoom get set (p i)) st Q :=
  WP.bind (k := fun i (r : α × τ) => Prog.ret (r.1, set (st i) r.2))
    (WP.mono h fun r hr => WP.ret (a := fun i => ((r i).1, set (st i) (r i).2)) hr)

/-- Everyone sends to the previous party, then receives from the next one. -/
theorem WP.ringBack {m : Party → Bytes} {k : Party → Bytes → Prog α} {Q : (Party → α) → Prop}
    (h : WP (fun i => k i (m i.next)) Q) :
    WP (fun i => .send i.prev (m i) (.recv i.next (k i))) Q := by
  apply WP.of3
  show R3 (.send 2 (m 0) (.recv 1 (k 0))) (.send 0 (m 1) (.recv 2 (k 1))) (.send 1 (m 2) (.recv 0 (k 2)))
    [] [] [] [] [] [] Q
  run3
  exact R3.joint rfl rfl rfl h

theorem WP.receiveVec {x : Party → List (BitVec K)} {Q : (Party → List (BitVec K)) → Prop}
    (hl : ∀ i, (x i).length = (x i.prev).length) (h : Q (fun i => x i.prev)) :
    WP (fun i => (do sendVecNext i (x i); receiveVecPrev K i (x i).length)) Q :=
  WP.exchangeVec hl h

namespace Jmp

variable {st : Party → JmpSt G}

theorem viaPrf_wp {p : Party → Proto (Aby3St G) α} {Q : (Party → α) → Prop} (hI : JmpOk st)
    (h : ∀ st' : Party → Aby3St G, Aby3.Inv 0 st' → WPS p st' (fun a st'' => Q a ∧ Aby3.Inv 0 st'')) :
    WPS (fun i => viaPrf (p i)) st (fun a st' => Q a ∧ JmpOk st') := by
  refine WPS.zoom ((h (fun i => ⟨(st i).prf⟩) hI.1).mono ?_)
  rintro a st' ⟨ha, hI'⟩
  exact ⟨ha, hI', hI.2⟩

theorem PrfOk.genRand (K : Nat) {p : Party → Prf G} (h : PrfOk p) :
    PrfOk (fun i => ((p i).genRand K).2) ∧ ∀ i, ((p i).genRand K).1.b = ((p i.prev).genRand K).1.a :=
  h.genRands K

theorem genRand_wp (hI : JmpOk st) :
    WPS (fun _ => genRand K) st (fun s st' => (∀ i, (s i).b = (s i.prev).a) ∧ JmpOk st') := by
  obtain ⟨h1, h2⟩ := PrfOk.genRand K hI.1
  exact WPS.step ⟨h2, h1, hI.2⟩

/-- The components agree, hence it is a sharing of something. -/
theorem shares_of_agree {s : Party → AShare K} (h : ∀ i, (s i).b = (s i.prev).a) : ∃ x, SharesOf x s := ⟨_, rfl, h⟩

theorem genRandMany_wp (n : Nat) (hI : JmpOk st) :
    WPS (fun _ => genRandMany K n) st
      (fun s st' => (∃ xs, xs.length = n ∧ Rels SharesOf xs s) ∧ JmpOk st') := by
  induction n generalizing st with
  | zero => exact WPS.pure (a := fun _ => []) ⟨⟨[], rfl, Rels.nil⟩, hI⟩
  | succ n ih =>
    unfold genRandMany
    refine WPS.bind ((genRand_wp hI).mono ?_)
    rintro s st' ⟨hs, hI'⟩
    obtain ⟨x, hx⟩ := shares_of_agree hs
    refine WPS.bind ((ih hI').mono ?_)
    rintro ss st'' ⟨⟨xs, hl, hxs⟩, hI''⟩
    exact WPS.pure (a := fun i => s i :: ss i) ⟨⟨x :: xs, by simp [hl], Rels.cons hx hxs⟩, hI''⟩

theorem foldl_toBytes (xs : List (BitVec K)) (q : Bytes) :
    xs.foldl (fun q x => q ++ toBytes x) q = q ++ ringSliceToBytes xs := by
  induction xs generalizing q with
  | nil => simp [ringSliceToBytes]
  | cons x xs ih => rw [List.foldl_cons, ih, ringSliceToBytes, ringSliceToBytes, List.flatMap_cons, List.append_assoc]

theorem prev_prev (i : Party) : i.prev.prev = i.next := by
  match i with | 0 => rfl | 1 => rfl | 2 => rfl
theorem next_next (i : Party) : i.next.next = i.prev := by
  match i with | 0 => rfl | 1 => rfl | 2 => rfl

theorem jmpSendReceive_wp (x : Party → BitVec K) (hI : JmpOk st) :
    WPS (fun i => jmpSendReceive i (x i.prev) (x i)) st
      (fun r st' => (∀ i, r i = x i.next) ∧ JmpOk st') := by
  have key : WPS (fun i => (do
      jmpBuffer (x i)
      let v ← Proto.net (sendAndReceiveValue i (x i.prev))
      Proto.step fun s => (v, { s with rcvQueueNext := s.rcvQueueNext ++ toBytes v }))) st
      (fun r st' => (∀ i, r i = x i.next) ∧ JmpOk st') := by
    refine WPS.bind (WPS.step ?_)
    refine WPS.bind (WPS.net (WP.exchangeValue ?_))
    refine WPS.step ⟨fun i => by simp only [prev_prev], hI.1, fun i => ?_⟩
    simp only [prev_prev]
    rw [hI.2 i]
  exact WPS.congr (fun i => rfl) key

theorem jmpSendReceiveMany_wp (x : Party → List (BitVec K)) (hl : ∀ i j, (x i).length = (x j).length) (hI : JmpOk st) :
    WPS (fun i => jmpSendReceiveMany i (x i.prev) (x i)) st
      (fun r st' => (∀ i, r i = x i.next) ∧ JmpOk st') := by
  have key : WPS (fun i => (do
      jmpBufferMany (x i)
      let v ← Proto.net (sendSliceAndReceiveVec i (x i.prev))
      Proto.step fun s => (v, { s with rcvQueueNext := v.foldl (fun q x => q ++ toBytes x) s.rcvQueueNext }))) st
      (fun r st' => (∀ i, r i = x i.next) ∧ JmpOk st') := by
    refine WPS.bind (WPS.step ?_)
    refine WPS.bind (WPS.net (WP.exchangeVec (fun i => hl _ _) ?_))
    refine WPS.step ⟨fun i => by simp only [prev_prev], hI.1, fun i => ?_⟩
    simp only [prev_prev, foldl_toBytes]
    rw [hI.2 i]
  exact WPS.congr (fun i => rfl) key

theorem jmpVerify_wp (H : Hash) (hI : JmpOk st) :
    WPS (fun i => jmpVerify H i) st (fun _ st' => JmpOk st') := by
  unfold jmpVerify
  refine WPS.bind (WPS.step ?_)
  refine WPS.congr (q := fun i => (do
    let rcvNext ← Proto.net (do sendPrev i (H.h (st i).sendQueuePrev); recvNext i)
    if rcvNext ≠ H.h (st i).rcvQueueNext then Proto.throw .jmpVerify else pure ())) (fun i => rfl) ?_
  refine WPS.bind (WPS.net ?_)
  refine WP.ringBack (m := fun i => H.h (st i).sendQueuePrev) (k := fun _ => .ret) (WP.ret ?_)
  refine WPS.ite_neg (fun i => by simp [hI.2 i]) (WPS.pure ⟨hI.1, fun i => rfl⟩)

/-- The queues are cleared and nothing else changes. -/
theorem jmpVerify_wp' (H : Hash) (hI : JmpOk st) :
    WPS (fun i => jmpVerify H i) st
      (fun _ st' => ∀ i, st' i = { st i with sendQueuePrev := [], rcvQueueNext := [] }) := by
  unfold jmpVerify
  refine WPS.bind (WPS.step ?_)
  refine WPS.congr (q := fun i => (do
    let rcvNext ← Proto.net (do sendPrev i (H.h (st i).sendQueuePrev); recvNext i)
    if rcvNext ≠ H.h (st i).rcvQueueNext then Proto.throw .jmpVerify else pure ())) (fun i => rfl) ?_
  refine WPS.bind (WPS.net ?_)
  refine WP.ringBack (m := fun i => H.h (st i).sendQueuePrev) (k := fun _ => .ret) (WP.ret ?_)
  refine WPS.ite_neg (fun i => by simp [hI.2 i]) (WPS.pure fun i => rfl)

theorem genSeeds_wp (hI : JmpOk st) :
    WPS (fun _ => genSeeds) st
      (fun s st' => (∃ k : Party → Bytes, (∀ i, (k i).length = 32) ∧ ∀ i, s i = (k i, k i.prev)) ∧ JmpOk st') := by
  refine WPS.step ⟨⟨fun i => (G.genSeed (st i).prf.my).1, fun i => G.genSeed_length _, fun i => ?_⟩, fun i => ?_, hI.2⟩
  · have := hI.1 i; simp only at this; simp only [this]
  · have := hI.1 i; simp only at this; simp only [this]

theorem coinOf_eq (k : Party → Bytes) (i : Party) :
    List.zipWith (fun a (p : Byte × Byte) => a ^^^ (p.2 ^^^ p.1)) (k i) ((k i.prev).zip (k i.next)) = coinOf k := by
  apply List.ext_getElem?
  intro n
  unfold coinOf
  simp only [List.getElem?_zipWith, List.zip]
  match i with
  | 0 => rfl
  | 1 =>
    simp only [Party.prev_one, Party.next_one]
    rcases (k 0)[n]? with _ | a <;> rcases (k 1)[n]? with _ | b <;> rcases (k 2)[n]? with _ | c <;>
      simp only [Option.some.injEq]
    bitwise
  | 2 =>
    simp only [Party.prev_two, Party.next_two]
    rcases (k 0)[n]? with _ | a <;> rcases (k 1)[n]? with _ | b <;> rcases (k 2)[n]? with _ | c <;>
      simp only [Option.some.injEq]
    bitwise

theorem coin_wp (hI : JmpOk st) :
    WPS (fun i => coin i) st
      (fun s st' => (∃ k : Party → Bytes, (∀ i, (k i).length = 32) ∧ ∀ i, s i = coinOf k) ∧ JmpOk st') := by
  unfold coin
  refine WPS.bind ((genSeeds_wp hI).mono ?_)
  rintro s st' ⟨⟨k, hk, hs⟩, hI'⟩
  obtain rfl : s = fun i => (k i, k i.prev) := funext hs
  refine WPS.bind ((jmpSendReceiveMany_wp k (fun i j => by rw [hk, hk]) hI').mono ?_)
  rintro r st'' ⟨hr, hI''⟩
  obtain rfl : r = fun i => k i.next := funext hr
  exact WPS.pure (a := fun i => List.zipWith (fun a (p : Byte × Byte) => a ^^^ (p.2 ^^^ p.1)) (k i) ((k i.prev).zip (k i.next)))
    ⟨⟨k, hk, fun i => coinOf_eq k i⟩, hI''⟩

/-- The contributions are the next seeds of the parties' own generators. -/
theorem coin_wp' (hI : JmpOk st) :
    WPS (fun i => coin i) st
      (fun s st' => (∀ i, s i = coinOf (fun j => (G.genSeed (st j).prf.my).1)) ∧ JmpOk st') := by
  unfold coin
  refine WPS.bind (WPS.step ?_)
  have hI' : JmpOk (fun i => ({ st i with
      prf := ⟨(G.genSeed (st i).prf.my).2, (G.genSeed (st i).prf.next).2⟩ } : JmpSt G)) :=
    ⟨fun i => by have := hI.1 i; simp only at this; simp only [this], hI.2⟩
  have e : ∀ i, (G.genSeed (st i).prf.next).1 = (G.genSeed (st i.prev).prf.my).1 := fun i => by
    have := hI.1 i; simp only at this; simp only [this]
  simp only [e]
  refine WPS.bind ((jmpSendReceiveMany_wp (fun i => (G.genSeed (st i).prf.my).1)
    (fun i j => by rw [G.genSeed_length, G.genSeed_length]) hI').mono ?_)
  rintro r st'' ⟨hr, hI''⟩
  obtain rfl := funext hr
  refine WPS.pure (a := fun i => List.zipWith (fun a (p : Byte × Byte) => a ^^^ (p.2 ^^^ p.1))
    (G.genSeed (st i).prf.my).1 ((G.genSeed (st i.prev).prf.my).1.zip (G.genSeed (st i.next).prf.my).1)) ?_
  exact ⟨fun i => coinOf_eq (fun j => (G.genSeed (st j).prf.my).1) i, hI''⟩

theorem reconstruct_wp {x : BitVec K} {s : Party → AShare K} (h : SharesOf x s) (hI : JmpOk st) :
    WPS (fun i => reconstruct i (s i)) st (fun r st' => (∀ i, r i = x) ∧ JmpOk st') := by
  unfold reconstruct
  simp only [h.2]
  refine WPS.bind ((jmpSendReceive_wp (fun i => (s i).a) hI).mono ?_)
  rintro r st' ⟨hr, hI'⟩
  obtain rfl : r = fun i => (s i.next).a := funext hr
  refine WPS.pure (a := fun i => (s i).a + (s i.prev).a + (s i.next).a) ⟨fun i => ?_, hI'⟩
  rw [← h.open_eq i, h.2 i, h.2 i.prev, prev_prev]

theorem rels_ab {R : BitVec K → (Party → AShare K) → Prop} (hR : ∀ x s, R x s → ∀ i, (s i).b = (s (Party.prev i)).a)
    {xs : List (BitVec K)} {ss : Party → List (AShare K)} (h : Rels R xs ss) (i : Party) :
    (ss i).map (·.b) = (ss i.prev).map (·.a) := by
  induction xs generalizing ss with
  | nil => rw [h.eq_nil]; rfl
  | cons x xs ih =>
    obtain ⟨s, ss', hs, h', rfl⟩ := h.uncons
    simp only [List.map_cons, ih h', hR _ _ hs i]

/-- Opening lists by joint message passing. -/
theorem openLists_wp {R : BitVec K → (Party → AShare K) → Prop}
    (hR : ∀ x s, R x s → ∀ i, (s i).b = (s (Party.prev i)).a) {α : Type} {f : AShare K → BitVec K → α} {g : BitVec K → α}
    (hf : ∀ x s, R x s → ∀ i, f (s i) (s (Party.next i)).a = g x)
    {xs : List (BitVec K)} {ss : Party → List (AShare K)} (h : Rels R xs ss) (hI : JmpOk st) :
    WPS (fun i => (do
      let cs ← jmpSendReceiveMany i ((ss i).map (·.b)) ((ss i).map (·.a))
      pure (List.zipWith f (ss i) cs) : Proto (JmpSt G) (List α))) st
      (fun r st' => (∀ i, r i = xs.map g) ∧ JmpOk st') := by
  simp only [rels_ab hR h]
  refine WPS.bind ((jmpSendReceiveMany_wp (fun i => (ss i).map (·.a)) (fun i j => by simp [h.length]) hI).mono ?_)
  rintro r st' ⟨hr, hI'⟩
  obtain rfl : r = fun i => (ss i.next).map (·.a) := funext hr
  refine WPS.pure (Q := fun r st' => (∀ i, r i = xs.map g) ∧ JmpOk st') ⟨fun i => ?_, hI'⟩
  clear hI' hI hr
  induction xs generalizing ss with
  | nil => rw [h.eq_nil]; rfl
  | cons x xs ih =>
    obtain ⟨s, ss', hs, h', rfl⟩ := h.uncons
    simp only [List.map_cons, List.zipWith_cons_cons, ih h', hf _ _ hs i]

theorem reconstructMany_wp {xs : List (BitVec K)} {ss : Party → List (AShare K)} (h : Rels SharesOf xs ss)
    (hI : JmpOk st) :
    WPS (fun i => reconstructMany i (ss i)) st (fun r st' => (∀ i, r i = xs) ∧ JmpOk st') := by
  refine (openLists_wp (f := fun s c => c + s.a + s.b) (g := id) (fun x s hs => hs.2) (fun x s hs i => ?_) h hI).mono ?_
  · rw [← hs.open_eq i, hs.2 i.prev, prev_prev]; simp only [id]; ring
  · simp only [List.map_id]; exact fun _ _ h => h

theorem reconstructBinaryMany_wp {xs : List (BitVec K)} {ss : Party → List (AShare K)} (h : Rels BinSharesOf xs ss)
    (hI : JmpOk st) :
    WPS (fun i => reconstructBinaryMany i (ss i)) st (fun r st' => (∀ i, r i = xs) ∧ JmpOk st') := by
  refine (openLists_wp (f := fun s c => c ^^^ s.a ^^^ s.b) (g := id) (fun x s hs => hs.2) (fun x s hs i => ?_) h hI).mono ?_
  · rw [← hs.open_eq i, hs.2 i.prev, prev_prev]; simp only [id]; bitwise
  · simp only [List.map_id]; exact fun _ _ h => h

theorem openShare_wp (H : Hash) {x : BitVec K} {s : Party → AShare K} (h : SharesOf x s) (hI : JmpOk st) :
    WPS (fun i => openShare H i (s i)) st (fun r st' => (∀ i, r i = x) ∧ JmpOk st') := by
  unfold openShare
  refine WPS.bind ((jmpVerify_wp H hI).mono ?_)
  rintro _ st1 hI1
  simp only [h.2]
  refine WPS.bind ((jmpSendReceive_wp (fun i => (s i).a) hI1).mono ?_)
  rintro r st' ⟨hr, hI'⟩
  obtain rfl : r = fun i => (s i.next).a := funext hr
  refine WPS.bind ((jmpVerify_wp H hI').mono ?_)
  rintro _ st2 hI2
  refine WPS.pure (a := fun i => (s i).a + (s i.prev).a + (s i.next).a) ⟨fun i => ?_, hI2⟩
  rw [← h.open_eq i, h.2 i, h.2 i.prev, prev_prev]

theorem openBit_wp (H : Hash) {x : BitVec 1} {s : Party → AShare 1} (h : BinSharesOf x s) (hI : JmpOk st) :
    WPS (fun i => openBit H i (s i)) st (fun r st' => (∀ i, r i = bitVal x) ∧ JmpOk st') := by
  unfold openBit
  refine WPS.bind ((jmpVerify_wp H hI).mono ?_)
  rintro _ st1 hI1
  simp only [h.2]
  refine WPS.bind ((jmpSendReceive_wp (fun i => (s i).a) hI1).mono ?_)
  rintro r st' ⟨hr, hI'⟩
  obtain rfl : r = fun i => (s i.next).a := funext hr
  refine WPS.bind ((jmpVerify_wp H hI').mono ?_)
  rintro _ st2 hI2
  refine WPS.pure (a := fun i => bitVal ((s i).a ^^^ (s i.prev).a ^^^ (s i.next).a)) ⟨fun i => ?_, hI2⟩
  rw [← h.open_eq i, h.2 i, h.2 i.prev, prev_prev]

/-- Opening lists with the check of the queues. -/
theorem openListsChecked_wp (H : Hash) {R : BitVec K → (Party → AShare K) → Prop}
    (hR : ∀ x s, R x s → ∀ i, (s i).b = (s (Party.prev i)).a) {α : Type} {f : AShare K → BitVec K → α} {g : BitVec K → α}
    (hf : ∀ x s, R x s → ∀ i, f (s i) (s (Party.next i)).a = g x)
    {xs : List (BitVec K)} {ss : Party → List (AShare K)} (h : Rels R xs ss) (hI : JmpOk st) :
    WPS (fun i => (do
      jmpVerify H i
      let cs ← jmpSendReceiveMany i ((ss i).map (·.b)) ((ss i).map (·.a))
      jmpVerify H i
      pure (List.zipWith f (ss i) cs) : Proto (JmpSt G) (List α))) st
      (fun r st' => (∀ i, r i = xs.map g) ∧ JmpOk st') := by
  refine WPS.bind ((jmpVerify_wp H hI).mono ?_)
  rintro _ st1 hI1
  simp only [rels_ab hR h]
  refine WPS.bind ((jmpSendReceiveMany_wp (fun i => (ss i).map (·.a)) (fun i j => by simp [h.length]) hI1).mono ?_)
  rintro r st' ⟨hr, hI'⟩
  obtain rfl : r = fun i => (ss i.next).map (·.a) := funext hr
  refine WPS.bind ((jmpVerify_wp H hI').mono ?_)
  rintro _ st2 hI2
  refine WPS.pure (Q := fun r st' => (∀ i, r i = xs.map g) ∧ JmpOk st') ⟨fun i => ?_, hI2⟩
  clear hI' hI hr hI2 hI1
  induction xs generalizing ss with
  | nil => rw [h.eq_nil]; rfl
  | cons x xs ih =>
    obtain ⟨s, ss', hs, h', rfl⟩ := h.uncons
    simp only [List.map_cons, List.zipWith_cons_cons, ih h', hf _ _ hs i]

theorem openMany_wp (H : Hash) {xs : List (BitVec K)} {ss : Party → List (AShare K)} (h : Rels SharesOf xs ss)
    (hI : JmpOk st) :
    WPS (fun i => openMany H i (ss i)) st (fun r st' => (∀ i, r i = xs) ∧ JmpOk st') := by
  refine (openListsChecked_wp H (f := fun s c => c + s.a + s.b) (g := id) (fun x s hs => hs.2)
    (fun x s hs i => ?_) h hI).mono ?_
  · rw [← hs.open_eq i, hs.2 i.prev, prev_prev]; simp only [id]; ring
  · simp only [List.map_id]; exact fun _ _ h => h

theorem openBitMany_wp (H : Hash) {xs : List (BitVec 1)} {ss : Party → List (AShare 1)} (h : Rels BinSharesOf xs ss)
    (hI : JmpOk st) :
    WPS (fun i => openBitMany H i (ss i)) st (fun r st' => (∀ i, r i = xs.map bitVal) ∧ JmpOk st') := by
  refine openListsChecked_wp H (f := fun s c => bitVal (c ^^^ s.a ^^^ s.b)) (g := bitVal) (fun x s hs => hs.2)
    (fun x s hs i => ?_) h hI
  rw [← hs.open_eq i, hs.2 i.prev, prev_prev]; congr 1; bitwise

end Jmp

/-! ## The hash-based check accepts shares of zero -/

theorem zeroBytes_agree {w : Party → AShare K} (h : SharesOf 0 w) (i : Party) :
    zeroBytes i (w i) = zeroBytes 0 (w 0) := by
  obtain ⟨h0, h1, h2⟩ := h.b_eq
  have hs := h.1
  have e1 : -(w 0).a - (w 2).a = (w 1).a := by
    have : (w 1).a - (-(w 0).a - (w 2).a) = 0 := by rw [← hs]; ring
    exact (sub_eq_zero.1 this).symm
  have e2 : -(w 1).a - (w 0).a = (w 2).a := by
    have : (w 2).a - (-(w 1).a - (w 0).a) = 0 := by rw [← hs]; ring
    exact (sub_eq_zero.1 this).symm
  have e3 : -(w 2).a - (w 1).a = (w 0).a := by
    have : (w 0).a - (-(w 2).a - (w 1).a) = 0 := by rw [← hs]; ring
    exact (sub_eq_zero.1 this).symm
  match i with
  | 0 => rfl
  | 1 => simp only [zeroBytes, h0, h1, e1, e2]
  | 2 => simp only [zeroBytes, h0, h2, e1, e3]

theorem hashZeroVerify_wp (H : Hash) {n : Nat} {ws : Party → List (AShare K)}
    (h : Rels SharesOf (List.replicate n 0) ws) {Q : (Party → Unit) → Prop} (hQ : Q fun _ => ()) :
    WP (fun i => hashZeroVerify H i (ws i)) Q := by
  have key : ∀ i, (ws i).flatMap (zeroBytes i) = (ws 0).flatMap (zeroBytes 0) := by
    intro i
    induction n generalizing ws with
    | zero => rw [h.eq_nil]; rfl
    | succ n ih =>
      obtain ⟨w, ws', hw, h', rfl⟩ := Rels.uncons h
      simp only [List.flatMap_cons, zeroBytes_agree hw i, ih h']
  unfold hashZeroVerify
  refine WP.bind (WP.broadcast ?_)
  simp only [key]
  simpa [idx] using WP.ret hQ

end Verif
