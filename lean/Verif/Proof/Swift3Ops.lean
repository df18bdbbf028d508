import Verif.Proof.Swift3Many
import Verif.Proof.IrisInst
import Verif.Proof.MalAby3Iris

/-! # Swift3: binary circuits, opening, input, set-up and the iris protocol, honest parties -/

namespace Verif

variable {G : Prg} {K L : Nat}

namespace Swift3

variable {st : Party → S3St G K} {u v : Nat} {w : DotCount} {H : Hash}

/-- Consistent state with `u` AND gates. -/
def InvU (v : Nat) (w : DotCount) (u : Nat) (st : Party → S3St G K) : Prop := S3Ok u v w st

theorem binLawful (G : Prg) (K v : Nat) (w : DotCount) (hL : 0 < L) :
    BinLawful L (fun i => (fam G K i).ops L) S3BinSharesOf (InvU (G := G) (K := K) v w) where
  xor := fun h h' => h.xor h'
  shl := fun n h => h.shl n
  and := fun hI ha hb => and_wp hL hI ha hb
  andMany := fun hI ha hb hl => andMany_wp hL hI ha hb hl

theorem lawful (G : Prg) (K v : Nat) (w : DotCount) : FamLawful (fam G K) (fun _ => S3BinSharesOf) (InvU v w) where
  bin _ h _ := binLawful G K v w h
  zero _ := S3BinSharesOf.zero
  mapLists hf hn h := S3BinSharesOf.mapLists hf hn h

/-! ## Arithmetic to binary -/

/-- The three summands: `c - α1`, `-α2`, `-α3`. -/
theorem a2bPre_rel {x : BitVec K} {a : Party → S3Share K} (h : S3SharesOf x a) :
    S3BinSharesOf ((a 0).c - (a 0).a) (fun i => (a2bPre i (a i)).1) ∧
    S3BinSharesOf (-(a 1).a) (fun i => (a2bPre i (a i)).2.1) ∧
    S3BinSharesOf (-(a 2).a) (fun i => (a2bPre i (a i)).2.2) := by
  obtain ⟨h0, h1, h2⟩ := h.b_eq
  have hc : (a 1).c = (a 0).c := by rw [h.1 1, h.1 0]
  refine ⟨.mk' ?_ ?_ ?_ ?_ ?_ ?_, .mk' ?_ ?_ ?_ ?_ ?_ ?_, .mk' ?_ ?_ ?_ ?_ ?_ ?_⟩ <;>
    simp [a2bPre, h0, h1, h2, hc]

theorem a2bPre_sum {x : BitVec K} {a : Party → S3Share K} (h : S3SharesOf x a) :
    (a 0).c - (a 0).a + -(a 1).a + -(a 2).a = x := by
  rw [h.1 0]; ring

theorem a2b_wp (hK : 0 < K) {x : BitVec K} {a : Party → S3Share K} (hI : S3Ok u v w st) (h : S3SharesOf x a) :
    WPS (fun i => a2b i (a i)) st
      (fun r st' => S3BinSharesOf x r ∧ S3Ok (u + K * (2 + 2 * ceilLog2 K)) v w st') := by
  obtain ⟨h1, h2, h3⟩ := a2bPre_rel h
  refine ((binLawful G K v w hK).binaryAdd3 hI h1 h2 h3).mono ?_
  rintro r st' ⟨hr, hI'⟩
  rw [a2bPre_sum h] at hr
  exact ⟨hr, hI'⟩

theorem a2bPre_rels {xs : List (BitVec K)} {a : Party → List (S3Share K)} (h : Rels S3SharesOf xs a) :
    ∃ zs : List (BitVec K × BitVec K × BitVec K), xs = zs.map (fun z => z.1 + z.2.1 + z.2.2) ∧
      Rels S3BinSharesOf (zs.map (·.1)) (fun i => (a i).map fun x => (a2bPre i x).1) ∧
      Rels S3BinSharesOf (zs.map (·.2.1)) (fun i => (a i).map fun x => (a2bPre i x).2.1) ∧
      Rels S3BinSharesOf (zs.map (·.2.2)) (fun i => (a i).map fun x => (a2bPre i x).2.2) := by
  induction xs generalizing a with
  | nil => rw [h.eq_nil]; exact ⟨[], rfl, Rels.nil, Rels.nil, Rels.nil⟩
  | cons x xs ih =>
    obtain ⟨a1, a2, h1, h2, rfl⟩ := h.uncons
    obtain ⟨zs, e, r1, r2, r3⟩ := ih h2
    obtain ⟨k1, k2, k3⟩ := a2bPre_rel h1
    exact ⟨((a1 0).c - (a1 0).a, -(a1 1).a, -(a1 2).a) :: zs, by rw [List.map_cons, a2bPre_sum h1, ← e],
      .cons k1 r1, .cons k2 r2, .cons k3 r3⟩

theorem a2bMany_wp (hK : 0 < K) {xs : List (BitVec K)} {a : Party → List (S3Share K)} (hI : S3Ok u v w st)
    (h : Rels S3SharesOf xs a) :
    WPS (fun i => a2bMany i (a i)) st
      (fun r st' => Rels S3BinSharesOf xs r ∧ S3Ok (u + K * xs.length * (2 + 2 * ceilLog2 K)) v w st') := by
  obtain ⟨zs, rfl, h1, h2, h3⟩ := a2bPre_rels h
  refine ((binLawful G K v w hK).binaryAdd3Many hI h1 h2 h3 (by simp) (by simp)).mono ?_
  rintro r st' ⟨hr, hI'⟩
  rw [Aby3.zipWith_map_three] at hr
  simp only [List.length_map] at hI' ⊢
  exact ⟨hr, hI'⟩

theorem getMsb_wp (hK : 0 < K) {x : BitVec K} {a : Party → S3Share K} (hI : S3Ok u v w st) (h : S3SharesOf x a) :
    WPS (fun i => Swift3.getMsb i (a i)) st
      (fun r st' => S3BinSharesOf (bitOf x.msb) r ∧ S3Ok (u + K * (2 + 2 * ceilLog2 K)) v w st') := by
  unfold Swift3.getMsb
  refine WPS.bind ((a2b_wp hK hI h).mono ?_)
  rintro r st' ⟨hr, hI'⟩
  exact WPS.pure ⟨hr.getMsb hK, hI'⟩

theorem getMsbMany_wp (hK : 0 < K) {xs : List (BitVec K)} {a : Party → List (S3Share K)} (hI : S3Ok u v w st)
    (h : Rels S3SharesOf xs a) :
    WPS (fun i => getMsbMany i (a i)) st
      (fun r st' => Rels S3BinSharesOf (xs.map fun x => bitOf x.msb) r ∧
        S3Ok (u + K * xs.length * (2 + 2 * ceilLog2 K)) v w st') := by
  unfold getMsbMany
  refine WPS.bind ((a2bMany_wp hK hI h).mono ?_)
  rintro r st' ⟨hr, hI'⟩
  exact WPS.pure ⟨Rels.map (g := fun _ => S3Share.getMsb) (fun x b h => h.getMsb hK) hr, hI'⟩

theorem reduceBinaryOr_wp {bits : List (BitVec 1)} {a : Party → List (S3Share 1)} {cs : Nat} (hcs : cs ≠ 0)
    (hne : bits ≠ []) (hI : S3Ok u v w st) (ha : Rels S3BinSharesOf bits a) :
    WPS (fun i => reduceBinaryOr i (a i) cs) st
      (fun c st' => S3BinSharesOf (bitOf (bits.any bitVal)) c ∧
        S3Ok (u + (128 * ((bits.length + 127) / 128 - 1) + 127)) v w st') := by
  refine ((lawful G K v w).reduceBinaryOr hcs hne hI ha).mono ?_
  rintro r st' ⟨hr, hI'⟩
  rw [FamLawful.orAll_bits] at hr
  rw [Nat.add_assoc] at hI'
  exact ⟨hr, hI'⟩

theorem binaryOr_wp {x y : BitVec 1} {a b : Party → S3Share 1} (hI : S3Ok u v w st) (ha : S3BinSharesOf x a)
    (hb : S3BinSharesOf y b) :
    WPS (fun i => binaryOr i (a i) (b i)) st (fun c st' => S3BinSharesOf (x ||| y) c ∧ S3Ok (u + 1) v w st') :=
  (binLawful G K v w (by decide)).or hI ha hb

/-! ## Opening -/

/-- With matching queues the check succeeds, and the queues are empty afterwards. -/
theorem jmpVerify_wp (hI : S3Ok u v w st) :
    WPS (fun i => jmpVerify H i) st (fun _ st' => S3Ok u v w st') := by
  obtain ⟨q1, q2, q3, q4, q5, q6⟩ := queues hI.queues
  have e0 : ∀ (s : S3St G K), jmpVerify H 0 s = (.send 1 (H.h s.sendQNext) (.send 2 (H.h s.sendQPrev)
      (.recv 2 fun rp => .recv 1 fun rn => (if rp ≠ H.h s.rcvQPrev ∨ rn ≠ H.h s.rcvQNext then Proto.throw .jmpVerify
        else pure () : Proto (S3St G K) Unit) { s with sendQNext := [], sendQPrev := [], rcvQNext := [], rcvQPrev := [] }))) :=
    fun s => rfl
  have e1 : ∀ (s : S3St G K), jmpVerify H 1 s = (.send 2 (H.h s.sendQNext) (.send 0 (H.h s.sendQPrev)
      (.recv 0 fun rp => .recv 2 fun rn => (if rp ≠ H.h s.rcvQPrev ∨ rn ≠ H.h s.rcvQNext then Proto.throw .jmpVerify
        else pure () : Proto (S3St G K) Unit) { s with sendQNext := [], sendQPrev := [], rcvQNext := [], rcvQPrev := [] }))) :=
    fun s => rfl
  have e2 : ∀ (s : S3St G K), jmpVerify H 2 s = (.send 0 (H.h s.sendQNext) (.send 1 (H.h s.sendQPrev)
      (.recv 1 fun rp => .recv 0 fun rn => (if rp ≠ H.h s.rcvQPrev ∨ rn ≠ H.h s.rcvQNext then Proto.throw .jmpVerify
        else pure () : Proto (S3St G K) Unit) { s with sendQNext := [], sendQPrev := [], rcvQNext := [], rcvQPrev := [] }))) :=
    fun s => rfl
  apply WPS.of3
  simp only [e0, e1, e2]
  run3
  simp only [q1, q2, q3, q4, q5, q6, ne_eq, not_true, or_self, if_false, Proto.pure_apply]
  refine R3.done fun r k0 k1 k2 => ok_update hI ?_ ?_ ?_ ?_ ?_
  · exact prf_mk (by simp [k0, k1, hI.prf.1 0]) (by simp [k1, k2, hI.prf.1 1]) (by simp [k0, k2, hI.prf.1 2])
      (by simp [k0, k1, hI.prf.2 1 0]) (by simp [k0, k2, hI.prf.2 2 0])
  · exact queues_mk (by simp [k0, k2]) (by simp [k0, k1]) (by simp [k1, k2]) (by simp [k0, k1]) (by simp [k1, k2])
      (by simp [k0, k2])
  all_goals exact forall_party.2 ⟨by simp [k0], by simp [k1], by simp [k2]⟩

/-- Every party obtains the component it does not hold. -/
theorem openExchange_wp {s : Party → S3Share L} (hs : ∀ i, (s i).b = (s (Party.prev i)).a) (hI : S3Ok u v w st) :
    WPS (fun i => openExchange i (s i)) st (fun r st' => (∀ i, r i = (s (Party.next i)).a) ∧ S3Ok u v w st') := by
  obtain ⟨q1, q2, q3, q4, q5, q6⟩ := queues hI.queues
  have b0 := hs 0; have b1 := hs 1; have b2 := hs 2
  simp only [Party.prev_zero, Party.prev_one, Party.prev_two] at b0 b1 b2
  unfold openExchange
  apply WPS.of3
  simp only
  s3_norm []
  run3
  s3_norm []
  refine R3.done fun r k0 k1 k2 => ⟨?_, ok_update hI ?_ ?_ ?_ ?_ ?_⟩
  · exact forall_party.2 ⟨by simp [k0], by simp [k1, b0], by simp [k2]⟩
  · exact prf_mk (by simp [k0, k1, hI.prf.1 0]) (by simp [k1, k2, hI.prf.1 1]) (by simp [k0, k2, hI.prf.1 2])
      (by simp [k0, k1, hI.prf.2 1 0]) (by simp [k0, k2, hI.prf.2 2 0])
  · exact queues_mk (by simp [k0, k2, q1, b2]) (by simp [k0, k1, q2]) (by simp [k1, k2, q3, b1]) (by simp [k0, k1, q4])
      (by simp [k1, k2, q5, b0]) (by simp [k0, k2, q6])
  all_goals exact forall_party.2 ⟨by simp [k0], by simp [k1], by simp [k2]⟩

theorem openShare_wp {x : BitVec K} {s : Party → S3Share K} (hs : S3SharesOf x s) (hI : S3Ok u v w st) :
    WPS (fun i => openShare H i (s i)) st (fun r st' => (∀ i, r i = x) ∧ S3Ok u v w st') := by
  unfold openShare
  refine WPS.bind ((jmpVerify_wp hI).mono ?_)
  rintro _ st1 hI
  refine WPS.bind ((openExchange_wp hs.2 hI).mono ?_)
  rintro r st2 ⟨hr, hI⟩
  refine WPS.bind ((jmpVerify_wp hI).mono ?_)
  rintro _ st3 hI
  refine WPS.pure ⟨?_, hI⟩
  refine forall_party.2 ⟨?_, ?_, ?_⟩ <;> simp only [hs.1, hs.2, hr, Party.prev_zero, Party.prev_one, Party.prev_two,
    Party.next_zero, Party.next_one, Party.next_two] <;> ring

theorem openBit_wp {x : BitVec 1} {s : Party → S3Share 1} (hs : S3BinSharesOf x s) (hI : S3Ok u v w st) :
    WPS (fun i => openBit H i (s i)) st (fun r st' => (∀ i, r i = bitVal x) ∧ S3Ok u v w st') := by
  unfold openBit
  refine WPS.bind ((jmpVerify_wp hI).mono ?_)
  rintro _ st1 hI
  refine WPS.bind ((openExchange_wp hs.2 hI).mono ?_)
  rintro r st2 ⟨hr, hI⟩
  refine WPS.bind ((jmpVerify_wp hI).mono ?_)
  rintro _ st3 hI
  refine WPS.pure ⟨?_, hI⟩
  refine forall_party.2 ⟨?_, ?_, ?_⟩ <;> refine congrArg bitVal ?_ <;> simp only [hs.1, hs.2, hr, Party.prev_zero, Party.prev_one,
    Party.prev_two, Party.next_zero, Party.next_one, Party.next_two] <;> bitwise

theorem queueMany20' (x : List (BitVec L)) (s : S3St G K) : jmpQueueMany 2 x 0 s =
    .ret ((), { s with sendQNext := x.foldl (fun q x => q ++ toBytes x) s.sendQNext }) := rfl

theorem openExchangeMany_wp {X : Type} {R : X → (Party → S3Share L) → Prop}
    (hR : ∀ x s, R x s → ∀ i, (s i).b = (s (Party.prev i)).a) {xs : List X}
    {s : Party → List (S3Share L)} (hs : Rels R xs s) (hI : S3Ok u v w st) :
    WPS (fun i => openExchangeMany i (s i)) st
      (fun r st' => (∀ i, r i = (s (Party.next i)).map (·.a)) ∧ S3Ok u v w st') := by
  obtain ⟨q1, q2, q3, q4, q5, q6⟩ := queues hI.queues
  have b0 : (s 0).map (·.b) = (s 2).map (·.a) := hs.map_eq fun x s h => hR x s h 0
  have b1 : (s 1).map (·.b) = (s 0).map (·.a) := hs.map_eq fun x s h => hR x s h 1
  have b2 : (s 2).map (·.b) = (s 1).map (·.a) := hs.map_eq fun x s h => hR x s h 2
  have l : ∀ i, (s i).length = xs.length := hs.length
  have r1 := ringVecFromBytes_roundtrip ((s 0).map (·.a))
  have r2 := ringVecFromBytes_roundtrip ((s 0).map (·.b))
  have r3 := ringVecFromBytes_roundtrip ((s 1).map (·.a))
  simp only [List.length_map, l] at r1 r2 r3
  unfold openExchangeMany
  simp only [l]
  apply WPS.of3
  simp only
  s3_norm []
  run3
  s3_norm [r1, r2, r3]
  refine R3.done fun r k0 k1 k2 => ⟨?_, ok_update hI ?_ ?_ ?_ ?_ ?_⟩
  · exact forall_party.2 ⟨by simp [k0], by simp [k1, b0], by simp [k2]⟩
  · exact prf_mk (by simp [k0, k1, hI.prf.1 0]) (by simp [k1, k2, hI.prf.1 1]) (by simp [k0, k2, hI.prf.1 2])
      (by simp [k0, k1, hI.prf.2 1 0]) (by simp [k0, k2, hI.prf.2 2 0])
  · refine queues_mk ?_ ?_ ?_ ?_ ?_ ?_
    · simp only [k0, k2, q1, b2]
    · simp only [k0, k1, q2]
    · simp only [k1, k2, q3, b1]
    · simp only [k0, k1, q4]
    · simp only [k1, k2, q5, b0]
    · simp only [k0, k2, q6]
  all_goals exact forall_party.2 ⟨by simp [k0], by simp [k1], by simp [k2]⟩

/-- Reconstruction of a list with the received components. -/
theorem reconstructMany {X Y : Type} {R : X → (Party → S3Share L) → Prop} {f : X → Y} {g : BitVec L → S3Share L → Y}
    (hR : ∀ x s, R x s → ∀ i, g (s (Party.next i)).a (s i) = f x) {xs : List X}
    {s : Party → List (S3Share L)} (hs : Rels R xs s) (i : Party) :
    List.zipWith g ((s i.next).map (·.a)) (s i) = xs.map f := by
  induction xs generalizing s with
  | nil => rw [hs.eq_nil]; rfl
  | cons x xs ih =>
    obtain ⟨a1, a2, h1, h2, rfl⟩ := hs.uncons
    simp only [List.map_cons, List.zipWith_cons_cons, hR x a1 h1 i, ih h2]

theorem openMany_wp {xs : List (BitVec K)} {s : Party → List (S3Share K)} (hs : Rels S3SharesOf xs s)
    (hI : S3Ok u v w st) : WPS (fun i => openMany H i (s i)) st (fun r st' => (∀ i, r i = xs) ∧ S3Ok u v w st') := by
  unfold openMany
  refine WPS.bind ((jmpVerify_wp hI).mono ?_)
  rintro _ st1 hI
  refine WPS.bind ((openExchangeMany_wp (fun _ _ h => h.2) hs hI).mono ?_)
  rintro r st2 ⟨hr, hI⟩
  refine WPS.bind ((jmpVerify_wp hI).mono ?_)
  rintro _ st3 hI
  refine WPS.pure ⟨fun i => ?_, hI⟩
  simp only [hr i]
  rw [reconstructMany (f := id) ?_ hs, List.map_id]
  intro x s hs
  refine forall_party.2 ⟨?_, ?_, ?_⟩ <;> simp only [hs.1, hs.2, Party.prev_zero, Party.prev_one, Party.prev_two,
    Party.next_zero, Party.next_one, Party.next_two, id] <;> ring

theorem openBitMany_wp {xs : List (BitVec 1)} {s : Party → List (S3Share 1)} (hs : Rels S3BinSharesOf xs s)
    (hI : S3Ok u v w st) :
    WPS (fun i => openBitMany H i (s i)) st (fun r st' => (∀ i, r i = xs.map bitVal) ∧ S3Ok u v w st') := by
  unfold openBitMany
  refine WPS.bind ((jmpVerify_wp hI).mono ?_)
  rintro _ st1 hI
  refine WPS.bind ((openExchangeMany_wp (fun _ _ h => h.2) hs hI).mono ?_)
  rintro r st2 ⟨hr, hI⟩
  refine WPS.bind ((jmpVerify_wp hI).mono ?_)
  rintro _ st3 hI
  refine WPS.pure ⟨fun i => ?_, hI⟩
  simp only [hr i]
  rw [reconstructMany (f := bitVal) ?_ hs]
  intro x s hs
  refine forall_party.2 ⟨?_, ?_, ?_⟩ <;> refine congrArg bitVal ?_ <;> simp only [hs.1, hs.2, Party.prev_zero, Party.prev_one,
    Party.prev_two, Party.next_zero, Party.next_one, Party.next_two] <;> bitwise

/-! ## Input -/

theorem input_wp {id : Party} {x : BitVec K} {inp : Party → Option (BitVec K)} (hx : inp id = some x)
    (hI : S3Ok u v w st) :
    WPS (fun i => input i (inp i) id.val) st (fun s st' => S3SharesOf x s ∧ S3Ok u v w st') := by
  obtain ⟨q1, q2, q3, q4, q5, q6⟩ := queues hI.queues
  obtain ⟨-, p2, p3⟩ := prfs hI
  have p01 : (st 1).prf.p2 = (st 0).prf.p1 := (hI.prf.1 0).symm
  have p12 : (st 2).prf.p2 = (st 1).prf.p1 := (hI.prf.1 1).symm
  have p20 : (st 0).prf.p2 = (st 2).prf.p1 := (hI.prf.1 2).symm
  apply WPS.of3
  match id with
  | 0 =>
    have e0 : ∀ (s : S3St G K), input 0 (some x) 0 s = (do
        let alpha1 ← gen1 K
        let alpha2 ← genP K
        let alpha3 ← gen2 K
        let beta := x + (alpha2 + alpha1 + alpha3)
        Proto.net (sendValue 0 beta 1)
        jmpSend 0 beta 2
        pure ⟨alpha1, alpha3, beta⟩ : Proto (S3St G K) (S3Share K)) s := fun s => rfl
    have e1 : ∀ (s : S3St G K) o, input 1 o 0 s = (do
        let alpha1 ← gen2 K
        let alpha2 ← genP K
        let beta ← Proto.net (receiveValue K 1 0)
        jmpQueue 1 beta 2
        pure ⟨alpha2, alpha1, beta⟩ : Proto (S3St G K) (S3Share K)) s := fun s _ => rfl
    have e2 : ∀ (s : S3St G K) o, input 2 o 0 s = (do
        let alpha2 ← genP K
        let alpha3 ← gen1 K
        let beta ← jmpReceive K 2 0
        pure ⟨alpha3, alpha2, beta⟩ : Proto (S3St G K) (S3Share K)) s := fun s _ => rfl
    simp only [Fin.val_zero, hx, e0, e1, e2]
    s3_norm [gen1, gen2, genP]
    run3
    s3_norm []
    refine R3.done fun r k0 k1 k2 => ⟨?_, ok_update hI ?_ ?_ ?_ ?_ ?_⟩
    · refine .mk' ?_ ?_ ?_ ?_ ?_ ?_ <;> simp only [k0, k1, k2, p2, p3, p01, p12, p20] <;> ring
    · exact prf_mk (by simp [k0, k1, p01]) (by simp [k1, k2, p12]) (by simp [k0, k2, p20])
        (by simp [k0, k1, p2]) (by simp [k0, k2, p3])
    · exact queues_mk (by simp [k0, k2, q1]) (by simp [k0, k1, q2]) (by simp [k1, k2, q3]) (by simp [k0, k1, q4])
        (by simp [k1, k2, q5]) (by simp [k0, k2, q6])
    all_goals exact forall_party.2 ⟨by simp [k0], by simp [k1], by simp [k2]⟩
  | 1 =>
    have e1 : ∀ (s : S3St G K), input 1 (some x) 1 s = (do
        let alpha1 ← gen2 K
        let alpha2 ← gen1 K
        let alpha3 ← genP K
        let beta := x + (alpha3 + alpha1 + alpha2)
        Proto.net (sendValue 1 beta 2)
        jmpSend 1 beta 0
        pure ⟨alpha2, alpha1, beta⟩ : Proto (S3St G K) (S3Share K)) s := fun s => rfl
    have e2 : ∀ (s : S3St G K) o, input 2 o 1 s = (do
        let alpha2 ← gen2 K
        let alpha3 ← genP K
        let beta ← Proto.net (receiveValue K 2 1)
        jmpQueue 2 beta 0
        pure ⟨alpha3, alpha2, beta⟩ : Proto (S3St G K) (S3Share K)) s := fun s _ => rfl
    have e0 : ∀ (s : S3St G K) o, input 0 o 1 s = (do
        let alpha1 ← gen1 K
        let alpha3 ← genP K
        let beta ← jmpReceive K 0 1
        pure ⟨alpha1, alpha3, beta⟩ : Proto (S3St G K) (S3Share K)) s := fun s _ => rfl
    simp only [Fin.val_one, hx, e0, e1, e2]
    s3_norm [gen1, gen2, genP]
    run3
    s3_norm []
    refine R3.done fun r k0 k1 k2 => ⟨?_, ok_update hI ?_ ?_ ?_ ?_ ?_⟩
    · refine .mk' ?_ ?_ ?_ ?_ ?_ ?_ <;> simp only [k0, k1, k2, p2, p3, p01, p12, p20] <;> ring
    · exact prf_mk (by simp [k0, k1, p01]) (by simp [k1, k2, p12]) (by simp [k0, k2, p20])
        (by simp [k0, k1, p2]) (by simp [k0, k2, p3])
    · exact queues_mk (by simp [k0, k2, q1]) (by simp [k0, k1, q2]) (by simp [k1, k2, q3]) (by simp [k0, k1, q4])
        (by simp [k1, k2, q5]) (by simp [k0, k2, q6])
    all_goals exact forall_party.2 ⟨by simp [k0], by simp [k1], by simp [k2]⟩
  | 2 =>
    have e2 : ∀ (s : S3St G K), input 2 (some x) 2 s = (do
        let alpha1 ← genP K
        let alpha2 ← gen2 K
        let alpha3 ← gen1 K
        let beta := x + (alpha1 + alpha2 + alpha3)
        Proto.net (sendValue 2 beta 1)
        jmpSend 2 beta 0
        pure ⟨alpha3, alpha2, beta⟩ : Proto (S3St G K) (S3Share K)) s := fun s => rfl
    have e1 : ∀ (s : S3St G K) o, input 1 o 2 s = (do
        let alpha1 ← genP K
        let alpha2 ← gen1 K
        let beta ← Proto.net (receiveValue K 1 2)
        jmpQueue 1 beta 0
        pure ⟨alpha2, alpha1, beta⟩ : Proto (S3St G K) (S3Share K)) s := fun s _ => rfl
    have e0 : ∀ (s : S3St G K) o, input 0 o 2 s = (do
        let alpha1 ← genP K
        let alpha3 ← gen2 K
        let beta ← jmpReceive K 0 2
        pure ⟨alpha1, alpha3, beta⟩ : Proto (S3St G K) (S3Share K)) s := fun s _ => rfl
    simp only [Fin.val_two, hx, e0, e1, e2]
    s3_norm [gen1, gen2, genP]
    run3
    s3_norm []
    refine R3.done fun r k0 k1 k2 => ⟨?_, ok_update hI ?_ ?_ ?_ ?_ ?_⟩
    · refine .mk' ?_ ?_ ?_ ?_ ?_ ?_ <;> simp only [k0, k1, k2, p2, p3, p01, p12, p20] <;> ring
    · exact prf_mk (by simp [k0, k1, p01]) (by simp [k1, k2, p12]) (by simp [k0, k2, p20])
        (by simp [k0, k1, p2]) (by simp [k0, k2, p3])
    · exact queues_mk (by simp [k0, k2, q1]) (by simp [k0, k1, q2]) (by simp [k1, k2, q3]) (by simp [k0, k1, q4])
        (by simp [k1, k2, q5]) (by simp [k0, k2, q6])
    all_goals exact forall_party.2 ⟨by simp [k0], by simp [k1], by simp [k2]⟩

/-- `share`: the three shares form a sharing of the input. -/
theorem share_ok (x a1 a2 a3 : BitVec K) (s : Party → S3Share K) (h : ∀ i, (share x a1 a2 a3)[i.val]? = some (s i)) :
    S3SharesOf x s := by
  have h0 := h 0; have h1 := h 1; have h2 := h 2
  simp [share] at h0 h1 h2
  refine .mk' ?_ ?_ ?_ ?_ ?_ ?_ <;> simp only [← h0, ← h1, ← h2] <;> ring

end Swift3
end Verif
