import Verif.Proof.S3OpenAll
import Verif.Proof.S3LockMul
import Verif.Proof.LockCount
import Verif.Proof.SpdzLockIris
import Verif.Proof.SpdzLockQuery

/-!
# Lock-step runs of all openings
-/

namespace Verif

variable {f : Bytes → List Bool} {K L V m n : Nat} {i : Party} {H : Hash}

/-- What a value and one party's share determine of the shares of one value, they determine of lists. -/
theorem Rels.det {X B C : Type} {R : X → (Party → B) → Prop} {h : B → C} {k : Party}
    (hR : ∀ x t t', R x t → R x t' → t i = t' i → h (t k) = h (t' k)) {xs : List X} {s s' : Party → List B} (hs : Rels R xs s)
    (hs' : Rels R xs s') (hi : s i = s' i) : (s k).map h = (s' k).map h := by
  obtain ⟨js, h1, rfl⟩ := hs
  obtain ⟨js', h2, rfl⟩ := hs'
  induction h1 generalizing js' with
  | nil => cases h2; rfl
  | cons a1 _ ih =>
    cases h2 with
    | cons b1 b2 =>
      simp only [List.map_cons, List.cons.injEq] at hi ⊢
      exact ⟨hR _ _ _ a1 b1 hi.1, ih _ b2 hi.2⟩

/-! ## Swift3 -/

theorem s3Missing_add {x : BitVec L} {s s' : Party → S3Share L} (hs : S3SharesOf x s) (hs' : S3SharesOf x s') (hi : s i = s' i) :
    (s i.next).a = (s' i.next).a := by
  have key : ∀ {s : Party → S3Share L}, S3SharesOf x s → (s i.next).a = (s i).c - x - (s i).a - (s i).b := by
    intro s hs
    rw [hs.1 i, hs.2 i]
    match i with
    | 0 =>
      show (s 1).a = x + (s 0).a + (s 1).a + (s 2).a - x - (s 0).a - (s 2).a
      ring
    | 1 =>
      show (s 2).a = x + (s 0).a + (s 1).a + (s 2).a - x - (s 1).a - (s 0).a
      ring
    | 2 =>
      show (s 0).a = x + (s 0).a + (s 1).a + (s 2).a - x - (s 2).a - (s 1).a
      ring
  rw [key hs, key hs', hi]

namespace S3Open

variable {st : Bool → Party → S3St (idealPrg f) K}

theorem openShare_lock (hst : Twin3 i st) {x : BitVec K} {s : Bool → Party → S3Share K}
    (hs : ∀ w, S3SharesOf x (s w)) (hi : s false i = s true i) :
    Lock3 i (fun _ => []) (fun w j => Swift3.openShare H j (s w j)) st fun _ t => Twin3 i t := by
  unfold Swift3.openShare
  exact Lock3.bind' ((s3JmpVerify_lock hst).mono fun _ _ h => Lock3.bind' ((s3Exchange_lock h (fun w => (hs w).2)
    (s3Missing_add (hs false) (hs true) hi) hi).mono fun r t ht => Lock3.bind' ((s3JmpVerify_lock ht).mono fun _ _ h => Lock3.pure h)))

theorem openMany_lock (hst : Twin3 i st) {x : List (BitVec K)} {s : Bool → Party → List (S3Share K)}
    (hs : ∀ w, Rels S3SharesOf x (s w)) (hi : s false i = s true i) :
    Lock3 i (fun _ => []) (fun w j => Swift3.openMany H j (s w j)) st fun _ t => Twin3 i t := by
  unfold Swift3.openMany
  have hm : (s false i.next).map (·.a) = (s true i.next).map (·.a) :=
    Rels.det (R := S3SharesOf) (fun _ _ _ h h' e => s3Missing_add h h' e) (hs false) (hs true) hi
  exact Lock3.bind' ((s3JmpVerify_lock hst).mono fun _ _ h => Lock3.bind' ((s3ExchangeMany_lock h (R := S3SharesOf) (xs := fun _ => x) (fun _ _ h => h.2) hs rfl
    hm hi).mono fun r t ht =>
      Lock3.bind' ((s3JmpVerify_lock ht).mono fun _ _ h => Lock3.pure h)))

theorem openBitMany_lock (hst : Twin3 i st) {x : List (BitVec 1)} {s : Bool → Party → List (S3Share 1)}
    (hs : ∀ w, Rels S3BinSharesOf x (s w)) (hi : s false i = s true i) :
    Lock3 i (fun _ => []) (fun w j => Swift3.openBitMany H j (s w j)) st fun _ t => Twin3 i t := by
  unfold Swift3.openBitMany
  have hm : (s false i.next).map (·.a) = (s true i.next).map (·.a) :=
    Rels.det (R := S3BinSharesOf) (fun _ _ _ h h' e => s3Missing_eq h h' e) (hs false) (hs true) hi
  exact Lock3.bind' ((s3JmpVerify_lock hst).mono fun _ _ h => Lock3.bind' ((s3ExchangeMany_lock h (R := S3BinSharesOf) (xs := fun _ => x) (fun _ _ h => h.2) hs rfl
    hm hi).mono fun r t ht =>
      Lock3.bind' ((s3JmpVerify_lock ht).mono fun _ _ h => Lock3.pure h)))

end S3Open

/-! ## Replicated shares -/

theorem missing_add {x : BitVec L} {s s' : Party → AShare L} (hs : SharesOf x s) (hs' : SharesOf x s') (hi : s i = s' i) :
    (s i.prev).b = (s' i.prev).b := by
  have h1 := hs.open_eq i
  have h2 := hs'.open_eq i
  rw [hi, ← h2] at h1
  exact add_left_cancel h1

theorem missing_xor {x : BitVec L} {s s' : Party → AShare L} (hs : BinSharesOf x s) (hs' : BinSharesOf x s') (hi : s i = s' i) :
    (s i.prev).b = (s' i.prev).b := by
  have h1 := hs.open_eq i
  have h2 := hs'.open_eq i
  rw [hi, ← h2] at h1
  have := congrArg ((s' i).a ^^^ (s' i).b ^^^ ·) h1
  simpa [← BitVec.xor_assoc] using this

namespace JmpOpen

open Jmp MalAby3

theorem openShare_two (H : Hash) {x : BitVec K} {s : Bool → Party → AShare K} (hs : ∀ w, SharesOf x (s w)) (is : s false i = s true i) :
    Cpl (f := f) i 0 (fun w j => Jmp.openShare H j (s w j)) fun _ => True := by
  intro st hst
  refine ⟨fun _ _ => [], fun _ _ _ => rfl, fun _ u u' hu hu' _ => by
    rw [List.length_eq_zero_iff.1 hu, List.length_eq_zero_iff.1 hu'], fun u _ => ?_⟩
  refine (Lock.full (Q := fun _ _ => True) (R := fun _ _ => True) ?_ hst (by simp only [is]) fun w t hJ =>
    (Jmp.openShare_wp H (hs w) hJ).mono fun _ _ h => ⟨trivial, h.2⟩).mono fun _ _ h => ⟨trivial, h.2.1⟩
  unfold Jmp.openShare
  refine Lock.bind' ((jmpVerify_lock H hst).mono fun _ st1 hst1 => ?_)
  refine Lock.bind' ((Lock.full (jmpSendReceive_lock (x := fun w j => (s w j).b) (y := fun w j => (s w j).a)
    (missing_add (hs false) (hs true) is)) hst1 (by simp only [is]) (R := fun _ _ => True) fun w t hJ => ?_).mono fun c st2 hc => ?_)
  · simp only [(hs w).2]
    exact (jmpSendReceive_wp (fun j => (s w j).a) hJ).mono fun _ _ h => ⟨trivial, h.2⟩
  · refine Lock.bind' ((jmpVerify_lock H hc.2.1).mono fun _ st3 _ => ?_)
    exact Lock.pure (a := fun w j => (s w j).a + (s w j).b + c w j) trivial

theorem lists_two (H : Hash) {α : Type} {R : BitVec K → (Party → AShare K) → Prop}
    (hR : ∀ x s, R x s → ∀ i, (s i).b = (s (Party.prev i)).a) (g : AShare K → BitVec K → α) {x : List (BitVec K)} {s : Bool → Party → List (AShare K)}
    (hs : ∀ w, Rels R x (s w)) (hm : (s false i.prev).map (·.b) = (s true i.prev).map (·.b)) (is : s false i = s true i) :
    Cpl (f := f) i 0 (fun w j => (do
      jmpVerify H j
      let cs ← jmpSendReceiveMany j ((s w j).map (·.b)) ((s w j).map (·.a))
      jmpVerify H j
      pure (List.zipWith g (s w j) cs) : Proto (JmpSt (idealPrg f)) (List α))) fun _ => True := by
  intro st hst
  refine ⟨fun _ _ => [], fun _ _ _ => rfl, fun _ u u' hu hu' _ => by
    rw [List.length_eq_zero_iff.1 hu, List.length_eq_zero_iff.1 hu'], fun u _ => ?_⟩
  have hl : ∀ w j, ((s w j).map (·.b)).length = ((s w j.prev).map (·.b)).length := fun w j => by
    rw [List.length_map, List.length_map, (hs w).length, (hs w).length]
  have ab : ∀ w j, (s w j).map (·.b) = (s w j.prev).map (·.a) := fun w j => (hs w).map_eq fun x s h => hR x s h j
  refine (Lock.full (Q := fun _ st => Twin i st) (R := fun _ _ => True) ?_ hst (by simp only [is]) fun w t hJ => ?_).mono fun _ _ h => ⟨trivial, h.2.1⟩
  · refine Lock.bind' ((jmpVerify_lock H hst).mono fun _ st1 hst1 => ?_)
    refine Lock.bind' ((Lock.full (jmpSendReceiveMany_lock (x := fun w j => (s w j).map (·.b)) (y := fun w j => (s w j).map (·.a))
      hl hm) hst1 (by simp only [is]) (R := fun _ _ => True) fun w t hJ => ?_).mono fun c st2 hc => ?_)
    · simp only [ab]
      have key := jmpSendReceiveMany_wp (fun j => (s w j).map (·.a)) (fun i j => by simp [(hs w).length]) hJ
      exact WPS.mono key fun _ _ h => ⟨trivial, h.2⟩
    · refine Lock.bind' ((jmpVerify_lock H hc.2.1).mono fun _ st3 h3 => ?_)
      exact Lock.pure (a := fun w j => List.zipWith g (s w j) (c w j)) h3
  · refine WPS.bind ((jmpVerify_wp H hJ).mono fun _ _ h1 => ?_)
    simp only [ab]
    refine WPS.bind ((jmpSendReceiveMany_wp (fun j => (s w j).map (·.a)) (fun i j => by simp [(hs w).length]) h1).mono fun _ _ h2 => ?_)
    exact WPS.bind ((jmpVerify_wp H h2.2).mono fun _ _ h3 => WPS.pure ⟨trivial, h3⟩)

theorem openMany_two (H : Hash) {x : List (BitVec K)} {s : Bool → Party → List (AShare K)} (hs : ∀ w, Rels SharesOf x (s w))
    (is : s false i = s true i) : Cpl (f := f) i 0 (fun w j => Jmp.openMany H j (s w j)) fun _ => True :=
  lists_two H (fun _ _ h => h.2) (fun s c => c + s.a + s.b) hs
    (Rels.det (R := SharesOf) (fun _ _ _ h h' e => missing_add h h' e) (hs false) (hs true) is) is

theorem openBitMany_two (H : Hash) {x : List (BitVec 1)} {s : Bool → Party → List (AShare 1)} (hs : ∀ w, Rels BinSharesOf x (s w))
    (is : s false i = s true i) : Cpl (f := f) i 0 (fun w j => Jmp.openBitMany H j (s w j)) fun _ => True :=
  lists_two H (fun _ _ h => h.2) (fun s c => bitVal (c ^^^ s.a ^^^ s.b)) hs
    (Rels.det (R := BinSharesOf) (fun _ _ _ h h' e => missing_xor h h' e) (hs false) (hs true) is) is

end JmpOpen

/-! ## The exact views -/

theorem runs_value (x : Party → BitVec K) (acc : Party → Log) :
    Runs (fun j => (sendAndReceiveValue j (x j)).record (acc j)) fun j => (acc j ++ [(j.prev, toBytes (x j.prev))], x j.prev) := by
  have e : ∀ j, sendAndReceiveValue j (x j) = Prog.send j.next (toBytes (x j)) (.recv j.prev fun m =>
      Prog.ofExcept (fromBytes K m)) := fun j => by
    unfold sendAndReceiveValue sendAndReceive sendNext recvPrev
    simp only [Prog.send_bind, Prog.ret_bind, Prog.recv_bind]
  simp only [e]
  refine Uni.record_ring (fun j => toBytes (x j)) _ acc ?_
  simp only [fromBytes_toBytes]
  exact ⟨0, .zero _⟩

theorem runs_iter (x : Party → List (BitVec K)) (hl : ∀ j, (x j).length = (x j.prev).length) (acc : Party → Log) :
    Runs (fun j => (sendSliceAndReceiveIter j (x j)).record (acc j)) fun j =>
      (acc j ++ [(j.prev, ringSliceToBytes (x j.prev))], x j.prev) := by
  have e : ∀ j, sendSliceAndReceiveIter j (x j) = Prog.send j.next (ringSliceToBytes (x j)) (.recv j.prev fun m =>
      Prog.ofExcept (ringIterFromBytes K m (x j).length)) := fun j => by
    unfold sendSliceAndReceiveIter sendAndReceive sendNext recvPrev
    simp only [Prog.send_bind, Prog.ret_bind, Prog.recv_bind]
  simp only [e]
  refine Uni.record_ring (fun j => ringSliceToBytes (x j)) _ acc ?_
  have e2 : ∀ j, ringIterFromBytes K (ringSliceToBytes (x j.prev)) (x j).length = .ok (x j.prev) := fun j => by
    rw [hl, ringIterFromBytes_roundtrip]
  simp only [e2]
  exact ⟨0, .zero _⟩

/-- One message is exchanged and nothing else. -/
theorem sees_net {σ α β : Type} {p : Party → Prog α} {l : Party → Log} {a : Party → α} {k : Party → α → β}
    (h : Runs (fun j => (p j).record []) fun j => (l j, a j)) (st : Party → σ) (v : Log) :
    Sees (fun j => (Proto.net (p j) >>= fun a => pure (k j a) : Proto σ β) (st j)) i v ↔ v = l i := by
  refine Sees.of_runs (r := fun j => (l j, (k j (a j), st j))) ?_ v
  have e : ∀ j, ((Proto.net (p j) >>= fun a => pure (k j a) : Proto σ β) (st j)).record [] =
      (p j).record [] >>= fun r => Prog.ret (r.1, (k j r.2, st j)) := by
    intro j
    show ((p j >>= fun a => Prog.ret (a, st j)) >>= fun r => Prog.ret (k j r.1, r.2)).record [] = _
    rw [bind_assoc, Prog.record_bind]
    rfl
  simp only [e]
  exact h.bind ⟨0, .zero _⟩

theorem missing_add_eq {x : BitVec L} {s : Party → AShare L} (hs : SharesOf x s) : (s i.prev).b = x - (s i).a - (s i).b := by
  rw [← hs.open_eq i]; ring

theorem missing_xor_eq {x : BitVec L} {s : Party → AShare L} (hs : BinSharesOf x s) : (s i.prev).b = x ^^^ (s i).a ^^^ (s i).b := by
  rw [← hs.open_eq i]; bitwise

theorem missing_adds {xs : List (BitVec L)} {s : Party → List (AShare L)} (hs : Rels SharesOf xs s) :
    (s i.prev).map (·.b) = List.zipWith (fun x s => x - s.a - s.b) xs (s i) := by
  induction xs generalizing s with
  | nil => rw [hs.eq_nil]; rfl
  | cons x xs ih =>
    obtain ⟨a, ss', ha, h', rfl⟩ := hs.uncons
    simp only [List.map_cons, List.zipWith_cons_cons, ih h', missing_add_eq (i := i) ha]

theorem missing_xors {xs : List (BitVec L)} {s : Party → List (AShare L)} (hs : Rels BinSharesOf xs s) :
    (s i.prev).map (·.b) = List.zipWith (fun x s => x ^^^ s.a ^^^ s.b) xs (s i) := by
  induction xs generalizing s with
  | nil => rw [hs.eq_nil]; rfl
  | cons x xs ih =>
    obtain ⟨a, ss', ha, h', rfl⟩ := hs.uncons
    simp only [List.map_cons, List.zipWith_cons_cons, ih h', missing_xor_eq (i := i) ha]

/-! ## The SPDZ-wise backend -/

namespace SpdzOpen

open Jmp Spdz

theorem viaAby_net {G : Prg} {α β : Type} (p : Prog α) (k : α → β) :
    (viaAby (Proto.net p >>= fun a => pure (k a)) : Proto (SpdzSt G V) β) = (Proto.net p >>= fun a => pure (k a)) := by
  funext s
  show (((p >>= fun a => Prog.ret (a, (⟨s.jmp.prf⟩ : Aby3St G))) >>= fun r => Prog.ret (k r.1, r.2)) >>= fun r => _) >>= _ = (p >>= _) >>= _
  simp only [bind_assoc]
  rfl

theorem CplS.netLast {α : Type} {I : (Bool → Party → SpdzSt (idealPrg f) V) → Prop} {p : Bool → Party → Prog α} {a : Bool → Party → α}
    (h : Talk i p a) : CplS i 0 I (fun w j => (Proto.net (p w j) : Proto (SpdzSt (idealPrg f) V) α)) fun _ _ => True :=
  CplS.zero fun _ _ => LockS.net h trivial

theorem openShare_cpl {r : Bool → BitVec V} {u L : Nat} {x : BitVec V} {s : Bool → Party → SShare V} (hs : ∀ w, MacSharesOf (r w) x (s w))
    (is : s false i = s true i) : CplS (f := f) i (macBits V (L + 1)) (fun st => TwinS i r u st ∧ Buf L st)
      (fun w j => Spdz.openShare H K j (s w j)) fun _ _ => True := by
  unfold Spdz.openShare
  refine CplS.bind' (CplT.of (R := fun _ _ => True) (x' := u) ((queueAll_cpl (n := 1) fun _ _ => rfl).pre fun _ h => h.2) (by simp only [is]) fun w t ht =>
    (queueAll_wp ht (xs := [x]) (s := fun j => [s w j]) (Rels.cons (b := s w) (hs w) Rels.nil)).mono fun _ _ h => ⟨trivial, h⟩) fun _ => CplS.assume fun _ => ?_
  refine CplS.bind_last (verifyMacs_cpl H) fun _ => ?_
  unfold Aby3.openShare
  simp only [viaAby_net, bind_assoc, pure_bind]
  refine CplS.bind_last (CplS.netLast (Talk.value (x := fun w j => (s w j).value.b) ?_)) fun _ => CplS.pure fun _ _ => trivial
  exact missing_add (hs false).1 (hs true).1 (by rw [is])

theorem openMany_cpl {r : Bool → BitVec V} {u L n : Nat} {x : List (BitVec V)} (hx : x.length = n) {s : Bool → Party → List (SShare V)}
    (hs : ∀ w, Rels (MacSharesOf (r w)) x (s w)) (is : s false i = s true i) :
    CplS (f := f) i (macBits V (L + n)) (fun st => TwinS i r u st ∧ Buf L st) (fun w j => Spdz.openMany H K j (s w j)) fun _ _ => True := by
  unfold Spdz.openMany
  have la : ∀ w j, (s w j).length = n := fun w j => by rw [(hs w).length, hx]
  refine CplS.bind' (CplT.of (R := fun _ _ => True) (x' := u) ((queueAll_cpl la).pre fun _ h => h.2) (by simp only [is]) fun w t ht =>
    (queueAll_wp ht (hs w)).mono fun _ _ h => ⟨trivial, h⟩) fun _ => CplS.assume fun _ => ?_
  refine CplS.bind_last (verifyMacs_cpl H) fun _ => ?_
  unfold Aby3.openMany
  simp only [viaAby_net, bind_assoc, pure_bind]
  refine CplS.bind_last (CplS.netLast (Talk.iter (x := fun w j => ((s w j).map (·.value)).map (·.b)) ?_ ?_)) fun _ => CplS.pure fun _ _ => trivial
  · intro w j
    simp only [List.length_map, la]
  · have hv := fun w => (hs w).values
    exact Rels.det (R := SharesOf) (fun _ _ _ h h' e => missing_add h h' e) (hv false) (hv true) (by simp only [is])

theorem openBit_cpl {r : Bool → BitVec V} {u L : Nat} {p : Bool → Party → Proto (JmpSt (idealPrg f)) α} (h : Cpl i 0 p fun _ => True) :
    CplS (f := f) i 0 (fun st => TwinS i r u st ∧ Buf L st) (fun w j => viaJmp (p w j)) fun _ _ => True := by
  refine CplS.zero fun st hst => ?_
  obtain ⟨φo, o1, -, o3⟩ := h (fun w j => (st w j).jmp) hst.1.jmp
  have eo : (fun w => φo w []) = fun _ => [] := funext fun w => List.length_eq_zero_iff.1 (o1 w [] rfl)
  have o4 := o3 [] rfl
  rw [eo] at o4
  exact LockS.zoom (V := V) (st := st) (Q := fun _ _ => True) o4 fun _ _ _ => trivial

/-- Something and then an exchange of one message: the last message that a party sees. -/
theorem last_message {G : Prg} {α β γ : Type} {q : Party → Proto (SpdzSt G V) α} {st : Party → SpdzSt G V}
    {Q : (Party → α) → (Party → SpdzSt G V) → Prop} (hq : WPS q st Q) {p : Party → Prog β} {l : Party → Log} {a : Party → β} {k : Party → β → γ}
    (hp : ∀ acc : Party → Log, Runs (fun j => (p j).record (acc j)) fun j => (acc j ++ l j, a j)) {v : Log}
    (h : Sees (fun j => (q j >>= fun _ => Proto.net (p j) >>= fun b => pure (k j b) : Proto (SpdzSt G V) γ) (st j)) i v) : ∃ v', v = v' ++ l i := by
  obtain ⟨r, hr, -⟩ := hq
  obtain ⟨l', hl'⟩ := hr.recorded (fun _ => [])
  have e : ∀ j, ((q j >>= fun _ => Proto.net (p j) >>= fun b => pure (k j b) : Proto (SpdzSt G V) γ) (st j)).record [] =
      (q j (st j)).record [] >>= fun r => (p j).record r.1 >>= fun r' => Prog.ret (r'.1, (k j r'.2, r.2.2)) := by
    intro j
    show (q j (st j) >>= fun r => (p j >>= fun a => Prog.ret (a, r.2)) >>= fun r => Prog.ret (k j r.1, r.2)).record [] = _
    simp only [bind_assoc, Prog.record_bind]
    rfl
  have hR : Runs (fun j => ((q j >>= fun _ => Proto.net (p j) >>= fun b => pure (k j b) : Proto (SpdzSt G V) γ) (st j)).record [])
      fun j => (l' j ++ l j, (k j (a j), (r j).2)) := by
    simp only [e]
    exact hl'.bind ((hp l').bind ⟨0, .zero _⟩)
  exact ⟨l' i, (Sees.of_runs hR v).1 h⟩

theorem openShare_eq {G : Prg} (j : Party) (s : SShare V) : (Spdz.openShare H K j s : Proto (SpdzSt G V) (BitVec K)) =
    (queueAll [s] >>= fun _ => verifyMacs H j) >>= fun _ => Proto.net (sendAndReceiveValue j s.value.b) >>= fun c =>
      pure (fromVerif K (s.value.a + s.value.b + c)) := by
  unfold Spdz.openShare Aby3.openShare
  simp only [viaAby_net, bind_assoc, pure_bind]

theorem openMany_eq {G : Prg} (j : Party) (s : List (SShare V)) : (Spdz.openMany H K j s : Proto (SpdzSt G V) (List (BitVec K))) =
    (queueAll s >>= fun _ => verifyMacs H j) >>= fun _ => Proto.net (sendSliceAndReceiveIter j ((s.map (·.value)).map (·.b))) >>= fun c =>
      pure ((List.zipWith (fun s c => c + s.a + s.b) (s.map (·.value)) c).map (fromVerif K)) := by
  unfold Spdz.openMany Aby3.openMany
  simp only [viaAby_net, bind_assoc, pure_bind]

/-- Counting with triples in store. -/
theorem count_prec {α : Type} {N L u p p' : Nat} {r : Bool → BitVec V} {P : Bool → Party → Proto (SpdzSt (idealPrg f) V) α}
    (h : CplS i N (fun st => TwinS i r u st ∧ Buf L st) P fun _ _ => True) {st st' : Party → SpdzSt (idealPrg f) V}
    (hst : SpdzOk (r false) p u st) (hst' : SpdzOk (r true) p' u st') (hi : st i = st' i) (hL : ∀ j, (st j).verifyQueue.length = L)
    (hL' : ∀ j, (st' j).verifyQueue.length = L) (n : Nat) (hn : N ≤ n) (v : Log) :
    viewCountSpdz (P false) st i n v = viewCountSpdz (P true) st' i n v := by
  let S : Bool → Party → SpdzSt (idealPrg f) V := Bool.rec st st'
  let S0 : Bool → Party → SpdzSt (idealPrg f) V := fun w j => (S w j).put ⟨[], [], [], 128⟩
  have e0 : TriplesOf 0 (fun _ : Party => ([] : List (AShare 128))) (fun _ => []) (fun _ => []) :=
    ⟨[], [], rfl, rfl, Rels.nil, Rels.nil, Rels.nil⟩
  have hS : ∀ w, SpdzOk (r w) 0 u (S0 w) := by
    rintro (_ | _)
    · exact ⟨hst.1, hst.2.1, hst.2.2.1, ⟨e0, fun _ => rfl⟩, hst.2.2.2.2⟩
    · exact ⟨hst'.1, hst'.2.1, hst'.2.2.1, ⟨e0, fun _ => rfl⟩, hst'.2.2.2.2⟩
  have hT : TwinS i r u S0 := TwinS.start hS (congrArg (fun s : SpdzSt (idealPrg f) V => s.put ⟨[], [], [], 128⟩) hi)
  obtain ⟨φ, h1, h2, h3⟩ := h S0 ⟨hT, fun w j => ⟨hT.buf w j, by
    cases w
    · exact hL j
    · exact hL' j⟩⟩
  have hlen : ∀ t : List Bool, t.length = n → (t.take N).length = N := fun t ht => by
    rw [List.length_take, ht]; omega
  have := count_eq (i := i) (n := n) (run := fun w t j => P w j (tapeS i t (S w) j)) (Φ := fun w t => φ w (t.take N) ++ t.drop N) ?_ ?_ ?_ v
  · exact this
  · intro w t ht
    rw [List.length_append, h1 w _ (hlen t ht), List.length_drop]
    omega
  · intro w t t' ht ht' he
    obtain ⟨e1, e2⟩ := List.append_inj he (by rw [h1 w _ (hlen t ht), h1 w _ (hlen t' ht')])
    rw [← List.take_append_drop N t, ← List.take_append_drop N t', h2 w _ _ (hlen t ht) (hlen t' ht') e1, e2]
  · intro t ht
    obtain ⟨a, t', -, hT⟩ := (h3 _ (hlen t ht)).talk
    exact (hT (fun _ => t.drop N) fun w j => (S w j).prec).sees

end SpdzOpen

end Verif
