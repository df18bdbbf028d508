import Verif.Proof.S3LockIris
import Verif.Proof.SpdzLockCount

/-!
# Lock-step runs of the opening of Swift3, and of a whole query without its verification
-/

namespace Verif

open Swift3

variable {f : Bytes → List Bool} {K L m n : Nat} {α β : Type} {i : Party} {H : Hash}

/-! ## Messages -/

/-- Every party sends `x` to its successor and `y` to its predecessor. -/
theorem Talk.swap {x y : Bool → Party → Bytes} (hx : x false i.prev = x true i.prev) (hy : y false i.next = y true i.next) :
    Talk i (fun w j => match j with
      | 0 => Prog.send 1 (x w 0) (.send 2 (y w 0) (.recv 2 fun a => .recv 1 fun b => .ret (a, b)))
      | 1 => Prog.send 2 (x w 1) (.send 0 (y w 1) (.recv 0 fun a => .recv 2 fun b => .ret (a, b)))
      | 2 => Prog.send 0 (x w 2) (.send 1 (y w 2) (.recv 1 fun a => .recv 0 fun b => .ret (a, b)))) fun w j => (x w j.prev, y w j.next) := by
  refine ⟨fun w j => [(j.prev, x w j.prev), (j.next, y w j.next)], fun w acc => ?_, by simp only [hx, hy]⟩
  suffices WP (fun j => (match j with
      | 0 => Prog.send 1 (x w 0) (.send 2 (y w 0) (.recv 2 fun a => .recv 1 fun b => .ret (a, b)))
      | 1 => Prog.send 2 (x w 1) (.send 0 (y w 1) (.recv 0 fun a => .recv 2 fun b => .ret (a, b)))
      | 2 => Prog.send 0 (x w 2) (.send 1 (y w 2) (.recv 1 fun a => .recv 0 fun b => .ret (a, b))) : Prog (Bytes × Bytes)).record (acc j))
      (· = fun j => (acc j ++ [(j.prev, x w j.prev), (j.next, y w j.next)], (x w j.prev, y w j.next))) by
    obtain ⟨r, hr, e⟩ := this
    rw [e] at hr
    exact hr
  apply WP.of3
  show R3 (.send 1 (x w 0) (.send 2 (y w 0) (.recv 2 fun a => .recv 1 fun b => .ret (acc 0 ++ [(2, a)] ++ [(1, b)], (a, b)))))
    (.send 2 (x w 1) (.send 0 (y w 1) (.recv 0 fun a => .recv 2 fun b => .ret (acc 1 ++ [(0, a)] ++ [(2, b)], (a, b)))))
    (.send 0 (x w 2) (.send 1 (y w 2) (.recv 1 fun a => .recv 0 fun b => .ret (acc 2 ++ [(1, a)] ++ [(0, b)], (a, b))))) [] [] [] [] [] [] _
  run3
  apply R3.done
  intro r h0 h1 h2
  exact party_ext (by simp [h0]) (by simp [h1]) (by simp [h2])

/-- Party 0 sends `x` to party 2 and `y` to party 1, party 1 sends `z` to party 0. -/
theorem Talk.open3 {x y z : Bool → Bytes} (hz : i = 0 → z false = z true) (hy : i = 1 → y false = y true) (hx : i = 2 → x false = x true) :
    Talk i (fun w j => match j with
      | 0 => Prog.send 2 (x w) (.send 1 (y w) (.recv 1 .ret))
      | 1 => .send 0 (z w) (.recv 0 .ret)
      | 2 => .recv 0 .ret) fun w j => match j with
      | 0 => z w
      | 1 => y w
      | 2 => x w := by
  refine ⟨fun w j => match j with
    | 0 => [(1, z w)]
    | 1 => [(0, y w)]
    | 2 => [(0, x w)], fun w acc => ?_, ?_⟩
  · suffices WP (fun j => (match j with
      | 0 => Prog.send 2 (x w) (.send 1 (y w) (.recv 1 .ret))
      | 1 => .send 0 (z w) (.recv 0 .ret)
      | 2 => .recv 0 .ret : Prog Bytes).record (acc j)) (· = fun j => (acc j ++ (match j with
    | 0 => [(1, z w)]
    | 1 => [(0, y w)]
    | 2 => [(0, x w)] : Log), (match j with
      | 0 => z w
      | 1 => y w
      | 2 => x w : Bytes))) by
      obtain ⟨r, hr, e⟩ := this
      rw [e] at hr
      exact hr
    apply WP.of3
    show R3 (.send 2 (x w) (.send 1 (y w) (.recv 1 fun a => .ret (acc 0 ++ [(1, a)], a)))) (.send 0 (z w) (.recv 0 fun a => .ret (acc 1 ++ [(0, a)], a)))
      (.recv 0 fun a => .ret (acc 2 ++ [(0, a)], a)) [] [] [] [] [] [] _
    run3
    apply R3.done
    intro r h0 h1 h2
    exact party_ext (by simp [h0]) (by simp [h1]) (by simp [h2])
  · match i with
    | 0 => simp only [hz rfl]
    | 1 => simp only [hy rfl]
    | 2 => simp only [hx rfl]

/-! ## The invariant -/

theorem s3TapeIn_ok {u v : Nat} {w : DotCount} {st : Party → S3St (idealPrg f) K} (h : S3Ok u v w st) (i : Party) (t : List Bool) :
    S3Ok u v w (s3TapeIn i t st) := by
  have e : ∀ j, ∃ p, s3TapeIn i t st j = { st j with prf := p } := fun j => by
    unfold s3TapeIn
    split_ifs
    · exact ⟨_, rfl⟩
    · exact ⟨_, rfl⟩
    · exact ⟨(st j).prf, rfl⟩
  choose p e using e
  refine ⟨?_, ?_, ?_, ?_, ?_, ?_⟩
  · obtain ⟨h1, h2⟩ := h.prf
    refine ⟨fun j => ?_, fun j k => ?_⟩
    · have := h1 j
      fin_cases i <;> fin_cases j <;> first | exact this | rfl
    · have := h2 j k
      fin_cases i <;> fin_cases j <;> fin_cases k <;> exact this
  · obtain ⟨h1, h2⟩ := h.queues
    refine ⟨fun j => ?_, fun j => ?_⟩
    · rw [e, e]; exact h1 j
    · rw [e, e]; exact h2 j
  · intro j
    rw [e, e, e]; exact h.ands j
  · intro j
    rw [e, e, e]; exact h.muls j
  · intro j
    rw [e, e, e]; exact h.dots j
  · intro j
    rw [e, e]; exact h.sizes j

/-- Both worlds are in consistent states, whatever the tape is, and party `i` is in the same state. -/
def Twin3 (i : Party) (st : Bool → Party → S3St (idealPrg f) K) : Prop :=
  (∀ w t, ∃ u v d, S3Ok u v d (s3TapeIn i t (st w))) ∧ st false i = st true i

theorem Twin3.start {st : Bool → Party → S3St (idealPrg f) K} (h : ∀ w, ∃ u v d, S3Ok u v d (st w)) (hi : st false i = st true i) :
    Twin3 i st := ⟨fun w t => by
  obtain ⟨u, v, d, h⟩ := h w
  exact ⟨u, v, d, s3TapeIn_ok h i t⟩, hi⟩

theorem Twin3.queues {st : Bool → Party → S3St (idealPrg f) K} (h : Twin3 i st) (w : Bool) : S3QueuesOk (st w) := by
  obtain ⟨u, v, d, h⟩ := h.1 w []
  have e : ∀ j, ∃ p, s3TapeIn i [] (st w) j = { st w j with prf := p } := fun j => by
    unfold s3TapeIn
    split_ifs
    · exact ⟨_, rfl⟩
    · exact ⟨_, rfl⟩
    · exact ⟨(st w j).prf, rfl⟩
  choose p e using e
  obtain ⟨h1, h2⟩ := h.queues
  refine ⟨fun j => ?_, fun j => ?_⟩
  · have := h1 j
    rw [e, e] at this; exact this
  · have := h2 j
    rw [e, e] at this; exact this

/-- A step known to keep the states consistent. -/
theorem Lock3.twin {u : Bool → List Bool} {st : Bool → Party → S3St (idealPrg f) K} {p : Bool → Party → Proto (S3St (idealPrg f) K) α}
    {Q : (Bool → Party → α) → (Bool → Party → S3St (idealPrg f) K) → Prop} (h : Lock3 i u p st Q) (hst : Twin3 i st) (hp : p false i = p true i)
    {R : Bool → (Party → α) → Prop}
    (hw : ∀ w s, (∃ u v d, S3Ok u v d s) → WPS (p w) s fun a s' => R w a ∧ ∃ u v d, S3Ok u v d s') :
    Lock3 i u p st fun a t => (∀ w, R w (a w)) ∧ a false i = a true i ∧ Twin3 i t :=
  (Lock3.full h hst.2 hp (R := fun w a s' => R w a ∧ ∃ u v d, S3Ok u v d s') fun w _ => hw w _ (hst.1 w _)).mono
    fun _ _ ⟨_, h1, h2, h3⟩ => ⟨fun w => (h1 w []).1, h2, fun w t => (h1 w t).2, h3⟩

/-! ## Verification of the queues -/

/-- A state after the queues have been taken. -/
def S3St.drain {G : Prg} (s : S3St G K) : S3St G K := { s with sendQNext := [], sendQPrev := [], rcvQNext := [], rcvQPrev := [] }

theorem s3JmpVerify_eq (G : Prg) (j : Party) : (jmpVerify H j : Proto (S3St G K) Unit) = (do
    let hs ← Proto.step fun s : S3St G K => ((H.h s.sendQNext, H.h s.sendQPrev, H.h s.rcvQNext, H.h s.rcvQPrev), s.drain)
    let r ← Proto.net (match j with
      | 0 => Prog.send 1 hs.1 (.send 2 hs.2.1 (.recv 2 fun a => .recv 1 fun b => .ret (a, b)))
      | 1 => Prog.send 2 hs.1 (.send 0 hs.2.1 (.recv 0 fun a => .recv 2 fun b => .ret (a, b)))
      | 2 => Prog.send 0 hs.1 (.send 1 hs.2.1 (.recv 1 fun a => .recv 0 fun b => .ret (a, b))))
    if r.1 ≠ hs.2.2.2 ∨ r.2 ≠ hs.2.2.1 then Proto.throw .jmpVerify else pure ()) := by
  match j with
  | 0 => rfl
  | 1 => rfl
  | 2 => rfl

theorem s3JmpVerify_lock {st : Bool → Party → S3St (idealPrg f) K} (hst : Twin3 i st) :
    Lock3 i (fun _ => []) (fun _ j => jmpVerify H j) st fun _ t => Twin3 i t := by
  refine (Lock3.twin (Q := fun _ _ => True) (R := fun _ _ => True) ?_ hst rfl fun w s hs => ?_).mono fun _ _ h => h.2.2
  · refine Lock3.congr (fun w j => s3JmpVerify_eq _ j) ?_
    refine Lock3.bind' (Lock3.loc (a := fun w j => (H.h (st w j).sendQNext, H.h (st w j).sendQPrev, H.h (st w j).rcvQNext, H.h (st w j).rcvQPrev))
      (t := fun w j => (st w j).drain) (fun w rest j => ?_) ?_)
    · unfold s3TapeIn
      split_ifs <;> rfl
    have hq := fun w => hst.queues w
    refine Lock3.bind' (Lock3.net (Talk.congr (fun w j => ?_) (Talk.swap (x := fun w j => H.h (st w j).sendQNext) (y := fun w j => H.h (st w j).sendQPrev) ?_ ?_)) ?_)
    · match j with
      | 0 => rfl
      | 1 => rfl
      | 2 => rfl
    · show H.h (st false i.prev).sendQNext = H.h (st true i.prev).sendQNext
      rw [← (hq false).1 i, ← (hq true).1 i, hst.2]
    · show H.h (st false i.next).sendQPrev = H.h (st true i.next).sendQPrev
      rw [← (hq false).2 i, ← (hq true).2 i, hst.2]
    · refine Lock3.ite_neg (fun w j => ?_) (Lock3.pure (a := fun _ _ => ()) trivial)
      show ¬ (H.h (st w j.prev).sendQNext ≠ H.h (st w j).rcvQPrev ∨ H.h (st w j.next).sendQPrev ≠ H.h (st w j).rcvQNext)
      rw [(hq w).1 j, (hq w).2 j]
      simp
  · obtain ⟨u, v, d, hs⟩ := hs
    exact (jmpVerify_wp hs).mono fun _ _ h => ⟨trivial, u, v, d, h⟩

/-! ## The exchange of the missing components -/

theorem s3OpenExchange_eq (G : Prg) (j : Party) (s : S3Share L) : (openExchange j s : Proto (S3St G K) (BitVec L)) = (do
    (match j with
      | 0 => pure ()
      | 1 => Proto.step fun t => ((), { t with sendQNext := t.sendQNext ++ toBytes s.b })
      | 2 => Proto.step fun t => ((), { t with sendQNext := t.sendQNext ++ toBytes s.b, sendQPrev := t.sendQPrev ++ toBytes s.a }) : Proto (S3St G K) Unit)
    let b ← Proto.net (match j with
      | 0 => Prog.send 2 (toBytes s.a) (.send 1 (toBytes s.b) (.recv 1 .ret))
      | 1 => .send 0 (toBytes s.a) (.recv 0 .ret)
      | 2 => .recv 0 .ret)
    let y ← Proto.lift (fromBytes L b)
    (match j with
      | 0 => Proto.step fun t => (y, { t with rcvQPrev := t.rcvQPrev ++ toBytes y })
      | 1 => Proto.step fun t => (y, { t with rcvQNext := t.rcvQNext ++ toBytes y })
      | 2 => Proto.step fun t => (y, { t with rcvQPrev := t.rcvQPrev ++ toBytes y }) : Proto (S3St G K) (BitVec L))) := by
  match j with
  | 0 =>
    show (jmpSend 0 s.a 2 >>= fun _ => jmpSend 0 s.b 1 >>= fun _ => jmpReceive L 0 1) = _
    unfold jmpReceive
    rw [Proto.net_recvValue 0 1 1 rfl]
    simp only [bind_assoc, pure_bind]
    rfl
  | 1 =>
    show (jmpSend 1 s.a 0 >>= fun _ => jmpQueue 1 s.b 2 >>= fun _ => jmpReceive L 1 0) = _
    unfold jmpReceive
    rw [Proto.net_recvValue 1 0 0 rfl]
    simp only [bind_assoc, pure_bind]
    rfl
  | 2 =>
    show (jmpQueue 2 s.b 0 >>= fun _ => jmpQueue 2 s.a 1 >>= fun _ => jmpReceive L 2 0) = _
    unfold jmpReceive
    rw [Proto.net_recvValue 2 0 0 rfl]
    simp only [bind_assoc, pure_bind]
    rfl

/-- The component that a party does not hold is determined by the shared value and its own share. -/
theorem s3Missing_eq {x : BitVec L} {s s' : Party → S3Share L} (hs : S3BinSharesOf x s) (hs' : S3BinSharesOf x s') (hi : s i = s' i) :
    (s i.next).a = (s' i.next).a := by
  have key : ∀ {s : Party → S3Share L}, S3BinSharesOf x s → (s i.next).a = x ^^^ (s i).c ^^^ (s i).a ^^^ (s i).b := by
    intro s hs
    rw [hs.1 i, hs.2 i]
    match i with
    | 0 =>
      show (s 1).a = x ^^^ (x ^^^ (s 0).a ^^^ (s 1).a ^^^ (s 2).a) ^^^ (s 0).a ^^^ (s 2).a
      bitwise
    | 1 =>
      show (s 2).a = x ^^^ (x ^^^ (s 0).a ^^^ (s 1).a ^^^ (s 2).a) ^^^ (s 1).a ^^^ (s 0).a
      bitwise
    | 2 =>
      show (s 0).a = x ^^^ (x ^^^ (s 0).a ^^^ (s 1).a ^^^ (s 2).a) ^^^ (s 2).a ^^^ (s 1).a
      bitwise
  rw [key hs, key hs', hi]

theorem s3OpenExchange_lock {st : Bool → Party → S3St (idealPrg f) K} (hst : Twin3 i st) {x : BitVec L} {s : Bool → Party → S3Share L}
    (hs : ∀ w, S3BinSharesOf x (s w)) (hi : s false i = s true i) :
    Lock3 i (fun _ => []) (fun w j => openExchange j (s w j)) st fun _ t => Twin3 i t := by
  have hm := s3Missing_eq (hs false) (hs true) hi
  refine (Lock3.twin (Q := fun _ _ => True) (R := fun _ _ => True) ?_ hst (by simp only [hi]) fun w s' hs' => ?_).mono fun _ _ h => h.2.2
  · have hc : Cpl3 (f := f) (K := K) i 0 (fun w j => openExchange j (s w j)) fun _ => True := by
      refine Cpl3.congr (fun w j => s3OpenExchange_eq _ j _) ?_
      refine Cpl3.bind' (Cpl3.quiet fun w j => ?_) fun _ _ => ?_
      · match j with
        | 0 => exact ⟨fun s => s, fun _ _ => rfl, rfl⟩
        | 1 => exact ⟨fun t => { t with sendQNext := t.sendQNext ++ toBytes (s w 1).b }, fun _ _ => rfl, rfl⟩
        | 2 => exact ⟨fun t => { t with sendQNext := t.sendQNext ++ toBytes (s w 2).b, sendQPrev := t.sendQPrev ++ toBytes (s w 2).a }, fun _ _ => rfl, rfl⟩
      refine Cpl3.bind' (Cpl3.net (a := fun w j => match j with
        | 0 => toBytes (s w 1).a
        | 1 => toBytes (s w 0).b
        | 2 => toBytes (s w 0).a) (Talk.congr (fun w j => ?_) (Talk.open3 (x := fun w => toBytes (s w 0).a) (y := fun w => toBytes (s w 0).b)
          (z := fun w => toBytes (s w 1).a) (fun h => ?_) (fun h => ?_) fun h => ?_)) rfl) fun b hb => ?_
      · match j with
        | 0 => rfl
        | 1 => rfl
        | 2 => rfl
      · subst h; exact congrArg toBytes hm
      · subst h
        have h0 := (hs false).2 0
        have h1 := (hs true).2 0
        show toBytes (s false 0).b = toBytes (s true 0).b
        rw [h0, h1]; exact congrArg toBytes hm
      · subst h; exact congrArg toBytes hm
      subst hb
      refine Cpl3.bind' (Cpl3.lift (a := fun w j => match j with
        | 0 => (s w 1).a
        | 1 => (s w 0).b
        | 2 => (s w 0).a) (fun w j => ?_) rfl) fun y hy => ?_
      · match j with
        | 0 => exact fromBytes_toBytes _
        | 1 => exact fromBytes_toBytes _
        | 2 => exact fromBytes_toBytes _
      subst hy
      refine Cpl3.congr (q := fun w j => Proto.step fun t => ((match j with
        | 0 => (s w 1).a
        | 1 => (s w 0).b
        | 2 => (s w 0).a), (match j with
        | 0 => { t with rcvQPrev := t.rcvQPrev ++ toBytes (s w 1).a }
        | 1 => { t with rcvQNext := t.rcvQNext ++ toBytes (s w 0).b }
        | 2 => { t with rcvQPrev := t.rcvQPrev ++ toBytes (s w 0).a }))) (fun w j => ?_) (Cpl3.step trivial fun w j s p => ?_)
      · match j with
        | 0 => rfl
        | 1 => rfl
        | 2 => rfl
      · match j with
        | 0 => rfl
        | 1 => rfl
        | 2 => rfl
    obtain ⟨φ, h1, -, h3⟩ := hc st
    have := h3 [] rfl
    have e : ∀ w, φ w [] = [] := fun w => List.length_eq_zero_iff.1 (h1 w [] rfl)
    simp only [e] at this
    exact this
  · obtain ⟨u, v, d, hs'⟩ := hs'
    exact (openExchange_wp (hs w).2 hs').mono fun _ _ h => ⟨trivial, u, v, d, h.2⟩

theorem s3OpenBit_lock {st : Bool → Party → S3St (idealPrg f) K} (hst : Twin3 i st) {x : BitVec 1} {s : Bool → Party → S3Share 1}
    (hs : ∀ w, S3BinSharesOf x (s w)) (hi : s false i = s true i) :
    Lock3 i (fun _ => []) (fun w j => openBit H j (s w j)) st fun _ t => Twin3 i t := by
  unfold openBit
  exact Lock3.bind' ((s3JmpVerify_lock hst).mono fun _ _ h => Lock3.bind' ((s3OpenExchange_lock h hs hi).mono fun r t ht =>
    Lock3.bind' ((s3JmpVerify_lock ht).mono fun _ _ h => Lock3.pure h)))

/-! ## Counting -/

theorem Lock3.sees {u : Bool → List Bool} {st : Bool → Party → S3St (idealPrg f) K} {p : Bool → Party → Proto (S3St (idealPrg f) K) α}
    {Q : (Bool → Party → α) → (Bool → Party → S3St (idealPrg f) K) → Prop} (h : Lock3 i u p st Q) (rest : List Bool) :
    ∃ l : Log, ∀ w v, Sees (fun j => p w j (s3TapeIn i (u w ++ rest) (st w) j)) i v ↔ v = l := by
  obtain ⟨l, a, t, h1, h2, -⟩ := h
  refine ⟨l false i, fun w v => ?_⟩
  rw [Sees.of_runs (h1 w rest fun _ => [])]
  cases w
  · rfl
  · rw [h2]; rfl

/-- Two worlds with bijections of the tapes that make the views equal. -/
theorem lock3_count {p : Bool → Party → Proto (S3St (idealPrg f) K) α} {st : Bool → Party → S3St (idealPrg f) K} {N : Nat}
    {φ : Bool → List Bool → List Bool} (h1 : ∀ w u, u.length = N → (φ w u).length = N)
    (h2 : ∀ w u u', u.length = N → u'.length = N → φ w u = φ w u' → u = u')
    (h3 : ∀ u, u.length = N → Lock3 i (fun w => φ w u) p st fun _ _ => True) (n : Nat) (hn : N ≤ n) (v : Log) :
    viewCountS3 (p false) (st false) i n v = viewCountS3 (p true) (st true) i n v := by
  have hlen : ∀ t : List Bool, t.length = n → (t.take N).length = N := fun t ht => by
    rw [List.length_take, ht]; omega
  refine count_eq (run := fun w t j => p w j (s3TapeIn i t (st w) j)) (Φ := fun w t => φ w (t.take N) ++ t.drop N) ?_ ?_ ?_ v
  · intro w t ht
    rw [List.length_append, h1 w _ (hlen t ht), List.length_drop]
    omega
  · intro w t t' ht ht' he
    obtain ⟨e1, e2⟩ := List.append_inj he (by rw [h1 w _ (hlen t ht), h1 w _ (hlen t' ht')])
    rw [← List.take_append_drop N t, ← List.take_append_drop N t', h2 w _ _ (hlen t ht) (hlen t' ht') e1, e2]
  · intro t ht
    exact (h3 _ (hlen t ht)).sees (t.drop N)

theorem Cpl3.count {N : Nat} {p : Bool → Party → Proto (S3St (idealPrg f) K) α} {Q : (Bool → Party → α) → Prop} (h : Cpl3 i N p Q)
    (st : Bool → Party → S3St (idealPrg f) K) (n : Nat) (hn : N ≤ n) (v : Log) :
    viewCountS3 (p false) (st false) i n v = viewCountS3 (p true) (st true) i n v := by
  obtain ⟨φ, h1, h2, h3⟩ := h st
  exact lock3_count h1 h2 (fun u hu => (h3 u hu).mono fun _ _ _ => trivial) n hn v

/-- A computation of shares of a bit followed by its opening. -/
theorem s3Open_count {N : Nat} {p : Bool → Party → Proto (S3St (idealPrg f) K) (S3Share 1)} (h : Cpl3 i N p fun _ => True)
    (hp : p false i = p true i) {x : BitVec 1} {st : Bool → Party → S3St (idealPrg f) K} (hst : Twin3 i st)
    (hw : ∀ w t, WPS (p w) (s3TapeIn i t (st w)) fun a s' => S3BinSharesOf x a ∧ ∃ u v d, S3Ok u v d s')
    (n : Nat) (hn : N ≤ n) (v : Log) :
    viewCountS3 (fun j => p false j >>= openBit H j) (st false) i n v = viewCountS3 (fun j => p true j >>= openBit H j) (st true) i n v := by
  obtain ⟨φ, h1, h2, h3⟩ := h st
  refine lock3_count (p := fun w j => p w j >>= openBit H j) h1 h2 (fun u hu => ?_) n hn v
  refine Lock3.bind_last (((h3 u hu).full hst.2 hp (R := fun _ a s' => S3BinSharesOf x a ∧ ∃ u v d, S3Ok u v d s') fun w t => hw w _).mono
    fun a t ⟨_, k1, k2, k3⟩ => ?_)
  exact (s3OpenBit_lock ⟨fun w r => (k1 w r).2, k3⟩ (fun w => (k1 w []).1) k2).mono fun _ _ _ => trivial

end Verif
