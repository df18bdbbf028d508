import Verif.Proof.Lock

/-!
# Lock-step runs of the gates of the malicious ABY3 backend
-/

namespace Verif

open Jmp

variable {f : Bytes → List Bool} {α β : Type} {i : Party} {K V : Nat}

/-! ## Tapes and words -/

theorem tapesOf_length (A : List (BitVec K)) : (tapesOf A).length = K * A.length := by
  unfold tapesOf
  induction A with
  | nil => simp
  | cons x A ih => simp [ih, Nat.mul_succ, Nat.add_comm]

theorem tapeOf_drop (x : BitVec K) (t : List Bool) : (tapeOf x ++ t).drop K = t := List.drop_left' (tapeOf_length x)

theorem words_tapesOf {n : Nat} {A : List (BitVec K)} (hA : A.length = n) (t : List Bool) : words K n (tapesOf A ++ t) = A := by
  subst hA
  induction A with
  | nil => rfl
  | cons x A ih =>
    have e : tapesOf (x :: A) ++ t = tapeOf x ++ (tapesOf A ++ t) := by simp [tapesOf]
    simp only [List.length_cons, words, e, tapeVal_tapeOf, tapeOf_drop, ih]

theorem tapesOf_inj {A B : List (BitVec K)} (hl : A.length = B.length) (h : tapesOf A = tapesOf B) : A = B := by
  have h1 := words_tapesOf (A := A) rfl []
  rw [h, hl, words_tapesOf rfl []] at h1
  exact h1.symm

/-- What the parties draw from `my`. -/
def drawA (i : Party) (n : Nat) (A : List (BitVec V)) (st : Party → JmpSt (idealPrg f)) (j : Party) : List (BitVec V) :=
  if j = i.next then A else words V n (st j).tapeA

/-- What the parties draw from `next`. -/
def drawB (i : Party) (n : Nat) (A : List (BitVec V)) (st : Party → JmpSt (idealPrg f)) (j : Party) : List (BitVec V) :=
  if j = i.prev then A else words V n (st j).tapeB

theorem drawA_eq {n : Nat} {A : List (BitVec V)} (hA : A.length = n) (st : Party → JmpSt (idealPrg f)) (t : List Bool) (j : Party) :
    words V n (tapeIn i (tapesOf A ++ t) st j).tapeA = drawA i n A st j := by
  rw [tapeIn_tapeA, drawA]
  split_ifs
  · exact words_tapesOf hA t
  · rfl

theorem drawB_eq {n : Nat} {A : List (BitVec V)} (hA : A.length = n) (st : Party → JmpSt (idealPrg f)) (t : List Bool) (j : Party) :
    words V n (tapeIn i (tapesOf A ++ t) st j).tapeB = drawB i n A st j := by
  rw [tapeIn_tapeB, drawB]
  split_ifs
  · exact words_tapesOf hA t
  · rfl

theorem drawA_length {n : Nat} {A : List (BitVec V)} (hA : A.length = n) (st : Party → JmpSt (idealPrg f)) (j : Party) :
    (drawA i n A st j).length = n := by
  unfold drawA; split_ifs <;> simp [hA]

theorem drawB_length {n : Nat} {A : List (BitVec V)} (hA : A.length = n) (st : Party → JmpSt (idealPrg f)) (j : Party) :
    (drawB i n A st j).length = n := by
  unfold drawB; split_ifs <;> simp [hA]

theorem JmpSt.adv_adv (k l : Nat) (s : JmpSt (idealPrg f)) : (s.adv k).adv l = s.adv (k + l) := by
  have e : ∀ t : List Bool, (t.drop k).drop l = t.drop (k + l) := fun t => List.drop_drop
  show ({ s with prf := ⟨(s.tapeA.drop k).drop l, (s.tapeB.drop k).drop l⟩ } : JmpSt (idealPrg f)) = _
  rw [e, e]
  rfl

/-! ## Drawing -/

theorem genRandMany_eq (n : Nat) (s : JmpSt (idealPrg f)) :
    genRandMany V n s = .ret (List.zipWith AShare.mk (words V n s.tapeA) (words V n s.tapeB), s.adv (V * n)) := by
  induction n generalizing s with
  | zero => rfl
  | succ n ih =>
    show (genRandMany V n (s.adv V) >>= fun r => Prog.ret (⟨tapeVal V s.tapeA, tapeVal V s.tapeB⟩ :: r.1, r.2)) = _
    rw [ih, JmpSt.adv_adv, Nat.mul_succ, Nat.add_comm]
    rfl

/-- The random shares. -/
def rnd (i : Party) (n : Nat) (A : List (BitVec V)) (st : Party → JmpSt (idealPrg f)) (j : Party) : List (AShare V) :=
  List.zipWith AShare.mk (drawA i n A st j) (drawB i n A st j)

theorem genRandMany_lock {st : Bool → Party → JmpSt (idealPrg f)} {n : Nat} {A : Bool → List (BitVec V)} (hA : ∀ w, (A w).length = n)
    (hst : Twin i st) :
    Lock i (fun w => tapesOf (A w)) (fun _ _ => genRandMany V n) st fun a t =>
      (a = fun w => rnd i n (A w) (st w)) ∧ (t = fun w j => (st w j).adv (V * n)) ∧ Twin i t ∧ a false i = a true i ∧
        ∀ w, ∃ xs, xs.length = n ∧ Rels SharesOf xs (a w) := by
  refine (Lock.full (Lock.loc (a := fun w => rnd i n (A w) (st w)) (t := fun w j => (st w j).adv (V * n)) (fun w rest j => ?_)
    (Q := fun a t => (a = fun w => rnd i n (A w) (st w)) ∧ (t = fun w j => (st w j).adv (V * n))) ⟨rfl, rfl⟩) hst rfl
    (R := fun _ a => ∃ xs, xs.length = n ∧ Rels SharesOf xs a) fun w t hJ => genRandMany_wp n hJ).mono ?_
  · rw [genRandMany_eq, drawA_eq (hA w), drawB_eq (hA w), tapeIn_adv (by rw [tapesOf_length, hA])]
    rfl
  · rintro a t ⟨⟨h1, h2⟩, h3, h4, h5⟩
    exact ⟨h1, h2, h3, h4, h5⟩

/-- Values with masks: the difference of what is drawn from the two generators. -/
def maskVals (h x y : List (BitVec V)) : List (BitVec V) := List.zipWith (· + ·) h (List.zipWith (· - ·) x y)

/-- The second tape that turns the values `h` into `c`. -/
def maskTape (h x c : List (BitVec V)) : List (BitVec V) := List.zipWith (· - ·) (List.zipWith (· + ·) h x) c

theorem maskVals_maskTape (h x c : List (BitVec V)) (hx : x.length = h.length) (hc : c.length = h.length) :
    maskVals h x (maskTape h x c) = c := by
  unfold maskVals maskTape
  induction h generalizing x c with
  | nil => simp_all
  | cons a h ih =>
    obtain ⟨b, x, rfl⟩ := List.exists_cons_of_length_eq_add_one hx
    obtain ⟨d, c, rfl⟩ := List.exists_cons_of_length_eq_add_one hc
    simp only [List.zipWith_cons_cons, List.cons.injEq]
    exact ⟨by ring, ih x c (by simpa using hx) (by simpa using hc)⟩

theorem zipWith_cancel {α β γ : Type} {g : α → β → γ} (hg : ∀ x y y', g x y = g x y' → y = y') :
    ∀ {l : List α} {c c' : List β}, c.length = l.length → c'.length = l.length → List.zipWith g l c = List.zipWith g l c' → c = c' := by
  intro l
  induction l with
  | nil => intro c c' h h' _; rw [List.length_eq_zero_iff.1 h, List.length_eq_zero_iff.1 h']
  | cons a l ih =>
    intro c c' h h' e
    obtain ⟨b, c, rfl⟩ := List.exists_cons_of_length_eq_add_one h
    obtain ⟨b', c', rfl⟩ := List.exists_cons_of_length_eq_add_one h'
    simp only [List.zipWith_cons_cons, List.cons.injEq] at e
    rw [hg _ _ _ e.1, ih (by simpa using h) (by simpa using h') e.2]

theorem maskTape_inj {h x c c' : List (BitVec V)} (hx : x.length = h.length) (hc : c.length = h.length) (hc' : c'.length = h.length)
    (e : maskTape h x c = maskTape h x c') : c = c' :=
  zipWith_cancel (fun a y y' h => by simpa using h) (by simp [hx, hc]) (by simp [hx, hc']) e

theorem maskTape_length {h x c : List (BitVec V)} {n : Nat} (hh : h.length = n) (hx : x.length = n) (hc : c.length = n) :
    (maskTape h x c).length = n := by
  simp [maskTape, hh, hx, hc]

/-- The local products. -/
def mulLoc (a b : List (AShare V)) : List (BitVec V) := (a.zip b).map fun p => (p.1.mulLocal p.2).a

theorem mulLoop_eq (ps : List (AShare V × AShare V)) (s : JmpSt (idealPrg f)) :
    viaPrf (Aby3.mulLoop ps) s = .ret (maskVals (ps.map fun p => (p.1.mulLocal p.2).a) (words V ps.length s.tapeA)
      (words V ps.length s.tapeB), s.adv (V * ps.length)) := by
  induction ps generalizing s with
  | nil => rfl
  | cons p ps ih =>
    have e : viaPrf (Aby3.mulLoop (p :: ps)) s = (viaPrf (Aby3.mulLoop ps) (s.adv V) >>= fun r =>
        Prog.ret (((p.1.mulLocal p.2).a + (tapeVal V s.tapeA - tapeVal V s.tapeB)) :: r.1, r.2)) := by
      unfold viaPrf Proto.zoom
      simp only [Prog.bind_assoc']
      show ((Aby3.mulLoop ps ⟨(s.adv V).prf⟩ >>= fun r => Prog.ret (_ :: r.1, r.2)) >>= _) = _
      rw [Prog.bind_assoc']
      rfl
    rw [e, ih, JmpSt.adv_adv, List.length_cons, Nat.mul_succ, Nat.add_comm]
    rfl

theorem dotAcc_add (r : BitVec V) (ps : List (AShare V × AShare V)) : Aby3.dotAcc r ps = Aby3.dotAcc 0 ps + r := by
  unfold Aby3.dotAcc
  induction ps generalizing r with
  | nil => simp
  | cons p ps ih =>
    simp only [List.foldl_cons]
    rw [ih, ih (0 + _)]
    ring

/-- The local dot products. -/
def dotLoc (a b : List (List (AShare V))) : List (BitVec V) := (a.zip b).map fun p => Aby3.dotAcc 0 (p.1.zip p.2)

theorem dotLoop_eq (ps : List (List (AShare V) × List (AShare V))) (hl : ∀ p ∈ ps, p.1.length = p.2.length) (s : JmpSt (idealPrg f)) :
    viaPrf (Aby3.dotLoop ps) s = .ret (maskVals (ps.map fun p => Aby3.dotAcc 0 (p.1.zip p.2)) (words V ps.length s.tapeA)
      (words V ps.length s.tapeB), s.adv (V * ps.length)) := by
  induction ps generalizing s with
  | nil => rfl
  | cons p ps ih =>
    have e : viaPrf (Aby3.dotLoop (p :: ps)) s = (viaPrf (Aby3.dotLoop ps) (s.adv V) >>= fun r =>
        Prog.ret (Aby3.dotAcc (tapeVal V s.tapeA - tapeVal V s.tapeB) (p.1.zip p.2) :: r.1, r.2)) := by
      unfold viaPrf Proto.zoom
      simp only [Prog.bind_assoc']
      show ((if p.1.length ≠ p.2.length then Proto.throw .invalidSize else do
        let cs ← Aby3.dotLoop ps
        Pure.pure (_ :: cs) : Proto (Aby3St (idealPrg f)) _) ⟨(s.adv V).prf⟩ >>= _) = _
      rw [if_neg (by simp [hl p (by simp)])]
      show ((Aby3.dotLoop ps ⟨(s.adv V).prf⟩ >>= fun r => Prog.ret (_ :: r.1, r.2)) >>= _) = _
      rw [Prog.bind_assoc']
      rfl
    rw [e, ih (fun q hq => hl q (by simp [hq])), JmpSt.adv_adv, List.length_cons, Nat.mul_succ, Nat.add_comm, dotAcc_add]
    rfl

/-! ## Exchanges -/

theorem jmpSendReceiveMany_lock {st : Bool → Party → JmpSt (idealPrg f)} {x y : Bool → Party → List (BitVec K)}
    (hl : ∀ w j, (x w j).length = (x w j.prev).length) (h : x false i.prev = x true i.prev) :
    Lock i (fun _ => []) (fun w j => jmpSendReceiveMany j (x w j) (y w j)) st fun r _ => r = fun w j => x w j.prev := by
  refine Lock.congr (q := fun w j => (do
      jmpBufferMany (y w j)
      let v ← Proto.net (sendSliceAndReceiveVec j (x w j))
      Proto.step fun s => (v, { s with rcvQueueNext := v.foldl (fun q x => q ++ toBytes x) s.rcvQueueNext })))
    (fun w j => rfl) ?_
  refine Lock.bind' (Lock.loc (a := fun _ _ => ()) (t := fun w j => { st w j with
    sendQueuePrev := (y w j).foldl (fun q x => q ++ toBytes x) (st w j).sendQueuePrev }) (fun w rest j => ?_) ?_)
  · rw [List.nil_append]
    unfold jmpBufferMany Proto.step tapeIn
    split_ifs <;> rfl
  refine Lock.bind' (Lock.net (Talk.vec hl h) (Lock.loc (a := fun w j => x w j.prev) (t := fun w j => { st w j with
    sendQueuePrev := (y w j).foldl (fun q x => q ++ toBytes x) (st w j).sendQueuePrev
    rcvQueueNext := (x w j.prev).foldl (fun q x => q ++ toBytes x) (st w j).rcvQueueNext }) (fun w rest j => ?_) rfl))
  rw [List.nil_append]
  unfold Proto.step tapeIn
  split_ifs <;> rfl

theorem jmpSendReceive_lock {st : Bool → Party → JmpSt (idealPrg f)} {x y : Bool → Party → BitVec K}
    (h : x false i.prev = x true i.prev) :
    Lock i (fun _ => []) (fun w j => jmpSendReceive j (x w j) (y w j)) st fun r _ => r = fun w j => x w j.prev := by
  refine Lock.congr (q := fun w j => (do
      jmpBuffer (y w j)
      let v ← Proto.net (sendAndReceiveValue j (x w j))
      Proto.step fun s => (v, { s with rcvQueueNext := s.rcvQueueNext ++ toBytes v })))
    (fun w j => rfl) ?_
  refine Lock.bind' (Lock.loc (a := fun _ _ => ()) (t := fun w j => { st w j with
    sendQueuePrev := (st w j).sendQueuePrev ++ toBytes (y w j) }) (fun w rest j => ?_) ?_)
  · rw [List.nil_append]
    unfold jmpBuffer Proto.step tapeIn
    split_ifs <;> rfl
  refine Lock.bind' (Lock.net (Talk.value h) (Lock.loc (a := fun w j => x w j.prev) (t := fun w j => { st w j with
    sendQueuePrev := (st w j).sendQueuePrev ++ toBytes (y w j)
    rcvQueueNext := (st w j).rcvQueueNext ++ toBytes (x w j.prev) }) (fun w rest j => ?_) rfl))
  rw [List.nil_append]
  unfold Proto.step tapeIn
  split_ifs <;> rfl

theorem jmpVerify_lock (H : Hash) {st : Bool → Party → JmpSt (idealPrg f)} (hst : Twin i st) :
    Lock i (fun _ => []) (fun _ j => jmpVerify H j) st fun _ t => Twin i t := by
  have hq : ∀ w j, (st w j).rcvQueueNext = (st w j.next).sendQueuePrev := fun w j => by
    have := (hst.1 w []).2 j
    rwa [tapeIn_rcvQueue, tapeIn_sendQueue] at this
  refine (Lock.full (Q := fun _ _ => True) ?_ hst rfl (R := fun _ _ => True) fun w t hJ =>
    (jmpVerify_wp H hJ).mono fun _ _ h => ⟨trivial, h⟩).mono fun _ _ h => h.2.1
  unfold jmpVerify
  refine Lock.bind' (Lock.loc (a := fun w j => (H.h (st w j).sendQueuePrev, H.h (st w j).rcvQueueNext))
    (t := fun w j => { st w j with sendQueuePrev := [], rcvQueueNext := [] }) (fun w rest j => ?_) ?_)
  · rw [List.nil_append]
    unfold Proto.step tapeIn
    split_ifs <;> rfl
  refine Lock.congr (q := fun w j => (do
    let rcvNext ← Proto.net (do sendPrev j (H.h (st w j).sendQueuePrev); recvNext j)
    if rcvNext ≠ H.h (st w j).rcvQueueNext then Proto.throw .jmpVerify else pure ())) (fun w j => rfl) ?_
  refine Lock.bind' (Lock.net (Talk.back (m := fun w j => H.h (st w j).sendQueuePrev) ?_) ?_)
  · show H.h (st false i.next).sendQueuePrev = H.h (st true i.next).sendQueuePrev
    rw [← hq, ← hq, hst.2]
  · exact Lock.ite_neg (fun w j => by simp [hq]) (Lock.pure (a := fun _ _ => ()) trivial)

theorem reconstructMany_lock {st : Bool → Party → JmpSt (idealPrg f)} {ss : Bool → Party → List (AShare K)}
    {xs : Bool → List (BitVec K)} (hst : Twin i st) (hr : ∀ w, Rels SharesOf (xs w) (ss w)) (hi : ss false i = ss true i)
    (h : (ss false i.prev).map (·.b) = (ss true i.prev).map (·.b)) :
    Lock i (fun _ => []) (fun w j => reconstructMany j (ss w j)) st fun r t =>
      Twin i t ∧ r false i = r true i ∧ ∀ w j, r w j = xs w := by
  refine (Lock.full (Q := fun _ _ => True) ?_ hst (by simp only [hi]) (R := fun w r => ∀ j, r j = xs w) fun w t hJ =>
    reconstructMany_wp (hr w) hJ).mono fun _ _ h => h.2
  unfold reconstructMany
  refine Lock.bind' ((jmpSendReceiveMany_lock (fun w j => ?_) h).mono fun r t hr => ?_)
  · simp [(hr w).length]
  · exact Lock.pure (a := fun w j => List.zipWith (fun s c => c + s.a + s.b) (ss w j) (r w j)) (Q := fun _ _ => True) trivial

theorem reconstructBinaryMany_lock {st : Bool → Party → JmpSt (idealPrg f)} {ss : Bool → Party → List (AShare K)}
    {xs : Bool → List (BitVec K)} (hst : Twin i st) (hr : ∀ w, Rels BinSharesOf (xs w) (ss w)) (hi : ss false i = ss true i)
    (h : (ss false i.prev).map (·.b) = (ss true i.prev).map (·.b)) :
    Lock i (fun _ => []) (fun w j => reconstructBinaryMany j (ss w j)) st fun r t =>
      Twin i t ∧ r false i = r true i ∧ ∀ w j, r w j = xs w := by
  refine (Lock.full (Q := fun _ _ => True) ?_ hst (by simp only [hi]) (R := fun w r => ∀ j, r j = xs w) fun w t hJ =>
    reconstructBinaryMany_wp (hr w) hJ).mono fun _ _ h => h.2
  unfold reconstructBinaryMany
  refine Lock.bind' ((jmpSendReceiveMany_lock (fun w j => ?_) h).mono fun r t hr => ?_)
  · simp [(hr w).length]
  · exact Lock.pure (a := fun w j => List.zipWith (fun s c => c ^^^ s.a ^^^ s.b) (ss w j) (r w j)) (Q := fun _ _ => True) trivial

/-- The contributions to the coin. -/
def coins (i : Party) (s : Bytes) (st : Party → JmpSt (idealPrg f)) (j : Party) : Bytes := drawA i 32 s st j

/-- The coin as party `i` computes it. -/
def coinVal (i : Party) (V : Nat) (s : Bytes) (st : Party → JmpSt (idealPrg f)) : BitVec V :=
  tapeVal V (f (coinOf (coins i s st)))

theorem coins_twin {st : Bool → Party → JmpSt (idealPrg f)} (hst : Twin i st) (s : Bytes) :
    coins i s (st false) = coins i s (st true) := by
  funext j
  unfold coins drawA
  have n1 := (by decide : ∀ c : Party, c.prev ≠ c.next) i
  have n2 := (by decide : ∀ c : Party, c ≠ c.next) i
  rcases (by decide : ∀ i j : Party, j = i.next ∨ j = i ∨ j = i.prev) i j with rfl | rfl | rfl
  · simp
  · rw [if_neg n2, if_neg n2, hst.2]
  · rw [if_neg n1, if_neg n1, hst.prev_tapeA, hst.prev_tapeA, hst.2]

theorem coinElem_lock {st : Bool → Party → JmpSt (idealPrg f)} (V : Nat) (hst : Twin i st) {s : Bytes} (hs : s.length = 32) :
    Lock i (fun _ => tapesOf s) (fun _ j => MalAby3.coinElem V j) st fun r t =>
      Twin i t ∧ ∀ w j, r w j = coinVal i V s (st false) := by
  have key : ∀ w t, (fun j => ((idealPrg f).genSeed (tapeIn i (tapesOf s ++ t) (st w) j).prf.my).1) = coins i s (st w) := by
    intro w t
    funext j
    exact drawA_eq hs (st w) t j
  refine (Lock.full (Q := fun _ _ => True) ?_ hst rfl (R := fun w r => ∀ j, r j = coinVal i V s (st w)) fun w t hJ => ?_).mono
    fun r t h => ⟨h.2.1, fun w j => ?_⟩
  · unfold MalAby3.coinElem coin
    refine Lock.bind_last (Lock.bind_last (Lock.loc (a := fun w j => (drawA i 32 s (st w) j, drawB i 32 s (st w) j))
      (t := fun w j => (st w j).adv 256) (fun w rest j => ?_) ?_))
    · show Prog.ret ((words 8 32 (tapeIn i (tapesOf s ++ rest) (st w) j).tapeA, words 8 32 (tapeIn i (tapesOf s ++ rest) (st w) j).tapeB),
        (tapeIn i (tapesOf s ++ rest) (st w) j).adv 256) = _
      rw [drawA_eq hs, drawB_eq hs, tapeIn_adv (by rw [tapesOf_length, hs])]
    · refine Lock.bind' ((jmpSendReceiveMany_lock (x := fun w j => drawB i 32 s (st w) j) (fun w j => ?_) ?_).mono fun r t _ => ?_)
      · rw [drawB_length hs, drawB_length hs]
      · simp [drawB]
      · refine Lock.pure (a := fun w j => List.zipWith (fun s1 (p : Byte × Byte) => s1 ^^^ (p.2 ^^^ p.1)) (drawA i 32 s (st w) j)
          ((drawB i 32 s (st w) j).zip (r w j))) ?_
        exact Lock.pure (a := fun w j => ((idealPrg f).gen V ((idealPrg f).ofSeed (List.zipWith (fun s1 (p : Byte × Byte) =>
          s1 ^^^ (p.2 ^^^ p.1)) (drawA i 32 s (st w) j) ((drawB i 32 s (st w) j).zip (r w j))))).1) trivial
  · unfold MalAby3.coinElem
    refine WPS.bind ((coin_wp' hJ).mono fun sd t' h => ?_)
    refine WPS.pure (a := fun j => ((idealPrg f).gen V ((idealPrg f).ofSeed (sd j))).1) ⟨fun j => ?_, h.2⟩
    show ((idealPrg f).gen V ((idealPrg f).ofSeed (sd j))).1 = _
    rw [h.1 j, key w t]
    rfl
  · rw [h.2.2.2 w j]
    cases w
    · rfl
    · unfold coinVal
      rw [coins_twin hst]

/-! ## Multiplication -/

theorem abyMulMany_lock {st : Bool → Party → JmpSt (idealPrg f)} {a b : Bool → Party → List (AShare V)} {Z : Bool → List (BitVec V)}
    {cs : List (BitVec V)} {m : Nat} (hl : ∀ w j, ((a w j).zip (b w j)).length = m) (hZ : ∀ w, (Z w).length = m)
    (hcs : ∀ w, maskVals (mulLoc (a w i.prev) (b w i.prev)) (words V m (st w i.prev).tapeA) (Z w) = cs) :
    Lock i (fun w => tapesOf (Z w)) (fun w j => MalAby3.abyMulMany j (a w j) (b w j)) st
      fun _ t => t = fun w j => (st w j).adv (V * m) := by
  unfold MalAby3.abyMulMany
  refine Lock.bind_last (Lock.loc (a := fun w j => maskVals (mulLoc (a w j) (b w j)) (drawA i m (Z w) (st w) j) (drawB i m (Z w) (st w) j))
    (t := fun w j => (st w j).adv (V * m)) (fun w rest j => ?_) ?_)
  · rw [mulLoop_eq, hl, drawA_eq (hZ w), drawB_eq (hZ w), tapeIn_adv (by rw [tapesOf_length, hZ])]
    rfl
  have hlen : ∀ w j, (maskVals (mulLoc (a w j) (b w j)) (drawA i m (Z w) (st w) j) (drawB i m (Z w) (st w) j)).length = m := by
    intro w j
    simp only [maskVals, mulLoc, List.length_zipWith, List.length_map, hl, drawA_length (hZ w), drawB_length (hZ w), Nat.min_self]
  have hp : ∀ w, maskVals (mulLoc (a w i.prev) (b w i.prev)) (drawA i m (Z w) (st w) i.prev) (drawB i m (Z w) (st w) i.prev) = cs := by
    intro w
    rw [← hcs w, drawA, drawB, if_neg ((by decide : ∀ c : Party, c.prev ≠ c.next) i), if_pos rfl]
  refine Lock.bind' (Lock.net (Talk.vec (fun w j => by rw [hlen, hlen]) (by rw [hp, hp])) ?_)
  exact Lock.pure (a := fun w j => List.zipWith AShare.mk (maskVals (mulLoc (a w j) (b w j)) (drawA i m (Z w) (st w) j)
    (drawB i m (Z w) (st w) j)) (maskVals (mulLoc (a w j.prev) (b w j.prev)) (drawA i m (Z w) (st w) j.prev)
    (drawB i m (Z w) (st w) j.prev))) rfl

theorem abyDotMany_lock {st : Bool → Party → JmpSt (idealPrg f)} {a b : Bool → Party → List (List (AShare V))} {Z : Bool → List (BitVec V)}
    {cs : List (BitVec V)} {m : Nat} (ha : ∀ w j, (a w j).length = m) (hb : ∀ w j, (b w j).length = m)
    (hl : ∀ w j, ∀ p ∈ (a w j).zip (b w j), p.1.length = p.2.length) (hZ : ∀ w, (Z w).length = m)
    (hcs : ∀ w, maskVals (dotLoc (a w i.prev) (b w i.prev)) (words V m (st w i.prev).tapeA) (Z w) = cs) :
    Lock i (fun w => tapesOf (Z w)) (fun w j => MalAby3.abyDotMany j (a w j) (b w j)) st
      fun _ t => t = fun w j => (st w j).adv (V * m) := by
  unfold MalAby3.abyDotMany
  refine Lock.ite_neg (fun w j => by rw [ha, hb]; simp) ?_
  have hz : ∀ w j, ((a w j).zip (b w j)).length = m := fun w j => by simp [ha, hb]
  refine Lock.bind_last (Lock.loc (a := fun w j => maskVals (dotLoc (a w j) (b w j)) (drawA i m (Z w) (st w) j) (drawB i m (Z w) (st w) j))
    (t := fun w j => (st w j).adv (V * m)) (fun w rest j => ?_) ?_)
  · rw [dotLoop_eq _ (hl w j), hz, drawA_eq (hZ w), drawB_eq (hZ w), tapeIn_adv (by rw [tapesOf_length, hZ])]
    rfl
  have hlen : ∀ w j, (maskVals (dotLoc (a w j) (b w j)) (drawA i m (Z w) (st w) j) (drawB i m (Z w) (st w) j)).length = m := by
    intro w j
    simp only [maskVals, dotLoc, List.length_zipWith, List.length_map, hz, drawA_length (hZ w), drawB_length (hZ w), Nat.min_self]
  have hp : ∀ w, maskVals (dotLoc (a w i.prev) (b w i.prev)) (drawA i m (Z w) (st w) i.prev) (drawB i m (Z w) (st w) i.prev) = cs := by
    intro w
    rw [← hcs w, drawA, drawB, if_neg ((by decide : ∀ c : Party, c.prev ≠ c.next) i), if_pos rfl]
  refine Lock.bind' (Lock.net (Talk.vec (fun w j => by rw [hlen, hlen]) (by rw [hp, hp])) ?_)
  exact Lock.pure (a := fun w j => List.zipWith AShare.mk (maskVals (dotLoc (a w j) (b w j)) (drawA i m (Z w) (st w) j)
    (drawB i m (Z w) (st w) j)) (maskVals (dotLoc (a w j.prev) (b w j.prev)) (drawA i m (Z w) (st w) j.prev)
    (drawB i m (Z w) (st w) j.prev))) rfl

theorem rnd_prev {n : Nat} {A : List (BitVec V)} (st : Party → JmpSt (idealPrg f)) :
    rnd i n A st i.prev = List.zipWith AShare.mk (words V n (st i.prev).tapeA) A := by
  unfold rnd drawA drawB
  rw [if_neg ((by decide : ∀ c : Party, c.prev ≠ c.next) i), if_pos rfl]

theorem rnd_length {n : Nat} {A : List (BitVec V)} (hA : A.length = n) (st : Party → JmpSt (idealPrg f)) (j : Party) :
    (rnd i n A st j).length = n := by
  simp [rnd, drawA_length hA, drawB_length hA]

theorem map_b_zipWith {x y : List (BitVec V)} (h : x.length = y.length) : (List.zipWith AShare.mk x y).map (·.b) = y := by
  rw [List.map_zipWith]
  induction x generalizing y with
  | nil => rw [List.length_eq_zero_iff.1 h.symm]; rfl
  | cons a x ih =>
    obtain ⟨b, y, rfl⟩ := List.exists_cons_of_length_eq_add_one h.symm
    simp only [List.zipWith_cons_cons, ih (by simpa using h)]

theorem rnd_prev_b {n : Nat} {A : List (BitVec V)} (hA : A.length = n) (st : Party → JmpSt (idealPrg f)) :
    (rnd i n A st i.prev).map (·.b) = A := by
  rw [rnd_prev, map_b_zipWith (by simp [hA])]

end Verif
