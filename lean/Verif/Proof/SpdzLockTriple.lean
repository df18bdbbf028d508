import Verif.Proof.SpdzLockIris
import Verif.Proof.PairSpdz
import Verif.Proof.PairQueue
import Verif.Proof.LockCount

/-!
# Lock-step runs of the generation and the verification of AND triples

Here the two runs do differ in the values that are opened, unless the unknown components are chosen suitably.
-/

namespace Verif

open Jmp Spdz

variable {f : Bytes → List Bool} {V K : Nat} {α β : Type} {i : Party} {H : Hash}

/-! ## States that differ in the generators and queues only -/

/-- `t` is `st` after `k` bits have been drawn; the message queues may differ. -/
def Near (k : Nat) (st t : Bool → Party → SpdzSt (idealPrg f) V) : Prop :=
  ∀ w j, t w j = { st w j with jmp := (t w j).jmp } ∧ (t w j).jmp.prf = ((st w j).jmp.adv k).prf

/-- After `k` bits have been drawn, with empty message queues. -/
def SpdzSt.settle (k : Nat) (s : SpdzSt (idealPrg f) V) : SpdzSt (idealPrg f) V := { s with jmp := ⟨(s.jmp.adv k).prf, [], []⟩ }

theorem Near.settle {k l : Nat} {st t : Bool → Party → SpdzSt (idealPrg f) V} (h : Near k st t) (w : Bool) (j : Party) :
    (t w j).settle l = (st w j).settle (k + l) := by
  obtain ⟨h1, h2⟩ := h w j
  have e : (t w j).jmp.adv l = { (t w j).jmp with prf := ((st w j).jmp.adv (k + l)).prf } := by
    rw [← JmpSt.adv_adv]
    show ({ (t w j).jmp with prf := _ } : JmpSt (idealPrg f)) = _
    rw [JmpSt.tapeA, JmpSt.tapeB, h2]
    rfl
  unfold SpdzSt.settle
  rw [e, h1]

theorem TwinS.near {k : Nat} {r : Bool → BitVec V} {n : Nat} {st t : Bool → Party → SpdzSt (idealPrg f) V} (h : TwinS i r n st)
    (hn : Near k st t) (hj : Twin i fun w j => (t w j).jmp) : TwinS i r n t := by
  constructor
  · intro w u
    obtain ⟨h1, h2, h3, h4, h5⟩ := h.1 w u
    have e : ∀ j, (t w j).macKey = (st w j).macKey ∧ (t w j).verifyQueue = (st w j).verifyQueue ∧ (t w j).prec = (st w j).prec ∧
        (t w j).buffer = (st w j).buffer := fun j => by rw [(hn w j).1]; exact ⟨rfl, rfl, rfl, rfl⟩
    refine ⟨hj.1 w u, ?_, ?_, ?_, ?_⟩
    · simpa only [tapeS, (e _).1] using h2
    · simpa only [tapeS, (e _).2.1] using h3
    · simpa only [tapeS, (e _).2.2.1] using h4
    · simpa only [tapeS, (e _).2.2.2] using h5
  · have hj2 : (t false i).jmp = (t true i).jmp := hj.2
    rw [(hn false i).1, (hn true i).1, h.2, hj2]

theorem Twin.adv {k : Nat} {st : Bool → Party → JmpSt (idealPrg f)} (h : Twin i st) : Twin i fun w j => (st w j).adv k := by
  refine ⟨fun w t => ?_, congrArg (JmpSt.adv k) h.2⟩
  have h1 := h.1 w (List.replicate k false ++ t)
  have e := tapeIn_adv (i := i) (k := k) (u := List.replicate k false) (by simp) t (st w)
  refine ⟨fun j => ?_, fun j => ?_⟩
  · show (tapeIn i t (fun j => (st w j).adv k) j).prf.next = (tapeIn i t (fun j => (st w j).adv k) j.prev).prf.my
    rw [← e, ← e]
    have := h1.1 j
    show (tapeIn i _ (st w) j).prf.next.drop k = (tapeIn i _ (st w) j.prev).prf.my.drop k
    exact congrArg (List.drop k) this
  · have := h1.2 j
    rw [tapeIn_rcvQueue, tapeIn_sendQueue] at this ⊢
    exact this

theorem TwinS.adv {k : Nat} {r : Bool → BitVec V} {n : Nat} {st : Bool → Party → SpdzSt (idealPrg f) V} (h : TwinS i r n st) :
    TwinS i r n fun w j => (st w j).adv k :=
  h.near (k := k) (fun _ _ => ⟨rfl, rfl⟩) (Twin.adv h.jmp)

theorem TwinS.settle {k : Nat} {r : Bool → BitVec V} {n : Nat} {st : Bool → Party → SpdzSt (idealPrg f) V} (h : TwinS i r n st) :
    TwinS i r n fun w j => (st w j).settle k := by
  refine h.near (k := k) (fun _ _ => ⟨rfl, rfl⟩) ⟨fun w t => ⟨fun j => ?_, fun j => ?_⟩, ?_⟩
  · have := ((Twin.adv (k := k) h.jmp).1 w t).1 j
    unfold tapeIn at this ⊢
    simp only [SpdzSt.settle] at this ⊢
    split_ifs at this ⊢ <;> exact this
  · rw [tapeIn_rcvQueue, tapeIn_sendQueue]
    rfl
  · show (SpdzSt.settle k (st false i)).jmp = (SpdzSt.settle k (st true i)).jmp
    rw [h.2]

/-- What is known about the results of each of the runs, and the code of party `i` being the same in both worlds. -/
theorem LockS.results {u : Bool → List Bool} {st : Bool → Party → SpdzSt (idealPrg f) V} {r : Bool → BitVec V} {n : Nat}
    {p : Bool → Party → Proto (SpdzSt (idealPrg f) V) α} {Q : (Bool → Party → α) → (Bool → Party → SpdzSt (idealPrg f) V) → Prop}
    (h : LockS i u p st Q) (hst : TwinS i r n st) (hp : p false i = p true i) {R : Bool → (Party → α) → Prop}
    (hw : ∀ w t, JmpOk (fun j => (tapeS i (u w ++ t) (st w) j).jmp) → WPS (p w) (tapeS i (u w ++ t) (st w)) fun a _ => R w a) :
    LockS i u p st fun a t => Q a t ∧ a false i = a true i ∧ ∀ w, R w (a w) := by
  obtain ⟨l, a, t, h1, h2, h3⟩ := h
  have h4 : ∀ w, R w (a w) := by
    intro w
    obtain ⟨x, hx, hQ⟩ := hw w [] (hst.1 w _).1
    have := hx.unique (h1 w [] (fun _ => []) fun j => (st w j).prec).erase
    subst this
    exact hQ
  have h5 : ∀ w, (p w i (st w i)).replay (l w i) = some (a w i, (t w i).put (st w i).prec) := by
    intro w
    have := Runs.replay (h1 w [] (fun _ => []) fun j => (st w j).prec) (i := i) (ms := l w i) rfl
    rwa [tapeS_self, tapeS_self] at this
  have h6 : (a false i, (t false i).put (st false i).prec) = (a true i, (t true i).put (st true i).prec) := by
    have := h5 false
    rw [hp, hst.2, h2, h5 true] at this
    injection this with this
    rw [hst.2]
    exact this.symm
  rw [Prod.mk.injEq] at h6
  exact ⟨l, a, t, h1, h2, h3, h6.1, h4⟩

/-! ## Exchanges -/

theorem jmpSendReceiveMany_lockX {st : Bool → Party → JmpSt (idealPrg f)} {x y : Bool → Party → List (BitVec K)}
    (hl : ∀ w j, (x w j).length = (x w j.prev).length) (h : x false i.prev = x true i.prev) :
    Lock i (fun _ => []) (fun w j => jmpSendReceiveMany j (x w j) (y w j)) st fun r t =>
      (r = fun w j => x w j.prev) ∧ ∀ w j, (t w j).prf = (st w j).prf := by
  refine Lock.congr (q := fun w j => (do
      jmpBufferMany (y w j)
      let v ← Proto.net (sendSliceAndReceiveVec j (x w j))
      Proto.step fun s => (v, { s with rcvQueueNext := v.foldl (fun q x => q ++ toBytes x) s.rcvQueueNext })))
    (fun w j => rfl) ?_
  refine Lock.bind' (Lock.loc (a := fun _ _ => ()) (t := fun w j => { st w j with
    sendQueuePrev := (y w j).foldl (fun q x => q ++ toBytes x) (st w j).sendQueuePrev }) (fun w rest j => ?_) ?_)
  · rw [List.nil_append]
    unfold jmpBufferMany Proto.step tapeIn
    split_ifs <;> rfl
  refine Lock.bind' (Lock.net (Talk.vec hl h) (Lock.loc (a := fun w j => x w j.prev) (t := fun w j => { st w j with
    sendQueuePrev := (y w j).foldl (fun q x => q ++ toBytes x) (st w j).sendQueuePrev
    rcvQueueNext := (x w j.prev).foldl (fun q x => q ++ toBytes x) (st w j).rcvQueueNext }) (fun w rest j => ?_) ⟨rfl, fun _ _ => rfl⟩))
  rw [List.nil_append]
  unfold Proto.step tapeIn
  split_ifs <;> rfl

theorem jmpVerify_lockX (H : Hash) {st : Bool → Party → JmpSt (idealPrg f)} (hst : Twin i st) :
    Lock i (fun _ => []) (fun _ j => jmpVerify H j) st fun _ t => t = fun w j => ⟨(st w j).prf, [], []⟩ := by
  have hq : ∀ w j, (st w j).rcvQueueNext = (st w j.next).sendQueuePrev := fun w j => by
    have := (hst.1 w []).2 j
    rwa [tapeIn_rcvQueue, tapeIn_sendQueue] at this
  unfold jmpVerify
  refine Lock.bind' (Lock.loc (a := fun w j => (H.h (st w j).sendQueuePrev, H.h (st w j).rcvQueueNext))
    (t := fun w j => { st w j with sendQueuePrev := [], rcvQueueNext := [] }) (fun w rest j => ?_) ?_)
  · rw [List.nil_append]
    unfold Proto.step tapeIn
    split_ifs <;> rfl
  refine Lock.congr (q := fun w j => (do
    let rcvNext ← Proto.net (do sendPrev j (H.h (st w j).sendQueuePrev); recvNext j)
    if rcvNext ≠ H.h (st w j).rcvQueueNext then Proto.throw .jmpVerify else pure ())) (fun w j => rfl) ?_
  refine Lock.bind' (Lock.net (Talk.back (m := fun w j => H.h (st w j).sendQueuePrev) ?_) ?_)
  · show H.h (st false i.next).sendQueuePrev = H.h (st true i.next).sendQueuePrev
    rw [← hq, ← hq, hst.2]
  · exact Lock.ite_neg (fun w j => by simp [hq]) (Lock.pure (a := fun _ _ => ()) rfl)

/-- The tossed coin. -/
theorem coin_lockX {st : Bool → Party → JmpSt (idealPrg f)} (hst : Twin i st) {s : Bytes} (hs : s.length = 32) :
    Lock i (fun _ => tapesOf s) (fun _ j => coin j) st fun r t =>
      (∀ w j, r w j = coinOf (coins i s (st false))) ∧ Twin i t ∧ ∀ w j, (t w j).prf = ((st w j).adv 256).prf := by
  have key : ∀ w t, (fun j => ((idealPrg f).genSeed (tapeIn i (tapesOf s ++ t) (st w) j).prf.my).1) = coins i s (st w) := by
    intro w t
    funext j
    exact drawA_eq hs (st w) t j
  refine (Lock.full (Q := fun _ t => ∀ w j, (t w j).prf = ((st w j).adv 256).prf) ?_ hst rfl
    (R := fun w r => ∀ j, r j = coinOf (coins i s (st w))) fun w t hJ => ?_).mono
    fun r t h => ⟨fun w j => ?_, h.2.1, h.1⟩
  · unfold coin
    refine Lock.bind_last (Lock.loc (a := fun w j => (drawA i 32 s (st w) j, drawB i 32 s (st w) j))
      (t := fun w j => (st w j).adv 256) (fun w rest j => ?_) ?_)
    · show Prog.ret ((words 8 32 (tapeIn i (tapesOf s ++ rest) (st w) j).tapeA, words 8 32 (tapeIn i (tapesOf s ++ rest) (st w) j).tapeB),
        (tapeIn i (tapesOf s ++ rest) (st w) j).adv 256) = _
      rw [drawA_eq hs, drawB_eq hs, tapeIn_adv (by rw [tapesOf_length, hs])]
    · refine Lock.bind' ((jmpSendReceiveMany_lockX (x := fun w j => drawB i 32 s (st w) j) (fun w j => ?_) ?_).mono fun r t ht => ?_)
      · rw [drawB_length hs, drawB_length hs]
      · simp [drawB]
      · exact Lock.pure (a := fun w j => List.zipWith (fun s1 (p : Byte × Byte) => s1 ^^^ (p.2 ^^^ p.1)) (drawA i 32 s (st w) j)
          ((drawB i 32 s (st w) j).zip (r w j))) ht.2
  · refine (coin_wp' hJ).mono fun sd t' h => ⟨fun j => ?_, h.2⟩
    rw [h.1 j, key w t]
  · rw [h.2.2.2 w j]
    cases w
    · rfl
    · rw [coins_twin hst]

theorem Talk.binHashZero (H : Hash) {n : Nat} {ws : Bool → Party → List (AShare K)}
    (hz : ∀ w, Rels BinSharesOf (List.replicate n 0) (ws w)) (h : ws false i = ws true i) :
    Talk i (fun w j => binHashZeroVerify H j (ws w j)) fun _ _ => () := by
  have key : ∀ w j j', (ws w j).flatMap (binZeroBytes j) = (ws w j').flatMap (binZeroBytes j') := by
    suffices ∀ w j, (ws w j).flatMap (binZeroBytes j) = (ws w 0).flatMap (binZeroBytes 0) from
      fun w j j' => (this w j).trans (this w j').symm
    intro w j
    have := hz w
    clear hz h
    revert this
    generalize ws w = v
    intro hv
    induction n generalizing v with
    | zero => rw [hv.eq_nil]; rfl
    | succ n ih =>
      obtain ⟨x, v', hx, h', rfl⟩ := Rels.uncons hv
      simp only [List.flatMap_cons, binZeroBytes_agree hx j, ih _ h']
  obtain ⟨l, hl, e⟩ := Talk.broadcast (i := i) (m := fun w j => H.h ((ws w j).flatMap (binZeroBytes j))) fun j => by
    show H.h ((ws false j).flatMap _) = H.h ((ws true j).flatMap _)
    rw [key false j i, key true j i, h]
  refine ⟨l, fun w acc => ?_, e⟩
  have e3 : ∀ j, (binHashZeroVerify H j (ws w j)).record (acc j) = _ := fun j => Prog.record_bind _ _ _
  simp only [e3]
  refine (hl w acc).bind ?_
  have e1 := key w 1 0
  have e2 := key w 2 0
  simp only [e1, e2]
  have : ∀ j, (do
      let h0 ← Prog.ofExcept (idx [H.h ((ws w 0).flatMap (binZeroBytes 0)), H.h ((ws w 0).flatMap (binZeroBytes 0)),
        H.h ((ws w 0).flatMap (binZeroBytes 0))] 0)
      let h1 ← Prog.ofExcept (idx [H.h ((ws w 0).flatMap (binZeroBytes 0)), H.h ((ws w 0).flatMap (binZeroBytes 0)),
        H.h ((ws w 0).flatMap (binZeroBytes 0))] 1)
      let h2 ← Prog.ofExcept (idx [H.h ((ws w 0).flatMap (binZeroBytes 0)), H.h ((ws w 0).flatMap (binZeroBytes 0)),
        H.h ((ws w 0).flatMap (binZeroBytes 0))] 2)
      if h0 ≠ h1 ∨ h0 ≠ h2 then .fail .verify else Pure.pure () : Prog Unit).record (acc j ++ l w j) =
      .ret (acc j ++ l w j, ()) := fun j => by
    simp [idx]
  simp only [this]
  exact ⟨0, .zero _⟩

/-! ## Openings -/

/-- The components that party `i` does not know. -/
def thirds (i : Party) (s : Party → List (AShare K)) : List (BitVec K) := (s i.prev).map (·.b)

theorem jmpOpenBinMany_lock {r : Bool → BitVec V} {n : Nat} {st : Bool → Party → SpdzSt (idealPrg f) V} {ss : Bool → Party → List (AShare K)}
    {xs : Bool → List (BitVec K)} (hst : TwinS i r n st) (hr : ∀ w, Rels BinSharesOf (xs w) (ss w)) (hi : ss false i = ss true i)
    (h : thirds i (ss false) = thirds i (ss true)) :
    LockS i (fun _ => []) (fun w j => (jmpOpenBinMany H j (ss w j) : Proto (SpdzSt (idealPrg f) V) _)) st fun o t =>
      (t = fun w j => (st w j).settle 0) ∧ o false i = o true i ∧ ∀ w j, o w j = xs w := by
  refine LockS.results (R := fun w o => ∀ j, o j = xs w) ?_ hst (by simp only [hi]) fun w t hJ =>
    (jmpOpenBinMany_wp (hr w) hJ).mono fun _ _ h => h.1
  unfold jmpOpenBinMany
  have hL : Lock i (fun _ => []) (fun w j => jmpSendReceiveMany j ((ss w j).map (·.b)) ((ss w j).map (·.a))) (fun w j => (st w j).jmp)
      fun o t => (o = fun w j => (ss w j.prev).map (·.b)) ∧ ∀ w j, (t w j).prf = (st w j).jmp.prf :=
    jmpSendReceiveMany_lockX (i := i) (x := fun w j => (ss w j).map fun s : AShare K => s.b) (fun w j => by simp [(hr w).length]) h
  refine LockS.bind' (LockS.zoom (Lock.full hL hst.jmp (by simp only [hi]) (R := fun _ _ => True) fun w t hJ => ?_) fun c t hc => ?_)
  · simp only [rels_ab (fun x s (hs : BinSharesOf x s) => hs.2) (hr w)]
    refine WPS.mono (jmpSendReceiveMany_wp (fun j => (ss w j).map (·.a)) (fun i j => by simp [(hr w).length]) hJ) fun _ _ h => ?_
    exact ⟨trivial, h.2⟩
  · refine LockS.bind' (LockS.zoom (jmpVerify_lockX H hc.2.1) fun _ t' ht' => ?_)
    refine LockS.pure (a := fun w j => List.zipWith (fun s c => c ^^^ s.a ^^^ s.b) (ss w j) (c w j)) ?_
    subst ht'
    funext w j
    show ({ st w j with jmp := ⟨(t w j).prf, [], []⟩ } : SpdzSt (idealPrg f) V) = _
    rw [hc.1.2]
    rfl

theorem zipWith_swap_xor (l m : List (BitVec K)) : List.zipWith (fun a x => x ^^^ a) l m = List.zipWith (· ^^^ ·) l m := by
  congr 1
  funext a x
  exact BitVec.xor_comm _ _

theorem map_zip_xor (l m : List (AShare K)) :
    (List.zipWith (fun a x : AShare K => x.xor a) l m).map (·.b) = List.zipWith (· ^^^ ·) (l.map (·.b)) (m.map (·.b)) := by
  rw [List.map_zipWith, List.zipWith_map, ]
  congr 1
  funext a x
  exact BitVec.xor_comm _ _

/-- The check of triples against others: the opened values must be common. -/
theorem verifyTriples_lock {r : Bool → BitVec V} {k n : Nat} {st : Bool → Party → SpdzSt (idealPrg f) V}
    {a b c x y z : Bool → Party → List (AShare 128)} (hst : TwinS i r k st) (h : ∀ w, TriplesOf n (a w) (b w) (c w))
    (h' : ∀ w, TriplesOf n (x w) (y w) (z w)) (ia : a false i = a true i) (ib : b false i = b true i) (ic : c false i = c true i)
    (ix : x false i = x true i) (iy : y false i = y true i) (iz : z false i = z true i) {p q : List (BitVec 128)}
    (hp : ∀ w, List.zipWith (· ^^^ ·) (thirds i (a w)) (thirds i (x w)) = p)
    (hq : ∀ w, List.zipWith (· ^^^ ·) (thirds i (b w)) (thirds i (y w)) = q) :
    LockS i (fun _ => []) (fun w j => (verifyTriples H j (a w j) (b w j) (c w j) (x w j) (y w j) (z w j) : Proto (SpdzSt (idealPrg f) V) _)) st
      fun _ t => t = fun w j => (st w j).settle 0 := by
  choose xs ys l1 l2 ha hb hc using h
  choose xs' ys' l3 l4 hx hy hz using h'
  unfold verifyTriples
  refine LockS.bind' ((LockS.results (Q := fun _ t => t = fun w j => (st w j).settle 0)
    (R := fun w ws => Rels BinSharesOf (List.replicate n 0) ws) ?_ hst (by simp only [ia, ib, ic, ix, iy, iz]) fun w t hJ => ?_).mono
    fun ws t hw => ?_)
  · unfold triplesZero
    refine LockS.ite_neg (fun w j => by
      rw [(ha w).length, (hb w).length, (hc w).length, (hx w).length, (hy w).length, (hz w).length]; simp [*]) ?_
    have hr : ∀ w, Rels BinSharesOf (List.zipWith (fun a x => x ^^^ a) (xs w) (xs' w) ++ List.zipWith (fun b y => y ^^^ b) (ys w) (ys' w))
        (fun i => List.zipWith (fun a x : AShare 128 => x.xor a) (a w i) (x w i) ++ List.zipWith (fun b y : AShare 128 => y.xor b) (b w i) (y w i)) :=
      fun w => Rels.append (Rels.zipWith (f := fun a x => x ^^^ a) (g := fun _ (a x : AShare 128) => x.xor a) (fun _ _ _ _ h h' => h'.xor h) (ha w) (hx w))
        (Rels.zipWith (f := fun a x => x ^^^ a) (g := fun _ (a x : AShare 128) => x.xor a) (fun _ _ _ _ h h' => h'.xor h) (hb w) (hy w))
    refine LockS.bind' ((jmpOpenBinMany_lock hst hr (by simp only [ia, ib, ix, iy]) ?_).mono fun o t ho => ?_)
    · unfold thirds at hp hq ⊢
      simp only [List.map_append, map_zip_xor, hp, hq]
    · exact LockS.pure (a := fun w j => tripleChecks j (a w j) (b w j) (c w j) (z w j) ((o w j).take (a w j).length)
        ((o w j).drop (a w j).length)) ho.1
  · refine (triplesZero_wp (H := H) hJ (ha w) (hb w) (hc w) (hx w) (hy w) (hz w) (by simp [*]) (by simp [*]) (by simp [*]) (by simp [*])
      (by simp [*])).mono ?_
    rintro ws _ ⟨hw, -⟩
    have e : tripleErrors (xs w) (ys w) (List.zipWith (· &&& ·) (xs w) (ys w)) (xs' w) (ys' w) (List.zipWith (· &&& ·) (xs' w) (ys' w)) =
        List.replicate n 0 := by
      unfold tripleErrors
      rw [zipWith_xor_self, zipWith_xor_self, zipWith_replicate_zero]
      simp [l1, l2, l3, l4]
    rwa [e] at hw
  · exact LockS.net (Talk.binHashZero H hw.2.2 hw.2.1) hw.1

/-! ## Shuffling -/

/-- The shuffled words. -/
def shuf (f : Bytes → List Bool) (n : Nat) (σ : List Bool) (l : List (BitVec 128)) : List (BitVec 128) := permC (idealPrg f) (n * 128) 0 σ l

/-- The seed of the generator of the shuffle. -/
def shufSeed (i : Party) (s : Bytes) (st : Party → SpdzSt (idealPrg f) V) : List Bool := f (coinOf (coins i s fun j => (st j).jmp))

theorem thirds_mapLists {n : Nat} {σ : List Bool} (a : Party → List (AShare 128)) :
    thirds i (fun j => AShare.mapLists (shuf f n σ) (a j)) = shuf f n σ (thirds i a) :=
  side_mapLists (shuf f n σ) (fun l => permC_length _ _ _ l) (a i.prev) true

theorem permute_lock {r : Bool → BitVec V} {k n : Nat} {st : Bool → Party → SpdzSt (idealPrg f) V}
    {a b c : Bool → Party → List (AShare 128)} (hst : TwinS i r k st) (ha : ∀ w j, (a w j).length = n) (hb : ∀ w j, (b w j).length = n)
    (hc : ∀ w j, (c w j).length = n) {s : Bytes} (hs : s.length = 32) :
    LockS i (fun _ => tapesOf s) (fun w j => (permute j (a w j) (b w j) (c w j) : Proto (SpdzSt (idealPrg f) V) _)) st fun o t =>
      (o = fun w j => (AShare.mapLists (shuf f n (shufSeed i s (st false))) (a w j),
        AShare.mapLists (shuf f n (shufSeed i s (st false))) (b w j), AShare.mapLists (shuf f n (shufSeed i s (st false))) (c w j))) ∧
      Near 256 st t ∧ TwinS i r k t := by
  unfold permute
  refine LockS.ite_neg (fun w j => by simp [ha, hb, hc]) ?_
  refine LockS.bind_last (LockS.zoom (coin_lockX hst.jmp hs) fun o t ho => ?_)
  have hn : Near 256 st fun w j => { st w j with jmp := t w j } := fun w j => ⟨rfl, ho.2.2 w j⟩
  refine LockS.pure (a := fun w j => permuteLoop (idealPrg f) ((a w j).length * 128) 0 ((idealPrg f).ofSeed (o w j)) (a w j, b w j, c w j))
    ⟨?_, hn, hst.near hn ho.2.1⟩
  funext w j
  rw [permuteLoop_eq, ha, ho.1]
  rfl

theorem zipWith_xor_cancel {x y : List (BitVec K)} (h : y.length = x.length) :
    List.zipWith (· ^^^ ·) x (List.zipWith (· ^^^ ·) x y) = y := by
  induction x generalizing y with
  | nil => rw [List.length_eq_zero_iff.1 h]; rfl
  | cons a x ih =>
    obtain ⟨b, y, rfl⟩ := List.exists_cons_of_length_eq_add_one h
    simp only [List.zipWith_cons_cons, ih (y := y) (by simpa using h)]
    rw [← BitVec.xor_assoc, BitVec.xor_self, BitVec.zero_xor]

/-- What the third party holds of a value that is known to be common. -/
theorem third_eq {x : Bool → BitVec K} {s : Bool → Party → AShare K} (hs : ∀ w, BinSharesOf (x w) (s w)) (hx : x false = x true)
    (is : s false i = s true i) : (s false i.prev).b = (s true i.prev).b := by
  have h1 := (hs false).open_eq i
  have h2 := (hs true).open_eq i
  rw [hx, is, ← h2] at h1
  have key : ∀ a b c : BitVec K, a ^^^ b = a ^^^ c → b = c := fun a b c h => by
    have := congrArg (a ^^^ ·) h
    simpa only [← BitVec.xor_assoc, BitVec.xor_self, BitVec.zero_xor] using this
  exact key _ _ _ h1

theorem value_eq {x : Bool → BitVec K} {s : Bool → Party → AShare K} (hs : ∀ w, BinSharesOf (x w) (s w))
    (is : s false i = s true i) (h : (s false i.prev).b = (s true i.prev).b) : x false = x true := by
  rw [← (hs false).open_eq i, ← (hs true).open_eq i, is, h]

theorem openBinMany_lock {r : Bool → BitVec V} {n : Nat} {st : Bool → Party → SpdzSt (idealPrg f) V} {ss : Bool → Party → List (AShare K)}
    {xs : Bool → List (BitVec K)} (hst : TwinS i r n st) (hr : ∀ w, Rels BinSharesOf (xs w) (ss w)) (hi : ss false i = ss true i)
    (h : thirds i (ss false) = thirds i (ss true)) :
    LockS i (fun _ => []) (fun w j => (openBinMany j (ss w j) : Proto (SpdzSt (idealPrg f) V) _)) st fun o t =>
      t = st ∧ o false i = o true i ∧ ∀ w j, o w j = xs w := by
  refine LockS.results (Q := fun _ t => t = st) (R := fun w o => ∀ j, o j = xs w) ?_ hst (by simp only [hi]) fun w t hJ =>
    openBinMany_wp (hr w) fun _ => rfl
  unfold openBinMany
  refine LockS.bind' (LockS.net (Talk.iter (i := i) (x := fun w j => (ss w j).map fun s : AShare K => s.b)
    (fun w j => by simp [(hr w).length]) h) ?_)
  exact LockS.pure (a := fun w j => List.zipWith (fun s c => c ^^^ s.a ^^^ s.b) (ss w j) ((ss w j.prev).map fun s : AShare K => s.b))
    (Q := fun _ t => t = st) (st := st) rfl

/-- `generate_triples` after the ANDs: after the shuffle, the unknown components of the checking triples must hide those of the
checked ones in the same way in both worlds. -/
theorem genRest_lock {r : Bool → BitVec V} {k n : Nat} {st : Bool → Party → SpdzSt (idealPrg f) V}
    {a b c : Bool → Party → List (AShare 128)} (hst : TwinS i r k st) (hT : ∀ w, TriplesOf (2 * n + 1) (a w) (b w) (c w))
    (ia : a false i = a true i) (ib : b false i = b true i) (ic : c false i = c true i) {s : Bytes} (hs : s.length = 32)
    {va vb : List (BitVec 128)} {la lb : BitVec 128} (lva : va.length = n) (lvb : vb.length = n)
    (hA : ∀ w, shuf f (n + 1) (shufSeed i s (st false)) ((thirds i (a w)).drop n) =
      List.zipWith (· ^^^ ·) ((thirds i (a w)).take n) va ++ [la])
    (hB : ∀ w, shuf f (n + 1) (shufSeed i s (st false)) ((thirds i (b w)).drop n) =
      List.zipWith (· ^^^ ·) ((thirds i (b w)).take n) vb ++ [lb]) :
    LockS i (fun _ => tapesOf s) (fun w j => (genRest H j n (a w j) (b w j) (c w j) : Proto (SpdzSt (idealPrg f) V) _)) st fun o t =>
      (t = fun w j => (st w j).settle 256) ∧
      o = fun w j => (⟨(a w j).take n, (b w j).take n, (c w j).take n, 128⟩ : Triples) := by
  have hlen : ∀ w j, (a w j).length = 2 * n + 1 ∧ (b w j).length = 2 * n + 1 ∧ (c w j).length = 2 * n + 1 := by
    intro w j
    obtain ⟨xs, ys, hx, hy, ha, hb, hc⟩ := hT w
    exact ⟨by rw [ha.length, hx], by rw [hb.length, hy], by rw [hc.length]; simp [hx, hy]⟩
  have e1 : 2 * n + 1 - n = n + 1 := by omega
  generalize hσ : shufSeed i s (st false) = σ at hA hB
  have hD : ∀ w, TriplesOf (n + 1) (fun j => AShare.mapLists (shuf f (n + 1) σ) ((a w j).drop n))
      (fun j => AShare.mapLists (shuf f (n + 1) σ) ((b w j).drop n)) (fun j => AShare.mapLists (shuf f (n + 1) σ) ((c w j).drop n)) := by
    intro w
    have := triples_drop (m := n) (hT w)
    rw [e1] at this
    exact this.perm (G := idealPrg f) σ
  choose a1 b1 c1 x y z u v hT1 hx hy hz ea eb ec using fun w => triples_unsnoc (hD w)
  have ea' : ∀ w j, AShare.mapLists (shuf f (n + 1) σ) ((a w j).drop n) = a1 w j ++ [x w j] := fun w j => congrFun (ea w) j
  have eb' : ∀ w j, AShare.mapLists (shuf f (n + 1) σ) ((b w j).drop n) = b1 w j ++ [y w j] := fun w j => congrFun (eb w) j
  have ec' : ∀ w j, AShare.mapLists (shuf f (n + 1) σ) ((c w j).drop n) = c1 w j ++ [z w j] := fun w j => congrFun (ec w) j
  have own : ∀ {p q : Bool → Party → List (AShare 128)} {m : Bool → Party → AShare 128},
      (∀ w j, AShare.mapLists (shuf f (n + 1) σ) ((p w j).drop n) = q w j ++ [m w j]) → p false i = p true i →
      q false i = q true i ∧ m false i = m true i := by
    intro p q m h hp
    have h1 := h false i
    rw [hp, h true i] at h1
    have := List.append_inj' h1 rfl
    exact ⟨this.1.symm, by simpa using this.2.symm⟩
  have third : ∀ {p q : Bool → Party → List (AShare 128)} {m : Bool → Party → AShare 128} {vv : List (BitVec 128)} {ll : BitVec 128},
      (∀ w j, AShare.mapLists (shuf f (n + 1) σ) ((p w j).drop n) = q w j ++ [m w j]) →
      (∀ w, shuf f (n + 1) σ ((thirds i (p w)).drop n) = List.zipWith (· ^^^ ·) ((thirds i (p w)).take n) vv ++ [ll]) →
      (∀ w, thirds i (q w) = List.zipWith (· ^^^ ·) ((thirds i (p w)).take n) vv) ∧ ∀ w, (m w i.prev).b = ll := by
    intro p q m vv ll h hp
    have key : ∀ w, thirds i (q w) ++ [(m w i.prev).b] = List.zipWith (· ^^^ ·) ((thirds i (p w)).take n) vv ++ [ll] := by
      intro w
      rw [← hp w]
      have := thirds_mapLists (i := i) (f := f) (n := n + 1) (σ := σ) fun j => (p w j).drop n
      have e : thirds i (fun j => (p w j).drop n) = (thirds i (p w)).drop n := by simp [thirds]
      rw [← e, ← this]
      simp only [h]
      simp [thirds]
    exact ⟨fun w => (List.append_inj' (key w) rfl).1, fun w => by simpa using (List.append_inj' (key w) rfl).2⟩
  obtain ⟨ia1, ix⟩ := own ea' ia
  obtain ⟨ib1, iy⟩ := own eb' ib
  obtain ⟨ic1, iz⟩ := own ec' ic
  obtain ⟨ta1, tx⟩ := third ea' hA
  obtain ⟨tb1, ty⟩ := third eb' hB
  have hu : u false = u true := value_eq hx ix (by rw [tx, tx])
  have hv : v false = v true := value_eq hy iy (by rw [ty, ty])
  have tz : (z false i.prev).b = (z true i.prev).b := third_eq hz (by rw [hu, hv]) iz
  unfold genRest
  refine LockS.bind_last ((permute_lock (n := n + 1) (a := fun w j => (a w j).drop n) (b := fun w j => (b w j).drop n)
    (c := fun w j => (c w j).drop n) hst (fun w j => by rw [List.length_drop, (hlen w j).1, e1])
    (fun w j => by rw [List.length_drop, (hlen w j).2.1, e1]) (fun w j => by rw [List.length_drop, (hlen w j).2.2, e1]) hs).mono ?_)
  rintro o t ⟨ho, hn, ht⟩
  rw [hσ] at ho
  subst ho
  simp only [ea', eb', ec']
  refine LockS.bind' (LockS.lift (a := fun w j => (x w j, a1 w j)) (fun _ _ => popE_snoc _ _) ?_)
  refine LockS.bind' (LockS.lift (a := fun w j => (y w j, b1 w j)) (fun _ _ => popE_snoc _ _) ?_)
  refine LockS.bind' (LockS.lift (a := fun w j => (z w j, c1 w j)) (fun _ _ => popE_snoc _ _) ?_)
  refine LockS.bind' ((openBinMany_lock (ss := fun w j => [x w j, y w j, z w j]) ht
    (fun w => Rels.cons (hx w) (Rels.cons (hy w) (Rels.singleton (hz w)))) (by simp only [ix, iy, iz]) ?_).mono ?_)
  · simp only [thirds, List.map_cons, List.map_nil, tx, ty, tz]
  rintro o _ ⟨rfl, -, ho⟩
  refine LockS.bind' (LockS.lift (a := fun w _ => u w) (fun w j => by rw [ho]; rfl) ?_)
  refine LockS.bind' (LockS.lift (a := fun w _ => v w) (fun w j => by rw [ho]; rfl) ?_)
  refine LockS.bind' (LockS.lift (a := fun w _ => u w &&& v w) (fun w j => by rw [ho]; rfl) ?_)
  refine LockS.ite_neg (fun w j => by simp) ?_
  have hT2 : ∀ w, TriplesOf n (fun j => (a w j).take n) (fun j => (b w j).take n) (fun j => (c w j).take n) :=
    fun w => triples_take (m := n) (hT w) (by omega)
  have tt : ∀ p : Party → List (AShare 128), thirds i (fun j => (p j).take n) = (thirds i p).take n := fun p => by simp [thirds]
  have tl : ∀ w, ((thirds i (a w)).take n).length = n ∧ ((thirds i (b w)).take n).length = n := fun w => by
    simp only [thirds, List.length_take, List.length_map, (hlen w _).1, (hlen w _).2.1]
    omega
  refine LockS.bind' ((verifyTriples_lock (H := H) (p := va) (q := vb) ht hT2 hT1 (by rw [ia]) (by rw [ib]) (by rw [ic]) ia1 ib1 ic1
    (fun w => ?_) fun w => ?_).mono ?_)
  · rw [tt, ta1, zipWith_xor_cancel (by rw [lva, (tl w).1])]
  · rw [tt, tb1, zipWith_xor_cancel (by rw [lvb, (tl w).2])]
  · rintro _ _ rfl
    refine LockS.lift (a := fun w j => (⟨(a w j).take n, (b w j).take n, (c w j).take n, 128⟩ : Triples)) (fun w j => ?_)
      ⟨funext fun w => funext fun j => hn.settle w j, rfl⟩
    rw [Triples.new, if_neg]
    simp [(hlen w j).1, (hlen w j).2.1, (hlen w j).2.2]

end Verif
