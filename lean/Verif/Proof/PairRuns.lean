import Verif.Proof.PairSpdzBin

namespace Verif

section Split

variable {α β σ : Type} {i : Party}

/-- A finished run of `p` followed by `k` consists of one of `p` and one of `k`, or `E` holds of the messages of the
corrupt party. -/
theorem PW.split_or {E : List Bytes → Prop} (hE : ∀ ms ms', E ms → E (ms ++ ms')) {p : Party → Prog α} {k : Party → α → Prog β} {Q : List Bytes → (Party → α) → Prop}
    (h : PW i p E Q) {r s : Party → Party → List Bytes} {out : Party → β}
    (hv : HonestViews (fun l => p l >>= k l) i.prev r s out) :
    E (r i i.prev) ∨ ∃ (r1 s1 r2 s2 : Party → Party → List Bytes) (o : Party → α), HonestViews p i.prev r1 s1 o ∧
      HonestViews (fun l => k l (o l)) i.prev r2 s2 out ∧
      (∀ l, l ≠ i.prev → r l = fun d => r1 l d ++ r2 l d) ∧ Q (r1 i i.prev) o := by
  have n1 := Party.next_ne i
  have n2 := Party.prev_ne i
  have n3 := Party.next_ne_prev i
  have hpart : ∀ l : Party, l ≠ i.prev → l = i ∨ l = i.next := (by decide : ∀ i l : Party, l ≠ i.prev → l = i ∨ l = i.next) i
  obtain ⟨x, r1, s1, r2, s2, a1, a2, e1, e2⟩ := Local.bind_ret (hv.run i n2.symm)
  obtain ⟨y, r3, s3, r4, s4, b1, b2, f1, f2⟩ := Local.bind_ret (hv.run i.next n3)
  have h3 : Compat (s i i.next) (r i.next i) := .inr (hv.chan i i.next n2.symm n3 n1.symm)
  have h4 : Compat (s i.next i) (r i i.next) := .inr (hv.chan i.next i n3 n2.symm n1)
  rw [e2, f1] at h3
  rw [f2, e1] at h4
  obtain he | ⟨g1, g2, o, o1, o2, hq⟩ := h (fun l => if l = i then r1 else r3) (fun l => if l = i then s1 else s3) x y
    (by simpa using a1) (by simpa [n1] using b1) (by simpa [n1] using h3.of_append) (by simpa [n1] using h4.of_append)
  · left
    rw [e1]
    exact hE _ _ (by simpa using he)
  right
  simp only [n1, if_true, if_false] at g1 g2 hq
  refine ⟨fun l => if l = i then r1 else r3, fun l => if l = i then s1 else s3, fun l => if l = i then r2 else r4,
    fun l => if l = i then s2 else s4, o, ⟨?_, ?_⟩, ⟨?_, ?_⟩, ?_, by simpa using hq⟩
  · intro l hl
    rcases hpart l hl with rfl | rfl
    · simpa [o1] using a1
    · simpa [n1, o2] using b1
  · intro l m hl hm hlm
    rcases hpart l hl with rfl | rfl <;> rcases hpart m hm with rfl | rfl
    · exact absurd rfl hlm
    · simp only [n1, if_true, if_false]; rw [g1]
    · simp only [n1, if_true, if_false]; rw [g2]
    · exact absurd rfl hlm
  · intro l hl
    rcases hpart l hl with rfl | rfl
    · simpa [o1] using a2
    · simpa [n1, o2] using b2
  · have c1 := hv.chan i i.next n2.symm n3 n1.symm
    have c2 := hv.chan i.next i n3 n2.symm n1
    rw [e2, f1] at c1
    rw [f2, e1] at c2
    simp only [g1] at c1
    simp only [g2] at c2
    intro l m hl hm hlm
    rcases hpart l hl with rfl | rfl <;> rcases hpart m hm with rfl | rfl
    · exact absurd rfl hlm
    · simp only [n1, if_true, if_false]; exact (List.prefix_append_right_inj _).1 c1
    · simp only [n1, if_true, if_false]; exact (List.prefix_append_right_inj _).1 c2
    · exact absurd rfl hlm
  · intro l hl
    rcases hpart l hl with rfl | rfl
    · simpa using e1
    · simpa [n1] using f1

/-- A finished run of `p` followed by `k` consists of one of `p` and one of `k`. -/
theorem PW.split {p : Party → Prog α} {k : Party → α → Prog β} {Q : List Bytes → (Party → α) → Prop}
    (h : PW i p (fun _ => False) Q) {r s : Party → Party → List Bytes} {out : Party → β}
    (hv : HonestViews (fun l => p l >>= k l) i.prev r s out) :
    ∃ (r1 s1 r2 s2 : Party → Party → List Bytes) (o : Party → α), HonestViews p i.prev r1 s1 o ∧
      HonestViews (fun l => k l (o l)) i.prev r2 s2 out ∧
      (∀ l, l ≠ i.prev → r l = fun d => r1 l d ++ r2 l d) ∧ Q (r1 i i.prev) o :=
  (PW.split_or (fun _ _ h => h) h hv).resolve_left fun h => h

/-- The same for stateful programs. -/
theorem PWS.split {p : Party → Proto σ α} {k : Party → α → Proto σ β} {st : Party → σ}
    {Q : List Bytes → (Party → α) → (Party → σ) → Prop} (h : PWS i p st (fun _ => False) Q)
    {r s : Party → Party → List Bytes} {out : Party → β × σ}
    (hv : HonestViews (fun l => (p l >>= k l) (st l)) i.prev r s out) :
    ∃ (r1 s1 r2 s2 : Party → Party → List Bytes) (o : Party → α × σ), HonestViews (fun l => p l (st l)) i.prev r1 s1 o ∧
      HonestViews (fun l => k l (o l).1 (o l).2) i.prev r2 s2 out ∧
      (∀ l, l ≠ i.prev → r l = fun d => r1 l d ++ r2 l d) ∧ Q (r1 i i.prev) (fun l => (o l).1) (fun l => (o l).2) :=
  PW.split (k := fun l (x : α × σ) => k l x.1 x.2) h hv

end Split

namespace Jmp

variable {G : Prg} {H : Hash} {i : Party} {st : Party → JmpSt G} {E : List Bytes → Prop}

theorem pairSeed_eq (hP : PrfOk fun k => (st k).prf) : pairSeed i (st i) (st i.next) = coinOf (seeds st) := by
  unfold pairSeed
  congr 1
  funext k
  have hpart : ∀ l : Party, l = i ∨ l = i.next ∨ l = i.prev := (by decide : ∀ i l : Party, l = i ∨ l = i.next ∨ l = i.prev) i
  rcases hpart k with rfl | rfl | rfl
  · simp [seeds]
  · simp [seeds, Party.next_ne]
  · rw [if_neg (Party.prev_ne i), if_neg ((by decide : ∀ i : Party, i.prev ≠ i.next) i), seeds, hP i]

/-- `open_bit`. -/
theorem openBit_pw {x : BitVec 1} {s : Party → AShare 1} (hs : BinSharesOf x s)
    {Q : List Bytes → (Party → Bool) → (Party → JmpSt G) → Prop}
    (hbad : ∀ m ms, Collision H m (toBytes (s i.next).a) → E (m :: ms))
    (hQ : ∀ ms st', Q ms (fun _ => bitVal x) st') : PWS i (fun k => openBit H k (s k)) st E Q := by
  have n1 := Party.next_ne i
  unfold openBit
  obtain ⟨p1, p2⟩ := hs.pair i
  refine PWS.bind (jmpVerify_pw ?_)
  intro _
  refine PWS.bind (jmpSendReceive_pw ?_)
  rintro w c rfl
  refine PWS.bind (jmpVerify_pw ?_)
  intro hh'
  simp only [cleared, List.nil_append, if_true] at hh'
  by_cases hw : w = (s i.next).a
  · subst hw
    apply PWS.ghost (PWS.pure (a := fun k => bitVal ((s k).a ^^^ (s k).b ^^^ if k = i then (s i.next).a else (s k.prev).b))
      (Q := fun _ a _ => a = fun k => bitVal ((s k).a ^^^ (s k).b ^^^ if k = i then (s i.next).a else (s k.prev).b)) rfl)
    rintro m a s' rfl
    refine ⟨fun _ => bitVal x, s', ?_, ?_, rfl, rfl, ?_⟩
    · simp only [if_true]; exact congrArg bitVal p1.symm
    · simp only [n1, if_false, Party.prev_next]
      rw [← p1, p2]; congr 1; bitwise
    · exact hQ _ _
  · refine PWS.bad fun ms => ?_
    exact hbad _ _ ⟨fun h => hw (toBytes_inj h), hh'⟩

end Jmp

namespace Spdz

open Jmp

variable {G : Prg} {V : Nat} {H : Hash} {i : Party} {st : Party → SpdzSt G V}

theorem Rels.pairWords {xs : List (BitVec 128)} {s : Party → List (AShare 128)} (h : Rels BinSharesOf xs s) (i : Party) :
    pairWords (s i) (s i.next) = xs := by
  induction xs generalizing s with
  | nil => rw [h.eq_nil]; rfl
  | cons x xs ih =>
    obtain ⟨b, ls, hb, h', rfl⟩ := h.uncons
    have := ih h'
    simp only [Spdz.pairWords] at this ⊢
    rw [List.zipWith_cons_cons, this, (hb.pair i).1]

theorem Rels.checkers {p w : Nat} {xs : List (BitVec 128)} {s : Party → List (AShare 128)} (h : Rels BinSharesOf xs s)
    (hl : xs.length = p) (hw : max w 8192 ≤ p) (seed : Bytes) :
    Rels BinSharesOf ((shuffledWords G seed (xs.take (max w 8192))).take w) (fun k => checkers G seed w (s k)) := by
  have hll : ∀ k, ((s k).take (max w 8192)).length = max w 8192 := fun k => by rw [List.length_take, h.length, hl]; omega
  have hlx : (xs.take (max w 8192)).length = max w 8192 := by rw [List.length_take, hl]; omega
  simp only [Spdz.checkers, shuffled_eq, hll, shuffledWords_eq, hlx]
  exact (BinSharesOf.mapLists (permC_linear _ _) hlx (h.take _)).take w

/-- `verify_triple_queue` with a corrupt party. -/
theorem verifyTripleQueue_pw' {w p : Nat} (hw : w ≠ 0) (hP : PrfOk fun k => (st k).jmp.prf)
    (hq : (st i).jmp.rcvQueueNext.length = (st i.next).jmp.sendQueuePrev.length)
    {xs ys zs xs' ys' zs' : List (BitVec 128)}
    (l0 : xs.length = w) (l1 : ys.length = w) (l2 : zs.length = w)
    (l3 : xs'.length = p) (l4 : ys'.length = p) (l5 : zs'.length = p)
    (ha : Rels BinSharesOf xs fun k => (st k).buffer.a) (hb : Rels BinSharesOf ys fun k => (st k).buffer.b)
    (hc : Rels BinSharesOf zs fun k => (st k).buffer.c)
    (hx : Rels BinSharesOf xs' fun k => (st k).prec.a) (hy : Rels BinSharesOf ys' fun k => (st k).prec.b)
    (hz : Rels BinSharesOf zs' fun k => (st k).prec.c) :
    PWS i (fun k => verifyTripleQueue H k) st (fun ms => queueCollision H i (st i) (st i.next) ms)
      (fun ms _ s => ∃ (m1 m2 d : Bytes) (j : Party → JmpSt G), ms = [m1, m2, d] ∧
        (st i).jmp.rcvQueueNext = (st i.next).jmp.sendQueuePrev ∧ Fresh j ∧ max w 8192 ≤ p ∧
        s = (fun k => { st k with
          jmp := j k
          buffer := Triples.empty
          prec := ⟨(st k).prec.a.drop (max w 8192), (st k).prec.b.drop (max w 8192), (st k).prec.c.drop (max w 8192), 128⟩ }) ∧
        (queueCollision H i (st i) (st i.next) ms ∨
        errorsOf xs ys zs = (shuffledWords G (pairSeed i (st i).jmp (st i.next).jmp)
          ((errorsOf xs' ys' zs').take (max w 8192))).take w)) := by
  have hlen : ∀ k, (st k).buffer.len = w := fun k => by rw [Triples.len, ha.length, l0]
  by_cases hnp : max w 8192 ≤ p
  · have hseed : pairSeed i (st i).jmp (st i.next).jmp = coinOf (seeds fun k => (st k).jmp) :=
      pairSeed_eq (st := fun k => (st k).jmp) hP
    have hsh : ∀ {L : List (BitVec 128)}, L.length = p → permC G (max w 8192 * 128) 0
        (G.ofSeed (pairSeed i (st i).jmp (st i.next).jmp)) (L.take (max w 8192)) =
        shuffledWords G (pairSeed i (st i).jmp (st i.next).jmp) (L.take (max w 8192)) := by
      intro L hL
      rw [shuffledWords_eq, List.length_take, hL, Nat.min_eq_left hnp]
    have he : (errorsOf xs' ys' zs').length = p := by simp [errorsOf, l3, l4, l5]
    have a1 := Rels.pairWords ha i
    have b1 := Rels.pairWords hb i
    have a2 := Rels.pairWords (Rels.checkers (G := G) hx l3 hnp (pairSeed i (st i).jmp (st i.next).jmp)) i
    have b2 := Rels.pairWords (Rels.checkers (G := G) hy l4 hnp (pairSeed i (st i).jmp (st i.next).jmp)) i
    have h := verifyTripleQueue_pw (H := H) (i := i) (n := max w 8192) hw rfl hnp hP hq l0 l1 l2 l3 l4 l5 ha hb hc hx hy hz hseed
    rw [hsh l3, hsh l4, hsh he] at h
    refine PWS.conseq h ?_ ?_
    · rintro ms ⟨m1, m2, rest, rfl, hcol⟩
      refine .inl ⟨m1, m2, rest, rfl, ?_⟩
      simp only [hlen]
      exact hcol
    · rintro ms _ s ⟨m1, m2, d, j, rfl, hqq, hF, rfl, hres⟩
      refine ⟨m1, m2, d, j, rfl, hqq, hF, hnp, rfl, hres.imp_left fun hcol => .inr ?_⟩
      simp only [hlen, a1, b1, a2, b2]
      exact hcol
  · unfold verifyTripleQueue
    refine PWS.bind (PWS.get ?_)
    simp only [hlen]
    refine PWS.ite_neg (fun k => hw) ?_
    refine PWS.bind (PWS.step ?_)
    refine PWS.bind (PWS.get ?_)
    refine PWS.bind (PWS.lift (Q := fun _ _ _ => _) fun a h1 _ => ?_)
    rw [Triples.get, if_pos] at h1
    · cases h1
    · have : (st i).prec.len = p := by rw [Triples.len, hx.length, l3]
      show (st i).prec.len < _
      rw [this]
      show p < max w 8192
      omega

theorem queueCollision_append {s s' : SpdzSt G V} {ms ms' : List Bytes} (h : queueCollision H i s s' ms) :
    queueCollision H i s s' (ms ++ ms') := by
  rcases h with ⟨m1, m2, rest, rfl, h⟩ | h
  · exact .inl ⟨m1, m2, rest ++ ms', by simp, h⟩
  · exact .inr h

theorem shuffledWords_zero {seed : Bytes} {l : List (BitVec 128)} (h : ∀ e ∈ l, e = 0) :
    ∀ e ∈ shuffledWords G seed l, e = 0 := by
  rw [shuffledWords_eq]
  have hz : ∀ k, wordBit l k = false := by
    intro k
    unfold wordBit
    by_cases hk : k / 128 < l.length
    · simp only [List.getD, List.getElem?_eq_getElem hk, Option.getD_some, h _ (List.getElem_mem hk)]
      simp
    · simp [List.getD, List.getElem?_eq_none (Nat.le_of_not_lt hk)]
  intro e he
  obtain ⟨j, hj, rfl⟩ := List.getElem_of_mem he
  refine BitVec.eq_of_getLsbD_eq fun b hb => ?_
  have h1 := wordBit_permC (l.length * 128) 0 (G.ofSeed seed) l (by omega) (128 * j + b)
  rw [hz] at h1
  unfold wordBit at h1
  rw [show (128 * j + b) / 128 = j by omega, show (128 * j + b) % 128 = b by omega] at h1
  simpa [List.getD, hj] using h1

theorem errorsOf_valid {xs ys : List (BitVec 128)} (h : xs.length = ys.length) :
    ∀ e ∈ errorsOf xs ys (List.zipWith (· &&& ·) xs ys), e = 0 := by
  intro e he
  unfold errorsOf at he
  obtain ⟨j, hj, rfl⟩ := List.getElem_of_mem he
  simp

/-- `verify` and `open_bit` at the end of a computation whose AND gates are recorded in the state, with valid precomputed
triples: the opened bit is the right one, unless there is a collision. -/
theorem verifyOpen_pw {st0 : Party → SpdzSt G V} {w : Prop} {u p : Nat} (hI : InvW st0 w u st) (hu : u ≠ 0)
    (hq : (st0 i).jmp.rcvQueueNext.length = (st0 i.next).jmp.sendQueuePrev.length)
    (hprec : TriplesOf p (fun k => (st0 k).prec.a) (fun k => (st0 k).prec.b) (fun k => (st0 k).prec.c))
    (hvq : ∀ k, (st0 k).verifyQueue = []) {x : BitVec 1} {c : Party → AShare 1} (hc : RelW w 1 x c) :
    PWS i (fun k => verify H k >>= fun _ => openBit H k (c k)) st
      (fun ms => queueCollision H i (st i) (st i.next) ms ∨
        ∃ m1 m2 d m rest, ms = m1 :: m2 :: d :: m :: rest ∧ Collision H m (toBytes (c i.next).a))
      (fun _ o _ => o = fun _ => bitVal x) := by
  obtain ⟨P, t, rfl, hP, bits, e, ⟨words, xs, ys, zs, hlx, hly, hlz, hxs, hys, hzs, he, hb, hb1, hb2, hw⟩, hpad, hno⟩ := hI
  obtain ⟨xs', ys', lx', ly', hx', hy', hz'⟩ := hprec
  obtain ⟨x', hc, hcx⟩ := hc
  have hw0 : words ≠ 0 := by rintro rfl; omega
  refine PWS.bind ?_
  unfold verify
  refine PWS.bind ?_
  unfold verifyMacs
  refine PWS.bind (PWS.get ?_)
  refine PWS.congr (q := fun k => (Pure.pure () : Proto (SpdzSt G V) Unit)) (fun k => ?_) ?_
  · simp [hvq]
  refine PWS.pure (a := fun _ => ()) ?_
  refine PWS.conseq (verifyTripleQueue_pw' (H := H) (i := i) (w := words) (p := p)
    (zs' := List.zipWith (· &&& ·) xs' ys') (st := fun k => { st0 k with jmp := { (st0 k).jmp with prf := P k }, buffer := t k }) hw0 (by exact hP) (by exact hq)
    hlx hly hlz lx' ly' (by rw [List.length_zipWith, lx', ly', Nat.min_self]) hxs hys hzs (by exact hx') (by exact hy') (by exact hz')) ?_ ?_
  · intro ms h ms'
    exact .inl (queueCollision_append (by simpa using h))
  rintro ms _ s ⟨m1, m2, d, j, rfl, -, hF, -, rfl, hres⟩
  rcases hres with hcol | hres
  · exact PWS.bad fun ms' => .inl (queueCollision_append (by simpa using hcol))
  have h0 : ∀ a ∈ e, a = 0 := by
    intro a ha
    rw [← he, hres] at ha
    refine shuffledWords_zero (fun b hb => ?_) a (List.mem_of_mem_take ha)
    exact errorsOf_valid (by rw [lx', ly']) b (List.mem_of_mem_take hb)
  obtain rfl := hcx (hno (noErr_of_zero h0))
  unfold openBit viaJmp
  refine PWS.zoom (openBit_pw hc ?_ ?_)
  · intro m ms hcol
    exact .inr ⟨m1, m2, d, m, ms, by simp, hcol⟩
  · intro _ _
    rfl

theorem BufW.empty {t : Party → Triples} (ht : ∀ k, t k = Triples.empty) : BufW True 0 t := by
  obtain rfl : t = fun _ => Triples.empty := funext ht
  refine ⟨128, [], ⟨0, [], [], [], rfl, rfl, rfl, Rels.nil, Rels.nil, Rels.nil, rfl, fun _ => rfl, by omega, by omega,
    by omega⟩, ?_, fun _ => trivial⟩
  simp [Padded]

end Spdz

end Verif
