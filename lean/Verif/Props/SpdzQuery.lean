import Verif.Proof.PairIris
import Verif.Props.SpdzMac
import Verif.Props.SpdzIris

namespace Verif

section

variable {α β σ : Type} {i : Party}

theorem Local.unwrap_bind {p : Prog α} {k : α → Prog β} {r s : Party → List Bytes} {a : β}
    (h : Local (p.unwrap >>= k) r s (.ret a)) : Local (p >>= k) r s (.ret a) := by
  induction p generalizing r s with
  | ret b => exact h
  | fail e =>
    obtain ⟨-, -, e⟩ := Local.fail_inv h
    cases e
  | send d m k ih =>
    obtain ⟨s', rfl, h'⟩ := Local.send_ret h
    exact .send (ih h')
  | recv j k ih =>
    obtain ⟨m, r', rfl, h'⟩ := Local.recv_ret h
    exact .recv (ih m h')

theorem PWS.unwrap_bind {p : Party → Proto σ α} {k : Party → α → Proto σ β} {st : Party → σ} {E : List Bytes → Prop}
    {Q : List Bytes → (Party → β) → (Party → σ) → Prop} (h : PWS i (fun l => p l >>= k l) st E Q) :
    PWS i (fun l => Proto.unwrap (p l) >>= k l) st E Q := by
  intro r s a b h1 h2
  exact h r s a b (Local.unwrap_bind h1) (Local.unwrap_bind h2)

/-- Only the programs of the honest parties matter. -/
theorem HonestViews.congr {p q : Party → Prog α} {c : Party} {r s : Party → Party → List Bytes} {out : Party → α}
    (h : HonestViews p c r s out) (hpq : ∀ k, k ≠ c → q k = p k) : HonestViews q c r s out :=
  ⟨fun k hk => by rw [hpq k hk]; exact h.run k hk, h.chan⟩

end

open Jmp Spdz

variable {G : Prg} {H : Hash} {K : Nat}

/-- The comparisons and the disjunction of a query: everything between `precompute_and_triples` and `verify`. -/
def queryBit (G : Prg) (H : Hash) (sg : Bool) (cs : Nat) (k : Party) (a : List (SShare (verifWidth K)))
    (b : List (List (SShare (verifWidth K)))) (maskA : IrisCodeArray) (masks : List IrisCodeArray) :
    Proto (SpdzSt G (verifWidth K)) (AShare 1) := do
  let bools ← Iris.chunkLoop (ops G H K sg k) a maskA ((chunksOf cs b).zip (chunksOf cs masks))
  reduceBinaryOr k bools cs

theorem requested_eq (n cs : Nat) : (MpcLawful.queryAnds K n cs + 127) / 128 = wordsRequested K n cs := by
  unfold wordsRequested MpcLawful.queryAnds
  rw [Nat.mul_comm K 2]

theorem irisInDb_eq (hK : 15 ≤ K) {cs : Nat} (hcs : cs ≠ 0) {db : List IrisCode} (hov : (db.length + cs) * (2 * K) < 2 ^ 64)
    (sg : Bool) (k : Party) {a : List (SShare (verifWidth K))} {b : List (List (SShare (verifWidth K)))}
    (hl : b.length = db.length) (hne : db ≠ []) (maskA : IrisCodeArray) (masks : List IrisCodeArray) (hm : db.length = masks.length) :
    Iris.irisInDb (ops G H K sg k) a b maskA masks cs =
      (precompute H k (MpcLawful.queryAnds K db.length cs) >>= fun _ =>
        queryBit G H sg cs k a b maskA masks >>= fun c => Proto.unwrap (verify H k) >>= fun _ => Spdz.openBit H k c) := by
  unfold Iris.irisInDb
  rw [if_neg (by rw [hl, ← hm]; simp [hne]), hl, MpcLawful.numAndTriples_ok hK hcs hov]
  have hch : ∀ {X : Type} (l : List X), chunksE cs l = .ok (chunksOf cs l) := fun l => by unfold chunksE; rw [if_neg hcs]
  rw [hch, hch]
  unfold queryBit
  simp only [bind_assoc]
  rfl

/-- The conclusion of `C67_run_query` for the part of the query after `precompute_and_triples`. -/
theorem query_tail (hK : 15 ≤ K) (hK2 : K ≤ 128) (sg : Bool) (i : Party) (st : Party → SpdzSt G (verifWidth K))
    (hP : PrfOk fun k => (st k).jmp.prf)
    (hq : (st i).jmp.rcvQueueNext.length = (st i.next).jmp.sendQueuePrev.length)
    (hbuf : ∀ k, (st k).buffer = Triples.empty) (hvq : ∀ k, (st k).verifyQueue = [])
    (key : BitVec (verifWidth K)) (hkey : SharesOf key fun k => (st k).macKey)
    (q : IrisCode) (db : List IrisCode) (hne : db ≠ []) (hm : ∀ c ∈ db, 8960 ≤ commonBits c q)
    (a : Party → List (SShare (verifWidth K))) (b : Party → List (List (SShare (verifWidth K))))
    (ha : Rels (MacSharesOf key) (encode _ q.code) a)
    (hb : Rels (Rels (MacSharesOf key)) (db.map fun c => encode _ c.code) b)
    (cs : Nat) (hcs : cs ≠ 0) (p : Nat)
    (hprec : TriplesOf p (fun k => (st k).prec.a) (fun k => (st k).prec.b) (fun k => (st k).prec.c))
    (rcvd sent : Party → Party → List Bytes) (out : Party → Bool × SpdzSt G (verifWidth K))
    (hv : HonestViews (fun k => (queryBit G H sg cs k (a k) (b k) q.mask (db.map fun c => c.mask) >>= fun c =>
        Proto.unwrap (verify H k) >>= fun _ => Spdz.openBit H k c) (st k)) i.prev rcvd sent out) :
    ∃ (r1 s1 r2 s2 : Party → Party → List Bytes) (mid : Party → AShare 1 × SpdzSt G (verifWidth K)),
      HonestViews (fun k => queryBit G H sg cs k (a k) (b k) q.mask (db.map fun c => c.mask) (st k)) i.prev r1 s1 mid ∧
      HonestViews (fun k => (Proto.unwrap (verify H k) >>= fun _ => Spdz.openBit H k (mid k).1) (mid k).2) i.prev r2 s2 out ∧
      (∀ l, l ≠ i.prev → rcvd l = fun d => r1 l d ++ r2 l d) ∧
      (ForgedIn H sg i key a q.mask st (fun k => chunksOf cs (b k)) (chunksOf cs (db.map fun c => c.mask)) r1 ∨
        queueCollision H i (mid i).2 (mid i.next).2 (r2 i i.prev) ∨
        (∃ m1 m2 d m rest, r2 i i.prev = m1 :: m2 :: d :: m :: rest ∧ Collision H m (toBytes (mid i.next).1.a)) ∨
        (out i).1 = inDb q db ∧ (out i.next).1 = inDb q db) := by
  have hI : InvW st True 0 st := ⟨fun k => (st k).jmp.prf, fun k => (st k).buffer, rfl, hP, BufW.empty hbuf⟩
  have hb' : Rels (Rels (Rels (MacSharesOf key))) ((chunksOf cs db).map fun cs => cs.map fun c => encode (verifWidth K) c.code)
      (fun k => chunksOf cs (b k)) := by
    obtain ⟨ch, hch, ech⟩ := Rels.chunksE hb hcs
    rw [MpcLawful.chunksOf_map'] at hch
    have : ch = fun k => chunksOf cs (b k) := by
      funext k
      have := ech k
      unfold chunksE at this
      rw [if_neg hcs] at this
      exact (Except.ok.inj this).symm
    rw [this] at hch
    exact hch
  have hm' : ∀ ch ∈ chunksOf cs db, ∀ c ∈ ch, 8960 ≤ commonBits q c := fun ch hc c hcc => by
    rw [MpcLawful.commonBits_comm]; exact hm c (MpcLawful.mem_of_mem_chunksOf hc hcc)
  have hmask : chunksOf cs (db.map fun c => c.mask) = (chunksOf cs db).map fun cs => cs.map fun c => c.mask :=
    MpcLawful.chunksOf_map' _ _ _
  have L := lawfulW (i := i) st
  have hlen : 0 < db.length := List.length_pos_iff.2 hne
  have hA : PWS i (fun k => queryBit G H sg cs k (a k) (b k) q.mask (db.map fun c => c.mask)) st (fun _ => False)
      (fun _ _ _ => True) := by
    unfold queryBit
    rw [hmask]
    refine PWS.bind (PWS.conseq (loop_pw hK hK2 sg hkey hvq ha (chunksOf cs db) (MpcLawful.mem_chunksOf_ne cs db) hm' hb' hI)
      (fun _ h => h.elim) ?_)
    rintro m o s ⟨w1, -, ⟨u1, hI1⟩, bs, hbs, lbs⟩
    rw [chunksOf_flatten hcs] at lbs
    refine PWS.conseq (L.reduceBinaryOr hcs (by rintro rfl; simp at lbs; omega) hI1 hbs) (fun _ h => h.elim)
      fun _ _ _ _ => trivial
  obtain ⟨r1, s1, r2, s2, mid, v1, v2, er, -⟩ := PWS.split hA hv
  refine ⟨r1, s1, r2, s2, mid, v1, v2, er, ?_⟩
  have v1' := v1
  unfold queryBit at v1'
  rw [hmask] at v1' ⊢
  obtain ⟨r3, s3, o, v3, w1, -, ⟨u1, hI1⟩, bs, hbs, lbs, hbits⟩ :=
    loop_split hK hK2 sg hkey hvq ha (chunksOf cs db) (MpcLawful.mem_chunksOf_ne cs db) hm' hb' hI v1'
  rw [chunksOf_flatten hcs] at lbs hbits
  rcases hbits with hf | rfl
  · exact .inl hf
  right
  have hbne : (db.map fun c => bitOf (MpcLawful.closeBit q c)) ≠ [] := by simpa using hne
  have hred : PWS i (fun k => reduceBinaryOr k (o k).1 cs) (fun k => (o k).2) (fun _ => False)
      (fun _ c s => ∃ w', (w' → w1) ∧ RelW w' 1 (BinLawful.orAll (db.map fun c => bitOf (MpcLawful.closeBit q c))) c ∧
        ∃ u', u' ≠ 0 ∧ InvW st w' u' s) :=
    PWS.conseq (L.reduceBinaryOr hcs hbne hI1 hbs) (fun _ h => h) fun _ _ _ ⟨w', h1, h2, h3⟩ =>
      ⟨w', h1, h2, _, by omega, h3⟩
  rcases hred.views v3 with h | ⟨o', o1, o2, w2, -, hc, u2, hu2, hI2⟩
  · exact h.elim
  have v4 : HonestViews (fun k => (Proto.unwrap (verify H k) >>= fun _ => Spdz.openBit H k (o' k).1) (o' k).2) i.prev r2 s2
      out := by
    refine v2.congr fun k hk => ?_
    rcases (by decide : ∀ i l : Party, l ≠ i.prev → l = i ∨ l = i.next) i k hk with rfl | rfl
    · rw [o1]
    · rw [o2]
  rcases (PWS.unwrap_bind (verifyOpen_pw (H := H) hI2 hu2 hq hprec hvq hc)).views v4 with (h | h) | ⟨o2', q1, q2, h⟩
  · rw [← o1, ← o2]; exact .inl h
  · rw [← o2]; exact .inr (.inl h)
  · right; right
    have g1 := congrFun h i
    have g2 := congrFun h i.next
    beta_reduce at g1 g2
    rw [q1] at g1
    rw [q2] at g2
    rw [g1, g2, and_self, FamLawful.orAll_bits]
    have hbit : ∀ b : Bool, bitVal (bitOf b) = b := by decide
    rw [hbit, List.any_map, inDb]
    congr 1
    funext c
    simp only [Function.comp_def, hbit, MpcLawful.closeBit]
    rw [MpcLawful.hammingDistance_comm, MpcLawful.commonBits_comm]

/-- A query over the SPDZ-wise backend with any corrupt party, with enough valid precomputed triples: honest parties that
finish both output whether the database contains a match; unless the corrupt party has forged the MAC check of a chunk
whose inner products it has changed (`ForgedIn`), or one of three named pairs of strings hashed by the honest parties is a
collision. (`mid` are the results and states of the honest parties before `verify`.) -/
theorem C67_run_query (hK : 15 ≤ K) (hK2 : K ≤ 128) (sg : Bool) (i : Party) (st : Party → SpdzSt G (verifWidth K))
    (hP : PrfOk fun k => (st k).jmp.prf)
    (hq : (st i).jmp.rcvQueueNext.length = (st i.next).jmp.sendQueuePrev.length)
    (hbuf : ∀ k, (st k).buffer = Triples.empty) (hvq : ∀ k, (st k).verifyQueue = [])
    (key : BitVec (verifWidth K)) (hkey : SharesOf key fun k => (st k).macKey)
    (q : IrisCode) (db : List IrisCode) (hne : db ≠ []) (hm : ∀ c ∈ db, 8960 ≤ commonBits c q)
    (a : Party → List (SShare (verifWidth K))) (b : Party → List (List (SShare (verifWidth K))))
    (ha : Rels (MacSharesOf key) (encode _ q.code) a)
    (hb : Rels (Rels (MacSharesOf key)) (db.map fun c => encode _ c.code) b)
    (cs : Nat) (hcs : cs ≠ 0) (hov : (db.length + cs) * (2 * K) < 2 ^ 64)
    (p : Nat) (hp : wordsRequested K db.length cs < p)
    (hprec : TriplesOf p (fun k => (st k).prec.a) (fun k => (st k).prec.b) (fun k => (st k).prec.c))
    (rcvd sent : Party → Party → List Bytes) (out : Party → Bool × SpdzSt G (verifWidth K))
    (hv : HonestViews (fun k => Iris.irisInDb (ops G H K sg k) (a k) (b k) q.mask (db.map fun c => c.mask) cs (st k))
      i.prev rcvd sent out) :
    ∃ (r1 s1 r2 s2 : Party → Party → List Bytes) (mid : Party → AShare 1 × SpdzSt G (verifWidth K)),
      HonestViews (fun k => queryBit G H sg cs k (a k) (b k) q.mask (db.map fun c => c.mask) (st k)) i.prev r1 s1 mid ∧
      HonestViews (fun k => (Proto.unwrap (verify H k) >>= fun _ => Spdz.openBit H k (mid k).1) (mid k).2) i.prev r2 s2 out ∧
      (∀ l, l ≠ i.prev → rcvd l = fun d => r1 l d ++ r2 l d) ∧
      (ForgedIn H sg i key a q.mask st (fun k => chunksOf cs (b k)) (chunksOf cs (db.map fun c => c.mask)) r1 ∨
        queueCollision H i (mid i).2 (mid i.next).2 (r2 i i.prev) ∨
        (∃ m1 m2 d m rest, r2 i i.prev = m1 :: m2 :: d :: m :: rest ∧ Collision H m (toBytes (mid i.next).1.a)) ∨
        (out i).1 = inDb q db ∧ (out i.next).1 = inDb q db) := by
  refine query_tail hK hK2 sg i st hP hq hbuf hvq key hkey q db hne hm a b ha hb cs hcs p hprec rcvd sent out
    (hv.congr fun k _ => ?_)
  rw [irisInDb_eq hK hcs hov sg k (by rw [hb.length, List.length_map]) hne _ _ (by simp)]
  have hpre : precompute H k (MpcLawful.queryAnds K db.length cs) (st k) = .ret ((), st k) := by
    have hl : (st k).prec.len = p := by
      obtain ⟨xs, ys, lx, ly, hx, -⟩ := hprec
      have := hx.length k
      rw [lx] at this
      exact this
    unfold precompute
    show (if _ then _ else _ : Proto _ Unit) (st k) = _
    rw [if_neg]
    · rfl
    · rw [hl, requested_eq]; omega
  rw [bind_of_ret hpre]

theorem BinPairsOf.complete {i : Party} {X : List (BitVec K)} {l l' : List (AShare K)} (h : BinPairsOf i X l l') :
    ∃ m : List (AShare K), Rels BinSharesOf X fun k => if k = i then l else if k = i.next then l' else m := by
  obtain ⟨hl, h⟩ := h
  induction X generalizing l l' with
  | nil =>
    have h' := h.length_eq
    have h0 : l = [] := by
      rw [List.length_zip, ← hl, min_self] at h'
      exact List.length_eq_zero_iff.1 h'.symm
    subst h0
    have h1 : l' = [] := by simpa using hl.symm
    subst h1
    exact ⟨[], by simpa using Rels.nil⟩
  | cons x X ih =>
    cases l with
    | nil => cases h
    | cons s l =>
      cases l' with
      | nil => simp at hl
      | cons s' l' =>
        rw [List.zip_cons_cons, List.forall₂_cons] at h
        obtain ⟨m, hm⟩ := ih (by simpa using hl) h.2
        refine ⟨⟨s.b, s'.a⟩ :: m, ?_⟩
        have := Rels.cons (R := BinSharesOf) (x := x)
          (b := fun k => if k = i then s else if k = i.next then s' else ⟨s.b, s'.a⟩) ?_ hm
        · refine (congrArg (Rels BinSharesOf (x :: X)) ?_).mp this
          funext k
          split
          · rfl
          · split <;> rfl
        · obtain ⟨h1, h2⟩ := h.1
          have e0 : (0 : Party) ≠ 1 := by decide
          refine ⟨?_, ?_⟩
          · rw [← h1]
            rcases (by decide : ∀ i : Party, i = 0 ∨ i = 1 ∨ i = 2) i with rfl | rfl | rfl
            · simp [show (0 : Party).next = 1 from rfl]; bitwise
            · simp [show (1 : Party).next = 2 from rfl]; bitwise
            · simp [show (2 : Party).next = 0 from rfl]; bitwise
          · intro k
            rcases (by decide : ∀ i l : Party, l = i ∨ l = i.next ∨ l = i.prev) i k with rfl | rfl | rfl
            · simp [(Party.prev_ne k), (Party.next_ne_prev k).symm]
            · simpa [Party.next_ne, Party.prev_next] using h2
            · simp [(Party.prev_ne i), (Party.next_ne_prev i).symm, (by decide : ∀ i : Party, i.prev.prev = i.next), Party.next_ne]

/-- The end of `precompute_and_triples`. -/
def addTriples {V : Nat} (new : Triples) : Proto (SpdzSt G V) Unit := do
  let s ← get
  let prec ← Proto.lift (s.prec.extend new)
  Proto.step fun s : SpdzSt G V => ((), { s with prec := prec })

theorem addTriples_ret {V : Nat} {s : SpdzSt G V} {new t : Triples} (h : s.prec.extend new = .ok t) :
    addTriples new s = .ret ((), { s with prec := t }) := by
  have e : addTriples new s = (Proto.lift (s.prec.extend new) >>= fun prec =>
    Proto.step fun s : SpdzSt G V => ((), { s with prec := prec })) s := rfl
  rw [e, h]
  rfl

theorem irisInDb_generate (hK : 15 ≤ K) {entries cs p : Nat} (hcs : cs ≠ 0) (hov : (entries + cs) * (2 * K) < 2 ^ 64)
    (hp : p ≤ wordsRequested K entries cs) (sg : Bool) (k : Party) {st : SpdzSt G (verifWidth K)} (hl : st.prec.len = p)
    {db : List IrisCode} (hne : db ≠ []) (hlen : db.length = entries) {a : List (SShare (verifWidth K))}
    {b : List (List (SShare (verifWidth K)))} (hb : b.length = db.length) (mask : IrisCodeArray) :
    Iris.irisInDb (ops G H K sg k) a b mask (db.map fun c => c.mask) cs st =
      (generateTriples H k (wordsRequested K entries cs - p) >>= fun new => addTriples new >>= fun _ =>
        queryBit G H sg cs k a b mask (db.map fun c => c.mask) >>= fun c =>
        Proto.unwrap (verify H k) >>= fun _ => Spdz.openBit H k c) st := by
  rw [irisInDb_eq hK hcs (db := db) (by rw [hlen]; exact hov) sg k hb hne _ _ (by simp)]
  have e : precompute H k (MpcLawful.queryAnds K db.length cs) st =
      (generateTriples H k (wordsRequested K entries cs - p) >>= addTriples) st := by
    have e : precompute H k (MpcLawful.queryAnds K db.length cs) st =
        (if st.prec.len ≤ (MpcLawful.queryAnds K db.length cs + 127) / 128 then
          generateTriples H k ((MpcLawful.queryAnds K db.length cs + 127) / 128 - st.prec.len) >>= addTriples
        else pure ()) st := rfl
    rw [e, if_pos (by rw [hl, requested_eq, hlen]; exact hp), hl, requested_eq, hlen]
  show (precompute H k (MpcLawful.queryAnds K db.length cs) st >>= _) = _
  rw [e, ← bind_assoc]
  rfl

/-- A query over the SPDZ-wise backend with any corrupt party, from a state with too few triples (usually none), so that it
starts with `generate_triples`. The corrupt party chooses the errors `E` of its components of the new triples. Except for
`bad`, at most one in `N = 128 (n + 1)` of the `N!` sequences of draws of the shuffle: honest parties that finish both output
whether the database contains a match, unless one of two named pairs of strings hashed during the generation is a collision
or one of the exceptions of `C67_run_query` holds of the rest of the run, which starts with the generated triples. -/
theorem C67_run_fresh (hK : 15 ≤ K) (hK2 : K ≤ 128) (entries cs p n : Nat) (hcs : cs ≠ 0)
    (hov : (entries + cs) * (2 * K) < 2 ^ 64) (hp : p ≤ wordsRequested K entries cs)
    (hn : n = max (wordsRequested K entries cs - p) 8192) (E : List (BitVec 128)) (hE : E.length = 2 * n + 1) :
    ∃ bad : Finset (List Nat), bad ⊆ drawSeqs (128 * (n + 1)) ∧ bad.card * (128 * (n + 1)) ≤ (128 * (n + 1)).factorial ∧
      ∀ (sg : Bool) (i : Party) (st : Party → SpdzSt G (verifWidth K)), (PrfOk fun k => (st k).jmp.prf) →
      (st i).jmp.rcvQueueNext.length = (st i.next).jmp.sendQueuePrev.length →
      (∀ k, (st k).buffer = Triples.empty) → (∀ k, (st k).verifyQueue = []) →
      TriplesOf p (fun k => (st k).prec.a) (fun k => (st k).prec.b) (fun k => (st k).prec.c) →
      ∀ key : BitVec (verifWidth K), (SharesOf key fun k => (st k).macKey) →
      ∀ (q : IrisCode) (db : List IrisCode), db ≠ [] → db.length = entries → (∀ c ∈ db, 8960 ≤ commonBits c q) →
      ∀ (a : Party → List (SShare (verifWidth K))) (b : Party → List (List (SShare (verifWidth K)))),
      Rels (MacSharesOf key) (encode _ q.code) a → Rels (Rels (MacSharesOf key)) (db.map fun c => encode _ c.code) b →
      ∀ (x y : Party → List (AShare 128)) (zs : Party → List (BitVec 128)) (st1 : Party → JmpSt G),
      (∀ k, andDraws n (st k).jmp = .ret ((x k, y k, zs k), st1 k)) →
      ∀ (A B : List (BitVec 128)), Rels BinSharesOf A x → Rels BinSharesOf B y →
      ∀ seed : Bytes, seed = (coinOf fun k => (G.genSeed (st1 k).prf.my).1) →
      ∀ (rcvd sent : Party → Party → List Bytes) (out : Party → Bool × SpdzSt G (verifWidth K)),
      HonestViews (fun k => Iris.irisInDb (ops G H K sg k) (a k) (b k) q.mask (db.map fun c => c.mask) cs (st k))
        i.prev rcvd sent out →
      (rcvd i i.prev).head? = some (ringSliceToBytes (List.zipWith (· ^^^ ·) (zs i.prev) E)) →
      shuffleDraws G (128 * (n + 1)) (G.ofSeed seed) ∉ bad →
      (∃ m0 m1 m2 m3 rest, rcvd i i.prev = m0 :: m1 :: m2 :: m3 :: rest ∧
        Collision H ((st i).jmp.rcvQueueNext ++ m1 ++ m3)
          ((st i.next).jmp.sendQueuePrev ++ ringSliceToBytes (K := 8) (G.genSeed (st1 i.next).prf.my).1 ++ ringSliceToBytes
            ((pqShares ((x i.next).take n) ((y i.next).take n) (shuffled G seed ((x i.next).drop n)).dropLast
              (shuffled G seed ((y i.next).drop n)).dropLast).map (·.a)))) ∨
      Collision H
        ((tripleChecks i ((x i).take n) ((y i).take n)
          ((List.zipWith AShare.mk (zs i) (List.zipWith (· ^^^ ·) (zs i.prev) E)).take n)
          (shuffled G seed ((List.zipWith AShare.mk (zs i) (List.zipWith (· ^^^ ·) (zs i.prev) E)).drop n)).dropLast
          (List.zipWith (· ^^^ ·) (A.take n) (shuffledWords G seed (A.drop n)).dropLast)
          (List.zipWith (· ^^^ ·) (B.take n) (shuffledWords G seed (B.drop n)).dropLast)).flatMap (binZeroBytes i))
        ((tripleChecks i.next ((x i.next).take n) ((y i.next).take n)
          ((List.zipWith AShare.mk (zs i.next) (zs i)).take n)
          (shuffled G seed ((List.zipWith AShare.mk (zs i.next) (zs i)).drop n)).dropLast
          (List.zipWith (· ^^^ ·) (A.take n) (shuffledWords G seed (A.drop n)).dropLast)
          (List.zipWith (· ^^^ ·) (B.take n) (shuffledWords G seed (B.drop n)).dropLast)).flatMap (binZeroBytes i.next)) ∨
      ∃ (r0 s0 r1 s1 r2 s2 : Party → Party → List Bytes) (gen : Party → Triples × SpdzSt G (verifWidth K))
        (st2 : Party → SpdzSt G (verifWidth K)) (mid : Party → AShare 1 × SpdzSt G (verifWidth K)),
        HonestViews (fun k => generateTriples H k (wordsRequested K entries cs - p) (st k)) i.prev r0 s0 gen ∧
        (∀ k, k ≠ i.prev → ∃ t, (st k).prec.extend (gen k).1 = .ok t ∧ st2 k = { (gen k).2 with prec := t }) ∧
        (PrfOk fun k => (st2 k).jmp.prf) ∧ (∀ k, (st2 k).macKey = (st k).macKey) ∧
        HonestViews (fun k => queryBit G H sg cs k (a k) (b k) q.mask (db.map fun c => c.mask) (st2 k)) i.prev r1 s1 mid ∧
        HonestViews (fun k => (Proto.unwrap (verify H k) >>= fun _ => Spdz.openBit H k (mid k).1) (mid k).2) i.prev r2 s2
          out ∧
        (∀ l, l ≠ i.prev → rcvd l = fun d => r0 l d ++ (r1 l d ++ r2 l d)) ∧
        (ForgedIn H sg i key a q.mask st2 (fun k => chunksOf cs (b k)) (chunksOf cs (db.map fun c => c.mask)) r1 ∨
          queueCollision H i (mid i).2 (mid i.next).2 (r2 i i.prev) ∨
          (∃ m1 m2 d m rest, r2 i i.prev = m1 :: m2 :: d :: m :: rest ∧ Collision H m (toBytes (mid i.next).1.a)) ∨
          (out i).1 = inDb q db ∧ (out i.next).1 = inDb q db) := by
  obtain ⟨bad, hb1, hb2, hbad⟩ := C60_run_valid (G := G) (V := verifWidth K) (H := H) (wordsRequested K entries cs - p) n hn E hE
  refine ⟨bad, hb1, hb2, ?_⟩
  intro sg i st hP hq hbuf hvq hprec key hkey q db hne hlen hm a b ha hb x y zs st1 hd A B hA hB seed hseed rcvd sent out hv
    hhead hdraw
  have hplen : ∀ k, (st k).prec.len = p := fun k => by
    obtain ⟨xs, ys, lx, ly, hx, -⟩ := hprec
    have := hx.length k
    rw [lx] at this
    exact this
  have hprog := fun k => irisInDb_generate (H := H) hK hcs hov hp sg k (hplen k) hne hlen (a := a k) (b := b k)
    (by rw [hb.length, List.length_map]) q.mask
  have hpw := generateTriples_pw (H := H) (i := i) (wordsRequested K entries cs - p) (n := n) hn.symm hP hq hd hA hB
  rcases PW.split_or (by
      rintro ms ms' ⟨m0, m1, m2, m3, rest, rfl, h⟩
      exact ⟨m0, m1, m2, m3, rest ++ ms', rfl, h⟩) hpw (k := fun k (o : Triples × SpdzSt G (verifWidth K)) => (addTriples o.1 >>= fun _ =>
        queryBit G H sg cs k (a k) (b k) q.mask (db.map fun c : IrisCode => c.mask) >>= fun c =>
        Proto.unwrap (verify H k) >>= fun _ => Spdz.openBit H k c) o.2) (hv.congr fun k _ => (hprog k).symm) with
    h | ⟨r0, s0, r3, s3, gen, v0, v3, er, z, m1, m2, m3, d, j, e, hz, -, hj, hs, -⟩
  · rw [show coinOf (seeds st1) = seed from hseed.symm] at h
    exact .inl h
  · have hhead' : (r0 i i.prev).head? = some (ringSliceToBytes (List.zipWith (· ^^^ ·) (zs i.prev) E)) := by
      rw [er i (Party.prev_ne i).symm] at hhead
      beta_reduce at hhead
      rw [e] at hhead ⊢
      exact hhead
    rcases hbad i st hP hq x y zs st1 hd A B hA hB seed hseed r0 s0 gen v0 hhead' hdraw with
      ⟨m0, m1, m2, m3, rest, e, h⟩ | h | ⟨t1, t2, ta, tb, tc⟩
    · refine .inl ⟨m0, m1, m2, m3, rest ++ r3 i i.prev, ?_, h⟩
      rw [er i (Party.prev_ne i).symm]
      beta_reduce
      rw [e]
      rfl
    · exact .inr (.inl h)
    · right; right
      obtain ⟨xs, ys, lx, ly, hx, hy, hz'⟩ := hprec
      obtain ⟨ma, ha'⟩ := ta.complete
      obtain ⟨mb, hb'⟩ := tb.complete
      obtain ⟨mc, hc'⟩ := tc.complete
      obtain ⟨P, hPdef⟩ : ∃ P : Party → Triples, P = fun k => ⟨(st k).prec.a ++ (if k = i then (gen i).1.a else if k = i.next
          then (gen i.next).1.a else ma), (st k).prec.b ++ (if k = i then (gen i).1.b else if k = i.next
          then (gen i.next).1.b else mb), (st k).prec.c ++ (if k = i then (gen i).1.c else if k = i.next
          then (gen i.next).1.c else mc), (st k).prec.bitsInLast⟩ := ⟨_, rfl⟩
      have hT : TriplesOf (p + n) (fun k => (P k).a) (fun k => (P k).b) (fun k => (P k).c) := by
        obtain ⟨A₁, B₁, lA, lB, h1, h2, -⟩ := MalAby3.local_rel (p := fun _ => andDraws n) hd (andDraws_wp n hP)
        obtain rfl : A₁ = A := h1.uniqueBin hA
        obtain rfl : B₁ = B := h2.uniqueBin hB
        subst hPdef
        refine ⟨xs ++ A₁.take n, ys ++ B₁.take n, by simp [lx, lA]; omega, by simp [ly, lB]; omega, hx.append ha', hy.append hb', ?_⟩
        rw [List.zipWith_append (by rw [lx, ly])]
        exact hz'.append hc'
      have hgen : ∀ k, k ≠ i.prev → (st k).prec.extend (gen k).1 = .ok (P k) := by
        intro k hk
        subst hPdef
        unfold Triples.extend
        rcases (by decide : ∀ i l : Party, l ≠ i.prev → l = i ∨ l = i.next) i k hk with rfl | rfl
        · rw [if_neg (by simpa using t1)]
          simp
        · rw [if_neg (by simpa using t2)]
          simp [Party.next_ne]
      have hsk : ∀ k, (gen k).2 = { st k with jmp := j k } := congrFun hs
      have v4 : HonestViews (fun k => (queryBit G H sg cs k (a k) (b k) q.mask (db.map fun c : IrisCode => c.mask) >>= fun c =>
          Proto.unwrap (verify H k) >>= fun _ => Spdz.openBit H k c) { st k with jmp := j k, prec := P k }) i.prev r3 s3 out := by
        refine v3.congr fun k hk => ?_
        refine Eq.symm (bind_of_ret (a := ()) ?_)
        rw [hsk]
        exact addTriples_ret (s := { st k with jmp := j k }) (hgen k hk)
      obtain ⟨r1, s1, r2, s2, mid, v1, v2, er', h⟩ := query_tail hK hK2 sg i (fun k => { st k with jmp := j k, prec := P k })
        hj.prf (by rw [hj.rcv, hj.snd]) hbuf hvq key hkey q db hne hm a b ha hb cs hcs (p + n) hT r3 s3 out v4
      refine ⟨r0, s0, r1, s1, r2, s2, gen, fun k => { st k with jmp := j k, prec := P k }, mid, v0, ?_, hj.prf, fun _ => rfl, v1, v2, ?_, h⟩
      · intro k hk
        exact ⟨P k, hgen k hk, by rw [hsk]⟩
      · intro l hl
        rw [er l hl, er' l hl]
/-- Forging a chunk is rare. Errors `es` of the inner products and `fs` of their MACs with `es[k]` not zero modulo `2^K` are
chosen by the corrupt party before the key is used and before the random coefficients are drawn. Except for at most
`2^(V - K') * 2^(K - 1)` of the `2^V` keys, and then for any other coefficients and any errors in the check itself, at most
`2^(K' - 1)` of the `2^V` values of the coefficient `ρ[k]` satisfy the equation by which the errors stay unnoticed. -/
theorem C67_unnoticed_rare {V K K' : Nat} (hK : K ≤ K') (hV : K' ≤ V) (es fs : List (BitVec V)) (hlf : fs.length = es.length)
    (k : Nat) (hk : k < es.length) (he : es[k].setWidth K ≠ 0) :
    ∃ badKeys : Finset Nat, badKeys.card ≤ 2 ^ (V - K') * 2 ^ (K - 1) ∧ ∀ key : BitVec V, key.toNat ∉ badKeys →
      ∀ (ρ : List (BitVec V)) (e0 e1 e2 : BitVec V), ρ.length = es.length + es.length →
      ∃ bad : Finset Nat, bad.card ≤ 2 ^ (K' - 1) ∧ ∀ t, t < 2 ^ V → t ∉ bad →
        ¬ unnoticed key es fs (ρ.set k (BitVec.ofNat V t)) e0 e1 e2 := by
  refine ⟨_, card_keys hK hV es[k] fs[k] he, ?_⟩
  intro key hkey ρ e0 e1 e2 hρl
  have hkey' : (key * es[k] - fs[k]).setWidth K' ≠ 0 := by
    intro h
    refine hkey (Finset.mem_filter.2 ⟨Finset.mem_range.2 (BitVec.isLt _), ?_⟩)
    simpa using h
  have hle : (es ++ es.map (-2 * ·)).length = es.length + es.length := by simp
  have hlf' : (fs ++ fs.map (-2 * ·)).length = es.length + es.length := by simp [hlf]
  have g1 : (es ++ es.map (-2 * ·)).getD k 0 = es[k] := by simp [hk, List.getElem?_append_left]
  have g2 : (fs ++ fs.map (-2 * ·)).getD k 0 = fs[k] := by
    have : k < fs.length := by omega
    simp [this, List.getElem?_append_left]
  refine ⟨badCoeffs key (es ++ es.map (-2 * ·)) (fs ++ fs.map (-2 * ·)) ρ k e0 e1 e2, ?_, ?_⟩
  · unfold badCoeffs
    rw [g1, g2]
    exact card_solutions hV _ _ hkey'
  · intro t ht hbad h
    refine hbad ?_
    unfold badCoeffs
    rw [Finset.mem_filter, Finset.mem_range]
    refine ⟨ht, ?_⟩
    unfold unnoticed at h
    rw [sum_split (es ++ es.map (-2 * ·)) ρ k (by omega) (by omega), sum_split (fs ++ fs.map (-2 * ·)) ρ k (by omega) (by omega)] at h
    rw [g1, g2]
    have q1 : (es ++ es.map (-2 * ·))[k]'(by omega) = es[k] := by simp [hk, List.getElem_append_left]
    have q2 : (fs ++ fs.map (-2 * ·))[k]'(by omega) = fs[k] := by
      rw [List.getElem_append_left (by omega)]
    rw [q1, q2] at h
    linear_combination h

example : ∃ badKeys : Finset Nat, badKeys.card ≤ 2 ^ (64 - 40) * 2 ^ (16 - 1) ∧ ∀ key : BitVec 64, key.toNat ∉ badKeys →
      ∀ (ρ : List (BitVec 64)) (e0 e1 e2 : BitVec 64), ρ.length = 4 →
      ∃ bad : Finset Nat, bad.card ≤ 2 ^ (40 - 1) ∧ ∀ t, t < 2 ^ 64 → t ∉ bad →
        ¬ unnoticed key [0#64, 7#64] [3#64, 9#64] (ρ.set 1 (BitVec.ofNat 64 t)) e0 e1 e2 :=
  C67_unnoticed_rare (V := 64) (K := 16) (K' := 40) (by omega) (by omega) [0#64, 7#64] [3#64, 9#64] rfl 1 (by decide) (by decide)

/-! ## The hypotheses can be met -/

/-- All hypotheses of `C67_run_query` about the execution hold of an honest one, if there are enough triples. -/
theorem run_query_hyps (hK : 15 ≤ K) (hK2 : K ≤ 128) (sg : Bool) (i : Party) {key : BitVec (verifWidth K)} {p : Nat}
    {st : Party → SpdzSt G (verifWidth K)} (hst : SpdzOk key p 0 st) {q : IrisCode} {db : List IrisCode} (hne : db ≠ [])
    (hm : ∀ c ∈ db, 8960 ≤ commonBits c q) {a : Party → List (SShare (verifWidth K))}
    {b : Party → List (List (SShare (verifWidth K)))} (ha : Rels (MacSharesOf key) (encode _ q.code) a)
    (hb : Rels (Rels (MacSharesOf key)) (db.map fun c => encode _ c.code) b) {cs : Nat} (hcs : cs ≠ 0)
    (hov : (db.length + cs) * (2 * K) < 2 ^ 64) (hcap : EnoughTriples K db.length cs p) :
    ∃ (rcvd sent : Party → Party → List Bytes) (out : Party → Bool × SpdzSt G (verifWidth K)),
      (∀ k, Local (Iris.irisInDb (ops G H K sg k) (a k) (b k) q.mask (db.map fun c => c.mask) cs (st k)) (rcvd k) (sent k)
        (.ret (out k))) ∧ (∀ k l, rcvd l k <+: sent k l) ∧
      HonestViews (fun k => Iris.irisInDb (ops G H K sg k) (a k) (b k) q.mask (db.map fun c => c.mask) cs (st k))
        i.prev rcvd sent out := by
  have hw := (Spdz.mpcLawful G H (K := K) (by omega) hK2 sg key p 0 _).irisInDb_wp hK (verifWidth_ge hK2) ha
    hne hm hb (cs := cs) hcs trivial hov ⟨by
      simp only [Nat.add_zero]; rw [used_eq (by simpa using hne) hcs, avail_eq]; exact hcap, rfl⟩ hst
  obtain ⟨r, s, o, hl, hp1, hv⟩ := honest_views hw
  exact ⟨r, s, o, hl, hp1, hv _⟩

/-- All hypotheses of `C67_run_fresh` about the execution hold of an honest one, with no errors. -/
theorem run_fresh_hyps (hK : 15 ≤ K) (hK2 : K ≤ 128) (sg : Bool) (i : Party) {key : BitVec (verifWidth K)} {p n : Nat}
    {st : Party → SpdzSt G (verifWidth K)} (hst : SpdzOk key p 0 st) {q : IrisCode} {db : List IrisCode} (hne : db ≠ [])
    (hm : ∀ c ∈ db, 8960 ≤ commonBits c q) {a : Party → List (SShare (verifWidth K))}
    {b : Party → List (List (SShare (verifWidth K)))} (ha : Rels (MacSharesOf key) (encode _ q.code) a)
    (hb : Rels (Rels (MacSharesOf key)) (db.map fun c => encode _ c.code) b) {cs : Nat} (hcs : cs ≠ 0)
    (hov : (db.length + cs) * (2 * K) < 2 ^ 64) (hcap : EnoughTriples K db.length cs p)
    (hp : p ≤ wordsRequested K db.length cs) (hn : n = max (wordsRequested K db.length cs - p) 8192) :
    ∃ (x y : Party → List (AShare 128)) (zs : Party → List (BitVec 128)) (st1 : Party → JmpSt G) (A B : List (BitVec 128))
      (rcvd sent : Party → Party → List Bytes) (out : Party → Bool × SpdzSt G (verifWidth K)),
      (∀ k, andDraws n (st k).jmp = .ret ((x k, y k, zs k), st1 k)) ∧ Rels BinSharesOf A x ∧ Rels BinSharesOf B y ∧
      HonestViews (fun k => Iris.irisInDb (ops G H K sg k) (a k) (b k) q.mask (db.map fun c => c.mask) cs (st k))
        i.prev rcvd sent out ∧
      (rcvd i i.prev).head? = some (ringSliceToBytes (List.zipWith (· ^^^ ·) (zs i.prev) (List.replicate (2 * n + 1) 0))) := by
  obtain ⟨r, s, o, hl, hp1, hv⟩ := run_query_hyps (H := H) hK hK2 sg i hst hne hm ha hb hcs hov hcap
  obtain ⟨x, y, zs, st1, A, B, hd, lA, lB, hx, hy, lz⟩ := C60_draws_total n (fun k => (st k).jmp) hst.1.1
  refine ⟨x, y, zs, st1, A, B, r, s, o, hd, hx, hy, hv, ?_⟩
  have hplen : ∀ k, (st k).prec.len = p := fun k => by
    obtain ⟨xs, ys, lx, ly, hx, -⟩ := hst.2.2.2.1.1
    have := hx.length k
    rw [lx] at this
    exact this
  have hprog := fun k => irisInDb_generate (H := H) hK hcs hov hp sg k (hplen k) hne rfl (a := a k) (b := b k)
    (by rw [hb.length, List.length_map]) q.mask
  have h1 := hl i.prev
  rw [hprog] at h1
  obtain ⟨cont, hc⟩ := generate_first (H := H) (wordsRequested K db.length cs - p) n hn i.prev (st i.prev) (hd i.prev)
    (by rw [hx.length, hy.length, lA, lB])
  obtain ⟨x1, r1, s1, r2, s2, a1, a2, e1, e2⟩ := Local.bind_ret h1
  rw [hc] at a1
  obtain ⟨s', es, -⟩ := Local.send_ret a1
  have e' : s i.prev i = ringSliceToBytes (zs i.prev) :: (s' i ++ s2 i) := by
    rw [e2, es, Party.next_prev]
    beta_reduce
    rw [push_same]; rfl
  have h2 : ∃ m0 rest, r i i.prev = m0 :: rest := by
    have hpw := generateTriples_pw (H := H) (i := i) (wordsRequested K db.length cs - p) (n := n) hn.symm hst.1.1
      (by rw [hst.1.2]) hd hx hy
    rcases PW.split_or (by
        rintro ms ms' ⟨m0, m1, m2, m3, rest, rfl, h⟩
        exact ⟨m0, m1, m2, m3, rest ++ ms', rfl, h⟩) hpw (k := fun k (o : Triples × SpdzSt G (verifWidth K)) =>
        (addTriples o.1 >>= fun _ =>
        queryBit G H sg cs k (a k) (b k) q.mask (db.map fun c : IrisCode => c.mask) >>= fun c =>
        Proto.unwrap (verify H k) >>= fun _ => Spdz.openBit H k c) o.2) (hv.congr fun k _ => (hprog k).symm) with
      ⟨m0, m1, m2, m3, rest, e, -⟩ | ⟨r0, s0, r3, s3, gen, v0, v3, er, z, m1, m2, m3, d, j, e, -⟩
    · exact ⟨_, _, e⟩
    · refine ⟨ringSliceToBytes z, [m1, m2, m3, d] ++ r3 i i.prev, ?_⟩
      rw [er i (Party.prev_ne i).symm]
      beta_reduce
      rw [e]
      rfl
  obtain ⟨m0, rest, h2⟩ := h2
  have h3 := hp1 i.prev i
  rw [h2, e'] at h3
  have h4 : m0 = ringSliceToBytes (zs i.prev) := (List.cons_prefix_cons.1 h3).1
  rw [h2, h4, List.head?_cons]
  have : List.zipWith (· ^^^ ·) (zs i.prev) (List.replicate (2 * n + 1) (0 : BitVec 128)) = zs i.prev :=
    zipWith_xor_zeros (by rw [lz]; simp) (fun e he => (List.mem_replicate.1 he).2)
  rw [this]

/-- A state after set-up: no triples, empty queues. -/
def exNewSt {V : Nat} (key : BitVec V) (i : Party) : SpdzSt exPrg V :=
  ⟨exJmpSt i, exShare key i, [], Triples.empty, Triples.empty⟩

theorem exNewSt_ok {V : Nat} (key : BitVec V) : SpdzOk key 0 0 (exNewSt key) :=
  ⟨exJmpSt_ok, exShare_ok _, ⟨[], Rels.nil⟩, ⟨⟨[], [], rfl, rfl, Rels.nil, Rels.nil, Rels.nil⟩, fun _ => rfl⟩,
    ⟨0, 128, ⟨[], [], rfl, rfl, Rels.nil, Rels.nil, Rels.nil⟩, fun _ => rfl, by omega, by omega, rfl⟩⟩

theorem exMacShares_ok {V : Nat} (key : BitVec V) (xs : List (BitVec V)) :
    Rels (MacSharesOf key) xs fun k => xs.map fun x => exMacShare key x k :=
  ⟨xs.map fun x => exMacShare key x, by
    rw [List.forall₂_map_right_iff]
    exact List.forall₂_same.2 fun x _ => exMacShare_ok _ _, by funext k; simp⟩

/-- The inputs of both theorems: an example query over three entries in chunks of 256, in states with 9000 words of triples
and with none. -/
example (c : IrisCodeArray) (e : IrisCode) (he : e = ⟨c, IrisCodeArray.ones⟩) :
    [e, e, e] ≠ [] ∧ (∀ d ∈ [e, e, e], 8960 ≤ commonBits d e) ∧
    (Rels (MacSharesOf 77#64) (encode 64 e.code) fun k => (encode 64 e.code).map fun x => exMacShare 77#64 x k) ∧
    (Rels (Rels (MacSharesOf 77#64)) ([e, e, e].map fun c => encode 64 c.code) fun k =>
      [(encode 64 e.code).map fun x => exMacShare 77#64 x k, (encode 64 e.code).map fun x => exMacShare 77#64 x k,
        (encode 64 e.code).map fun x => exMacShare 77#64 x k]) ∧
    (3 + 256) * (2 * 16) < 2 ^ 64 ∧
    EnoughTriples 16 3 256 9000 ∧ wordsRequested 16 3 256 < 9000 ∧ SpdzOk 77#64 9000 0 (exTripleSt 77#64) ∧
    EnoughTriples 16 3 256 0 ∧ 0 ≤ wordsRequested 16 3 256 ∧ SpdzOk 77#64 0 0 (exNewSt 77#64) ∧
    (∀ k, (exTripleSt 77#64 k).verifyQueue = [] ∧ (exTripleSt 77#64 k).buffer = Triples.empty ∧
      (exNewSt 77#64 k).verifyQueue = [] ∧ (exNewSt 77#64 k).buffer = Triples.empty) := by
  refine ⟨by simp, fun d hd => ?_, exMacShares_ok _ _, ?_, by omega, ?_, by decide, exTripleSt_ok _,
    C29_multiple (by omega) 3 2 (by omega) le_rfl, Nat.zero_le _, exNewSt_ok _, fun _ => ⟨rfl, rfl, rfl, rfl⟩⟩
  · have : d = e := by simpa using hd
    rw [this, he, fullMask_common]; omega
  · exact Rels.cons (b := fun k => (encode 64 e.code).map fun x => exMacShare 77#64 x k) (exMacShares_ok _ _)
      (Rels.cons (b := fun k => (encode 64 e.code).map fun x => exMacShare 77#64 x k) (exMacShares_ok _ _)
        (Rels.cons (b := fun k => (encode 64 e.code).map fun x => exMacShare 77#64 x k) (exMacShares_ok _ _) Rels.nil))
  · unfold EnoughTriples
    decide

end Verif
