import Verif.Proof.PairRuns
import Verif.Props.SpdzRuns

/-!
# C65: AND circuits of the SPDZ-wise backend with a corrupt party

As in `Props/SpdzRuns.lean`, the corrupt party is `i.prev`, nothing is assumed about it, and the theorems speak about the
finished runs of the honest parties `i` and `i.next`. The corrupt party may make every AND gate wrong; the gates are
recorded, and `verify` compares them with the precomputed triples before anything is opened.
-/

namespace Verif

open Jmp Spdz

variable {G : Prg} {H : Hash} {V K : Nat}

/-- `verify_triple_queue` with any corrupt party, where `w` words of AND gates have been recorded and `p` words of triples
have been precomputed, both shared consistently but not necessarily valid: honest parties that finish had at least
`max w 8192` words of precomputed triples, and the errors of the recorded gates are the errors of the shuffled
precomputed triples; unless one of two pairs of strings they have hashed is a collision. -/
theorem C65_run_verify (w p : Nat) (hw : w ≠ 0) (i : Party) (st : Party → SpdzSt G V) (hP : PrfOk fun k => (st k).jmp.prf)
    (hq : (st i).jmp.rcvQueueNext.length = (st i.next).jmp.sendQueuePrev.length)
    (xs ys zs xs' ys' zs' : List (BitVec 128))
    (l0 : xs.length = w) (l1 : ys.length = w) (l2 : zs.length = w)
    (l3 : xs'.length = p) (l4 : ys'.length = p) (l5 : zs'.length = p)
    (ha : Rels BinSharesOf xs fun k => (st k).buffer.a) (hb : Rels BinSharesOf ys fun k => (st k).buffer.b)
    (hc : Rels BinSharesOf zs fun k => (st k).buffer.c)
    (hx : Rels BinSharesOf xs' fun k => (st k).prec.a) (hy : Rels BinSharesOf ys' fun k => (st k).prec.b)
    (hz : Rels BinSharesOf zs' fun k => (st k).prec.c)
    (rcvd sent : Party → Party → List Bytes) (out : Party → Unit × SpdzSt G V)
    (hv : HonestViews (fun k => verifyTripleQueue H k (st k)) i.prev rcvd sent out) :
    queueCollision H i (st i) (st i.next) (rcvd i i.prev) ∨
    max w 8192 ≤ p ∧ (out i).2.buffer = Triples.empty ∧ (out i.next).2.buffer = Triples.empty ∧
      (∀ k, k = i ∨ k = i.next → (out k).2.prec = ⟨(st k).prec.a.drop (max w 8192), (st k).prec.b.drop (max w 8192),
        (st k).prec.c.drop (max w 8192), 128⟩) ∧
      errorsOf xs ys zs = (shuffledWords G (pairSeed i (st i).jmp (st i.next).jmp)
        ((errorsOf xs' ys' zs').take (max w 8192))).take w := by
  rcases (verifyTripleQueue_pw' (H := H) hw hP hq l0 l1 l2 l3 l4 l5 ha hb hc hx hy hz).views hv with
    h | ⟨o, o1, o2, m1, m2, d, j, e, -, -, hp, hs, h⟩
  · exact .inl h
  · refine h.imp id fun h => ?_
    have hs := fun k => congrFun hs k
    beta_reduce at hs
    have s1 := hs i
    have s2 := hs i.next
    rw [o1] at s1
    rw [o2] at s2
    refine ⟨hp, by rw [s1], by rw [s2], ?_, h⟩
    rintro k (rfl | rfl)
    · rw [s1]
    · rw [s2]

/-- With valid precomputed triples the recorded gates are right. -/
theorem C65_run_verify_valid (w p : Nat) (hw : w ≠ 0) (i : Party) (st : Party → SpdzSt G V)
    (hP : PrfOk fun k => (st k).jmp.prf)
    (hq : (st i).jmp.rcvQueueNext.length = (st i.next).jmp.sendQueuePrev.length)
    (xs ys zs : List (BitVec 128)) (l0 : xs.length = w) (l1 : ys.length = w) (l2 : zs.length = w)
    (ha : Rels BinSharesOf xs fun k => (st k).buffer.a) (hb : Rels BinSharesOf ys fun k => (st k).buffer.b)
    (hc : Rels BinSharesOf zs fun k => (st k).buffer.c)
    (hprec : TriplesOf p (fun k => (st k).prec.a) (fun k => (st k).prec.b) (fun k => (st k).prec.c))
    (rcvd sent : Party → Party → List Bytes) (out : Party → Unit × SpdzSt G V)
    (hv : HonestViews (fun k => verifyTripleQueue H k (st k)) i.prev rcvd sent out) :
    queueCollision H i (st i) (st i.next) (rcvd i i.prev) ∨ zs = List.zipWith (· &&& ·) xs ys := by
  obtain ⟨xs', ys', l3, l4, hx, hy, hz⟩ := hprec
  rcases C65_run_verify w p hw i st hP hq xs ys zs xs' ys' _ l0 l1 l2 l3 l4 (by simp [l3, l4]) ha hb hc hx hy hz rcvd sent
    out hv with h | ⟨-, -, -, -, h⟩
  · exact .inl h
  right
  have h0 : ∀ e ∈ errorsOf xs ys zs, e = 0 := by
    intro e he
    rw [h] at he
    refine shuffledWords_zero (fun b hb => ?_) e (List.mem_of_mem_take he)
    exact errorsOf_valid (by rw [l3, l4]) b (List.mem_of_mem_take hb)
  unfold errorsOf at h0
  refine List.ext_getElem (by simp [l0, l1, l2]) fun n h1 h2 => ?_
  have := h0 _ (List.getElem_mem (n := n) (by rw [List.length_zipWith]; omega))
  rw [List.getElem_zipWith] at this
  have h3 := congrArg (· ^^^ (List.zipWith (· &&& ·) xs ys)[n]) this
  simpa [BitVec.xor_assoc] using h3

/-- `and_many` and `verify` with any corrupt party and valid precomputed triples: honest parties that finish hold shares
of the conjunctions; unless one of two pairs of strings they have hashed is a collision. (`mid` are their results and
states after `and_many`.) -/
theorem C65_run_and (i : Party) (st : Party → SpdzSt G V) (hP : PrfOk fun k => (st k).jmp.prf)
    (hq : (st i).jmp.rcvQueueNext.length = (st i.next).jmp.sendQueuePrev.length)
    (hbuf : ∀ k, (st k).buffer = Triples.empty) (hvq : ∀ k, (st k).verifyQueue = []) (p : Nat)
    (hprec : TriplesOf p (fun k => (st k).prec.a) (fun k => (st k).prec.b) (fun k => (st k).prec.c))
    (hK1 : 1 ≤ K) (hK : K ≤ 128) (xs ys : List (BitVec K)) (hne : xs ≠ []) (hl : xs.length = ys.length)
    (a b : Party → List (AShare K)) (ha : Rels BinSharesOf xs a) (hb : Rels BinSharesOf ys b)
    (rcvd sent : Party → Party → List Bytes) (out : Party → List (AShare K) × SpdzSt G V)
    (hv : HonestViews (fun k => (do
      let c ← Spdz.andMany k (a k) (b k)
      Spdz.verify H k
      pure c) (st k)) i.prev rcvd sent out) :
    ∃ (r1 s1 r2 s2 : Party → Party → List Bytes) (mid : Party → List (AShare K) × SpdzSt G V),
      HonestViews (fun k => Spdz.andMany k (a k) (b k) (st k)) i.prev r1 s1 mid ∧
      HonestViews (fun k => (do Spdz.verify H k; pure (mid k).1) (mid k).2) i.prev r2 s2 out ∧
      (rcvd i = fun d => r1 i d ++ r2 i d) ∧
      (queueCollision H i (mid i).2 (mid i.next).2 (r2 i i.prev) ∨
        BinPairsOf i (List.zipWith (· &&& ·) xs ys) (out i).1 (out i.next).1) := by
  have hI : InvW st True 0 st := ⟨fun k => (st k).jmp.prf, fun k => (st k).buffer, rfl, hP, BufW.empty hbuf⟩
  have h1 := andMany_pk (i := i) hK1 hK hI (RelW.of_rels (w := True) ha rfl fun _ => rfl)
    (RelW.of_rels (w := True) hb rfl fun _ => rfl) hl
  obtain ⟨r1, s1, r2, s2, mid, v1, v2, e, w', -, hrel, hI'⟩ := PWS.split h1 hv
  refine ⟨r1, s1, r2, s2, mid, v1, v2, e i (Party.prev_ne i).symm, ?_⟩
  obtain ⟨zs, hzs, lz, hz⟩ := RelW.rels hrel
  obtain ⟨P, t, hst, hP', bits, e', ⟨words, xs0, ys0, zs0, hlx, hly, hlz, hxs, hys, hzs0, he, hb, hb1, hb2, hw⟩, hpad,
    hno⟩ := hI'
  have hu : K * xs.length ≠ 0 := Nat.mul_ne_zero (by omega) (by simpa using hne)
  have hw0 : words ≠ 0 := by rintro rfl; omega
  obtain ⟨xs', ys', lx', ly', hx', hy', hz'⟩ := hprec
  have hs : ∀ k, (mid k).2 = { st k with jmp := { (st k).jmp with prf := P k }, buffer := t k } := fun k => congrFun hst k
  have hpw : PWS i (fun k => do Spdz.verify H k; pure (mid k).1) (fun k => (mid k).2)
      (fun ms => queueCollision H i (mid i).2 (mid i.next).2 ms)
      (fun ms o _ => queueCollision H i (mid i).2 (mid i.next).2 ms ∨ (o = fun k => (mid k).1) ∧ errorsOf xs0 ys0 zs0 =
        (shuffledWords G (pairSeed i (mid i).2.jmp (mid i.next).2.jmp)
          ((errorsOf xs' ys' (List.zipWith (· &&& ·) xs' ys')).take (max words 8192))).take words) := by
    refine PWS.bind ?_
    unfold verify
    refine PWS.bind ?_
    unfold verifyMacs
    refine PWS.bind (PWS.get ?_)
    refine PWS.congr (q := fun k => (Pure.pure () : Proto (SpdzSt G V) Unit)) (fun k => ?_) ?_
    · beta_reduce; rw [hs k]; simp only [hvq]; rfl
    refine PWS.pure (a := fun _ => ()) ?_
    refine PWS.conseq (verifyTripleQueue_pw' (H := H) (i := i) (w := words) (p := p) (st := fun k => (mid k).2)
      (zs' := List.zipWith (· &&& ·) xs' ys') hw0 (by simpa only [hs] using hP') (by simpa only [hs] using hq)
      hlx hly hlz lx' ly' (by simp [lx', ly']) (by simpa only [hs] using hxs) (by simpa only [hs] using hys)
      (by simpa only [hs] using hzs0) (by simpa only [hs] using hx') (by simpa only [hs] using hy')
      (by simpa only [hs] using hz')) ?_ ?_
    · intro ms h ms'
      exact queueCollision_append (by simpa using h)
    rintro ms _ s ⟨m1, m2, d, j, rfl, -, hF, -, rfl, hres⟩
    exact PWS.pure (a := fun k => (mid k).1) (hres.imp (fun h => queueCollision_append (by simpa using h)) fun h => ⟨rfl, h⟩)
  rcases hpw.views v2 with h | ⟨o, o1, o2, h⟩
  · exact .inl h
  refine h.imp id ?_
  rintro ⟨ho, hres⟩
  have h0 : ∀ a ∈ e', a = 0 := by
    intro a ha
    rw [← he, hres] at ha
    refine shuffledWords_zero (fun b hb => ?_) a (List.mem_of_mem_take ha)
    exact errorsOf_valid (by rw [lx', ly']) b (List.mem_of_mem_take hb)
  rw [hz (hno (noErr_of_zero h0))] at hzs
  have hp := hzs.binPairs i
  have q1 := congrFun ho i
  have q2 := congrFun ho i.next
  beta_reduce at q1 q2
  rw [o1] at q1
  rw [o2] at q2
  rw [q1, q2]
  exact hp

/-- The comparisons and the disjunction of a query (`get_msb_many` after its MAC check, `reduce_binary_or`), `verify` and
`open_bit` with any corrupt party and valid precomputed triples: honest parties that finish output whether some value is
negative; unless one of the named pairs of strings they have hashed is a collision. (`mid` are their results and states
before `verify`.) -/
theorem C65_run_or (i : Party) (st : Party → SpdzSt G V) (hP : PrfOk fun k => (st k).jmp.prf)
    (hq : (st i).jmp.rcvQueueNext.length = (st i.next).jmp.sendQueuePrev.length)
    (hbuf : ∀ k, (st k).buffer = Triples.empty) (hvq : ∀ k, (st k).verifyQueue = []) (p : Nat)
    (hprec : TriplesOf p (fun k => (st k).prec.a) (fun k => (st k).prec.b) (fun k => (st k).prec.c))
    (hK : 3 ≤ K) (xs : List (BitVec K)) (hne : xs ≠ []) (cs : Nat) (hcs : cs ≠ 0)
    (a : Party → List (AShare K)) (ha : Rels SharesOf xs a)
    (rcvd sent : Party → Party → List Bytes) (out : Party → Bool × SpdzSt G V)
    (hv : HonestViews (fun k => ((do
      let bits ← (fam G V k).msbAdderMany ((a k).map fun x => (Aby3.a2bPre k x).1)
        ((a k).map fun x => (Aby3.a2bPre k x).2.1) ((a k).map fun x => (Aby3.a2bPre k x).2.2)
      reduceBinaryOr k bits cs) >>= fun c => (verify H k >>= fun _ => Spdz.openBit H k c)) (st k)) i.prev rcvd sent out) :
    ∃ (r1 s1 r2 s2 : Party → Party → List Bytes) (mid : Party → AShare 1 × SpdzSt G V),
      HonestViews (fun k => (do
        let bits ← (fam G V k).msbAdderMany ((a k).map fun x => (Aby3.a2bPre k x).1)
          ((a k).map fun x => (Aby3.a2bPre k x).2.1) ((a k).map fun x => (Aby3.a2bPre k x).2.2)
        reduceBinaryOr k bits cs) (st k)) i.prev r1 s1 mid ∧
      HonestViews (fun k => (verify H k >>= fun _ => Spdz.openBit H k (mid k).1) (mid k).2) i.prev r2 s2 out ∧
      (rcvd i = fun d => r1 i d ++ r2 i d) ∧
      (queueCollision H i (mid i).2 (mid i.next).2 (r2 i i.prev) ∨
        (∃ m1 m2 d m rest, r2 i i.prev = m1 :: m2 :: d :: m :: rest ∧ Collision H m (toBytes (mid i.next).1.a)) ∨
        (out i).1 = xs.any (·.msb) ∧ (out i.next).1 = xs.any (·.msb)) := by
  have hI : InvW st True 0 st := ⟨fun k => (st k).jmp.prf, fun k => (st k).buffer, rfl, hP, BufW.empty hbuf⟩
  obtain ⟨zs, rfl, h1, h2, h3⟩ := Aby3.a2bPre_rels ha
  have hz : zs ≠ [] := by rintro rfl; exact hne rfl
  have L := lawfulW (i := i) st
  have hpk : PK i True (fun k => do
        let bits ← (fam G V k).msbAdderMany ((a k).map fun x => (Aby3.a2bPre k x).1)
          ((a k).map fun x => (Aby3.a2bPre k x).2.1) ((a k).map fun x => (Aby3.a2bPre k x).2.2)
        reduceBinaryOr k bits cs) st (fun w' c st' =>
          RelW w' 1 (bitOf ((zs.map fun z => z.1 + z.2.1 + z.2.2).any (·.msb))) c ∧ ∃ u, u ≠ 0 ∧ InvW st w' u st') := by
    refine PK.bind ((L.msbAdderMany hK hz hI (RelW.of_rels h1 rfl fun _ => rfl) (RelW.of_rels h2 rfl fun _ => rfl)
      (RelW.of_rels h3 rfl fun _ => rfl)).mono ?_)
    rintro w1 r st1 - ⟨hr, hI1⟩
    refine (L.reduceBinaryOr hcs (by simpa using hz) hI1 hr).mono ?_
    rintro w2 c st2 - ⟨hc, hI2⟩
    refine ⟨?_, _, ?_, hI2⟩
    · rw [FamLawful.orAll_bits] at hc
      have : (zs.map fun z => bitOf ((z.1 + z.2.1 + z.2.2).getLsbD (K - 1))).any (fun b => bitVal b) =
          (zs.map fun z => z.1 + z.2.1 + z.2.2).any (·.msb) := by
        rw [List.any_map, List.any_map]
        congr 1
        funext z
        simp [BitVec.msb_eq_getLsbD_last]
      rwa [this] at hc
    · omega
  obtain ⟨r1, s1, r2, s2, mid, v1, v2, e, w', -, hrel, u, hu, hI'⟩ := PWS.split hpk hv
  refine ⟨r1, s1, r2, s2, mid, v1, v2, e i (Party.prev_ne i).symm, ?_⟩
  rcases (verifyOpen_pw (H := H) hI' hu hq hprec hvq hrel).views v2 with (h | h) | ⟨o, o1, o2, h⟩
  · exact .inl h
  · exact .inr (.inl h)
  · right; right
    have q1 := congrFun h i
    have q2 := congrFun h i.next
    beta_reduce at q1 q2
    rw [o1] at q1
    rw [o2] at q2
    simp [q1, q2]

/-- A state with 9000 words of valid precomputed triples. -/
def exTripleSt (key : BitVec V) (i : Party) : SpdzSt exPrg V :=
  ⟨exJmpSt i, exShare key i, [], ⟨(List.replicate 9000 5).map (exBinShare · i), (List.replicate 9000 3).map (exBinShare · i),
    (List.replicate 9000 1).map (exBinShare · i), 128⟩, Triples.empty⟩

theorem exTripleSt_triples (key : BitVec V) : TriplesOf 9000 (fun k => (exTripleSt key k).prec.a)
    (fun k => (exTripleSt key k).prec.b) (fun k => (exTripleSt key k).prec.c) := by
  refine ⟨List.replicate 9000 5, List.replicate 9000 3, List.length_replicate, List.length_replicate, exBinShares_ok _,
    exBinShares_ok _, ?_⟩
  rw [List.zipWith_replicate, Nat.min_self]
  exact exBinShares_ok _

theorem exTripleSt_ok (key : BitVec V) : SpdzOk key 9000 0 (exTripleSt key) :=
  ⟨exJmpSt_ok, exShare_ok _, ⟨[], Rels.nil⟩, ⟨exTripleSt_triples key, fun _ => rfl⟩,
    ⟨0, 128, ⟨[], [], rfl, rfl, Rels.nil, Rels.nil, Rels.nil⟩, fun _ => rfl, by omega, by omega, rfl⟩⟩

/-- All hypotheses of `C65_run_or` hold of an honest execution. -/
theorem run_or_hyps (i : Party) : ∃ (rcvd sent : Party → Party → List Bytes) (out : Party → Bool × SpdzSt exPrg 64),
    HonestViews (fun k => ((do
      let bits ← (fam exPrg 64 k).msbAdderMany (([3#16, 40000#16].map (exShare · k)).map fun x => (Aby3.a2bPre k x).1)
        (([3#16, 40000#16].map (exShare · k)).map fun x => (Aby3.a2bPre k x).2.1)
        (([3#16, 40000#16].map (exShare · k)).map fun x => (Aby3.a2bPre k x).2.2)
      reduceBinaryOr k bits 100) >>= fun c => (verify H k >>= fun _ => Spdz.openBit H k c)) (exTripleSt 77#64 k))
      i.prev rcvd sent out := by
  obtain ⟨zs, hzs, h1, h2, h3⟩ := Aby3.a2bPre_rels (exShares_ok [3#16, 40000#16])
  have hz : zs ≠ [] := by rintro rfl; cases hzs
  have hlz : zs.length = 2 := by simpa using (congrArg List.length hzs).symm
  suffices h : WPS (fun k => ((do
      let bits ← (fam exPrg 64 k).msbAdderMany (([3#16, 40000#16].map (exShare · k)).map fun x => (Aby3.a2bPre k x).1)
        (([3#16, 40000#16].map (exShare · k)).map fun x => (Aby3.a2bPre k x).2.1)
        (([3#16, 40000#16].map (exShare · k)).map fun x => (Aby3.a2bPre k x).2.2)
      reduceBinaryOr k bits 100) >>= fun c => (verify H k >>= fun _ => Spdz.openBit H k c))) (exTripleSt 77#64)
      (fun _ _ => True) by
    obtain ⟨r, s, o, -, -, hv⟩ := honest_views h
    exact ⟨r, s, o, hv _⟩
  have L := lawful exPrg (77#64) 9000
  refine WPS.bind (WPS.bind ((L.msbAdderMany (by omega) hz (exTripleSt_ok _) h1 h2 h3).mono ?_))
  rintro r st1 ⟨hr, hI1⟩
  refine (L.reduceBinaryOr (by omega) (by simpa using hz) hI1 hr).mono ?_
  rintro c st2 ⟨hc, hI2⟩
  refine WPS.bind ((verify_wp hI2 ?_).mono ?_)
  · simp [hlz, usedWords, minTriples]
  · rintro _ st3 hI3
    unfold Spdz.openBit viaJmp
    exact WPS.zoom ((Jmp.openBit_wp H hc hI3.1).mono fun _ _ _ => trivial)

example (H : Hash) : (PrfOk fun k => (exTripleSt 77#64 k).jmp.prf) ∧
    (exTripleSt 77#64 1).jmp.rcvQueueNext.length = (exTripleSt 77#64 (1 : Party).next).jmp.sendQueuePrev.length ∧
    (∀ k, (exTripleSt 77#64 k).buffer = Triples.empty) ∧ (∀ k, (exTripleSt 77#64 k).verifyQueue = []) ∧
    TriplesOf 9000 (fun k => (exTripleSt 77#64 k).prec.a) (fun k => (exTripleSt 77#64 k).prec.b)
      (fun k => (exTripleSt 77#64 k).prec.c) ∧
    Rels SharesOf [3#16, 40000#16] (fun k => [3#16, 40000#16].map (exShare · k)) ∧
    ∃ (rcvd sent : Party → Party → List Bytes) (out : Party → Bool × SpdzSt exPrg 64),
    HonestViews (fun k => ((do
      let bits ← (fam exPrg 64 k).msbAdderMany (([3#16, 40000#16].map (exShare · k)).map fun x => (Aby3.a2bPre k x).1)
        (([3#16, 40000#16].map (exShare · k)).map fun x => (Aby3.a2bPre k x).2.1)
        (([3#16, 40000#16].map (exShare · k)).map fun x => (Aby3.a2bPre k x).2.2)
      reduceBinaryOr k bits 100) >>= fun c => (verify H k >>= fun _ => Spdz.openBit H k c)) (exTripleSt 77#64 k))
      (1 : Party).prev rcvd sent out :=
  ⟨exJmpSt_ok.1, by decide, fun _ => rfl, fun _ => rfl, exTripleSt_triples _, exShares_ok _, run_or_hyps 1⟩

end Verif
