import Verif.Proof.SpdzLockCount
import Verif.Props.QueryPrivacy
import Verif.Props.SpdzIris
import Verif.Props.SpdzQuery
import Verif.Props.QueryPrivacyMal

/-! # C87: what one party learns from a whole query over the SPDZ-wise backend

Perfect privacy against one semi-honest party: the generated triples, the shuffles, the opened differences of triples, the
verification of the MACs and the comparison of queues tell a party that follows the protocol nothing. The party knows its
shares (of the values, of their MACs and of the MAC key), the masks (which are public), its two random generators and the
messages it receives. The third generator is the ideal one of `Spec/PrivacyMal.lean`; probabilities are numbers of its
tapes. How a tossed seed is expanded to the random numbers of a shuffle (`f`), and what the hash function is (`H`), does not
matter. -/

namespace Verif

open Jmp Spdz

attribute [local irreducible] hammingDistance commonBits encode

variable {K V : Nat} {f : Bytes → List Bool}

theorem tapeS_ok {key : BitVec V} {p u : Nat} {st : Party → SpdzSt (idealPrg f) V} (h : SpdzOk key p u st) (i : Party) (t : List Bool) :
    SpdzOk key p u (tapeS i t st) := ⟨tapeIn_ok h.1 t, h.2⟩

/-- Every tape, of any length, leads to exactly one view: the numbers of tapes below add up to all of them. -/
theorem C87_one_view (H : Hash) (hK : 15 ≤ K) (hK2 : K ≤ 128) (signed : Bool) (q : IrisCode) (db : List IrisCode)
    (hne : db ≠ []) (hm : ∀ c ∈ db, 8960 ≤ commonBits c q) (key : BitVec (verifWidth K)) (a : Party → List (SShare (verifWidth K)))
    (b : Party → List (List (SShare (verifWidth K)))) (ha : Rels (MacSharesOf key) (encode (verifWidth K) q.code) a)
    (hb : Rels (Rels (MacSharesOf key)) (db.map fun c => encode (verifWidth K) c.code) b)
    (cs : Nat) (hcs : cs ≠ 0) (hov : (db.length + cs) * (2 * K) < 2 ^ 64) (p : Nat) (hp : EnoughTriples K db.length cs p)
    (st : Party → SpdzSt (idealPrg f) (verifWidth K)) (hst : SpdzOk key p 0 st) (i : Party) (t : List Bool) :
    ∃! v, Sees (fun j => Iris.irisInDb (Spdz.ops (idealPrg f) H K signed j) (a j) (b j) q.mask (db.map fun c => c.mask) cs
      (tapeS i t st j)) i v := by
  have hn : db.length ≠ 0 := by simpa using hne
  obtain ⟨r, hr, -⟩ := (Spdz.mpcLawful (idealPrg f) H (by omega) hK2 signed key p 0 _).irisInDb_wp hK (verifWidth_ge hK2) ha hne hm hb hcs
    trivial hov ⟨by simp only [Nat.add_zero]; rw [used_eq hn hcs, avail_eq]; exact hp, rfl⟩ (tapeS_ok hst i t)
  obtain ⟨l, hl⟩ := hr.recorded (fun _ => [])
  exact ⟨_, (Sees.of_runs hl _).2 rfl, fun v hv => (Sees.of_runs hl v).1 hv⟩

/-- The messages that party `i` receives during `iris_in_db`, on a backend without left-over triples and pending checks,
have the same distribution in any two situations that the party cannot tell apart by its own state, its own shares, the
masks and the answer: the query, the database and the MAC key may differ, and so may the states and shares of the other
two parties. `v` is any list of messages. -/
theorem C87_query_private (H : Hash) (hK : 15 ≤ K) (hK2 : K ≤ 128) (signed : Bool) (m : Nat) (hm0 : m ≠ 0)
    (cs : Nat) (hcs : cs ≠ 0) (hov : (m + cs) * (2 * K) < 2 ^ 64) (he : EnoughTriples K m cs 0) :
    ∃ n₀, ∀ (i : Party) (key key' : BitVec (verifWidth K)) (q q' : IrisCode) (db db' : List IrisCode)
      (a a' : Party → List (SShare (verifWidth K))) (b b' : Party → List (List (SShare (verifWidth K))))
      (st st' : Party → SpdzSt (idealPrg f) (verifWidth K)),
      db.length = m → db'.length = m → q.mask = q'.mask → (db.map fun c => c.mask) = db'.map (fun c => c.mask) →
      (∀ c ∈ db, 8960 ≤ commonBits c q) → (∀ c ∈ db', 8960 ≤ commonBits c q') →
      Rels (MacSharesOf key) (encode (verifWidth K) q.code) a →
      Rels (Rels (MacSharesOf key)) (db.map fun c => encode (verifWidth K) c.code) b →
      Rels (MacSharesOf key') (encode (verifWidth K) q'.code) a' →
      Rels (Rels (MacSharesOf key')) (db'.map fun c => encode (verifWidth K) c.code) b' →
      SpdzOk key 0 0 st → SpdzOk key' 0 0 st' → (∀ j, (st j).verifyQueue = []) → (∀ j, (st' j).verifyQueue = []) →
      a i = a' i → b i = b' i → st i = st' i → inDb q db = inDb q' db' →
      ∀ n ≥ n₀, ∀ v : Log,
        viewCountSpdz (fun j => Iris.irisInDb (Spdz.ops (idealPrg f) H K signed j) (a j) (b j) q.mask (db.map fun c => c.mask) cs)
          st i n v =
        viewCountSpdz (fun j => Iris.irisInDb (Spdz.ops (idealPrg f) H K signed j) (a' j) (b' j) q'.mask (db'.map fun c => c.mask) cs)
          st' i n v := by
  obtain ⟨N, hN⟩ := midSpdz_cpl (f := f) (H := H) hK hK2 signed hcs m hm0
  refine ⟨genBits (2 * max ((MpcLawful.queryAnds K m cs + 127) / 128) minTriples + 1) + (N + 256),
    fun i key key' q q' db db' a a' b b' st st' hl hl' hq hd hm hm' ha hb ha' hb' hst hst' hv hv' ea eb est hin n hn v => ?_⟩
  have hany : ∀ (q : IrisCode) (db : List IrisCode), db.any (MpcLawful.closeBit q) = inDb q db := fun q db => by
    unfold inDb
    congr 1
    funext c
    rw [MpcLawful.closeBit, MpcLawful.hammingDistance_comm, MpcLawful.commonBits_comm]
  have hM := hN i (Bool.rec key key') 0 (Bool.rec q q') q.mask (db.map fun c => c.mask) (Bool.rec db db') (Bool.rec a a') (Bool.rec b b')
    (by rintro (_ | _) <;> simp [hq]) (by rintro (_ | _) <;> assumption) ea
    ⟨by rintro (_ | _) <;> assumption, by rintro (_ | _) <;> simp [hd], by rintro (_ | _) <;> assumption, eb⟩
    (by
      rintro (_ | _) c hc
      · rw [MpcLawful.commonBits_comm]; exact hm c hc
      · rw [MpcLawful.commonBits_comm]; exact hm' c hc)
  have hcost : 0 + (((chunksOf cs (List.replicate m ())).map List.length).map (msbCost K)).sum + orCost m =
      0 + MpcLawful.queryCost (msbCost K) orCost m cs := by
    rw [Nat.add_assoc, List.map_map]; rfl
  have eq : ∀ (a : List (SShare (verifWidth K))) (b : List (List (SShare (verifWidth K)))) (j : Party), b.length = m →
      Iris.irisInDb (Spdz.ops (idealPrg f) H K signed j) a b q.mask (db.map fun c => c.mask) cs =
      Spdz.precompute H j (MpcLawful.queryAnds K m cs) >>= fun _ => midSpdz f H K signed cs a b q.mask (db.map fun c => c.mask) j >>= fun res =>
        Proto.unwrap (Spdz.verify H j) >>= fun _ => Spdz.openBit H j res := by
    intro a b j hb
    unfold Iris.irisInDb midSpdz
    rw [if_neg (by simp [hb, hl, hm0]), MpcLawful.numAndTriples_ok hK hcs (by rw [hb]; exact hov), hb]
    simp only [bind_assoc]
    rfl
  have hbl : ∀ j, (b j).length = m := fun j => by rw [hb.length, List.length_map, hl]
  have hbl' : ∀ j, (b' j).length = m := fun j => by rw [hb'.length, List.length_map, hl']
  have hav := avail_eq (K := K) m cs 0
  have hus := used_eq (K := K) hm0 hcs
  have := query_count (H := H) (st := Bool.rec st st') (amount := MpcLawful.queryAnds K m cs) hM (by
      show bitOf (db.any (MpcLawful.closeBit q)) = bitOf (db'.any (MpcLawful.closeBit q'))
      rw [hany, hany, hin]) (by unfold orCost; omega) rfl (by
      rw [hcost, hus]
      have : max (wordsNeeded K m cs) 8192 ≤ avail 0 (MpcLawful.queryAnds K m cs) := by rw [hav]; exact he
      rwa [avail, if_pos (Nat.zero_le _), Nat.zero_add, Nat.sub_zero] at this)
    (by rintro (_ | _) <;> assumption) est (by rintro (_ | _) <;> assumption) n hn v
  rw [← hq, ← hd]
  simp only [eq _ _ _ (hbl _), eq _ _ _ (hbl' _)]
  exact this

/-! ## Together with the sharing by the client -/

theorem dealtMac_unique (key : BitVec V) (i : Party) : ∀ (xs : List (BitVec K)) (s : List (SShare V)), s.length = xs.length →
    ∃! r : List (BitVec V × BitVec V × BitVec V × BitVec V), r.length = xs.length ∧ dealtMac key xs r i = s := by
  intro xs
  induction xs with
  | nil =>
    intro s hs
    refine ⟨[], ⟨rfl, ?_⟩, fun r hr => List.length_eq_zero_iff.1 hr.1⟩
    rw [List.length_eq_zero_iff.1 hs]; rfl
  | cons x xs ih =>
    intro s hs
    cases s with
    | nil => simp at hs
    | cons s ss =>
      obtain ⟨⟨⟨r1, r2⟩, r3, r4⟩, hr, ur⟩ := C20_spdz key x i s
      obtain ⟨rs, ⟨h1, h2⟩, urs⟩ := ih ss (by simpa using hs)
      have e : ∀ r : BitVec V × BitVec V × BitVec V × BitVec V, (Spdz.share x key r.1 r.2.1 r.2.2.1 r.2.2.2)[i.val]? = some s ↔
          (Spdz.share x key r.1 r.2.1 r.2.2.1 r.2.2.2)[i.val]'(by have := i.isLt; simp [Spdz.share, Aby3.share]) = s := fun r => by
        rw [List.getElem?_eq_getElem (by have := i.isLt; simp [Spdz.share, Aby3.share]), Option.some.injEq]
      refine ⟨(r1, r2, r3, r4) :: rs, ⟨by simp [h1], ?_⟩, ?_⟩
      · show _ :: dealtMac key xs rs i = _
        beta_reduce
        rw [(e (r1, r2, r3, r4)).1 hr, h2]
      · rintro (_ | ⟨⟨r1', r2', r3', r4'⟩, rs'⟩) ⟨h3, h4⟩
        · simp at h3
        · change _ :: dealtMac key xs rs' i = _ at h4
          rw [List.cons.injEq] at h4
          have := ur ⟨⟨r1', r2'⟩, r3', r4'⟩ ((e (r1', r2', r3', r4')).2 h4.1)
          simp only [Prod.mk.injEq] at this
          obtain ⟨⟨rfl, rfl⟩, rfl, rfl⟩ := this
          rw [urs rs' ⟨by simpa using h3, h4.2⟩]

theorem dealtsMac_unique (key : BitVec V) (i : Party) {N : Nat} : ∀ (xss : List (List (BitVec K))) (ss : List (List (SShare V))),
    ss.length = xss.length → (∀ xs ∈ xss, xs.length = N) → (∀ s ∈ ss, s.length = N) →
    ∃! rs : List (List (BitVec V × BitVec V × BitVec V × BitVec V)), (rs.length = xss.length ∧ ∀ r ∈ rs, r.length = N) ∧
      List.zipWith (fun xs r => dealtMac key xs r i) xss rs = ss := by
  intro xss
  induction xss with
  | nil =>
    intro ss hs _ _
    refine ⟨[], ⟨⟨rfl, by simp⟩, ?_⟩, fun r hr => List.length_eq_zero_iff.1 hr.1.1⟩
    rw [List.length_eq_zero_iff.1 hs]; rfl
  | cons xs xss ih =>
    intro ss hs h1 h2
    cases ss with
    | nil => simp at hs
    | cons s ss =>
      have hx : xs.length = N := h1 xs (by simp)
      obtain ⟨r, ⟨hr, hd⟩, ur⟩ := dealtMac_unique key i xs s (by rw [hx]; exact h2 s (by simp))
      obtain ⟨rs, ⟨⟨h3, h4⟩, h5⟩, urs⟩ := ih ss (by simpa using hs) (fun x h => h1 x (by simp [h])) fun x h => h2 x (by simp [h])
      refine ⟨r :: rs, ⟨⟨by simp [h3], fun x hx' => ?_⟩, by simp [hd, h5]⟩, ?_⟩
      · rcases List.mem_cons.1 hx' with rfl | h
        · rw [hr, hx]
        · exact h4 x h
      · rintro (_ | ⟨r', rs'⟩) ⟨⟨h6, h7⟩, h8⟩
        · simp at h6
        · rw [List.zipWith_cons_cons, List.cons.injEq] at h8
          rw [ur r' ⟨by rw [hx]; exact h7 r' (by simp), h8.1⟩,
            urs rs' ⟨⟨by simpa using h6, fun x h => h7 x (by simp [h])⟩, h8.2⟩]

/-- The number of choices of the client's randomness (four ring elements for each shared bit of the query and of the
database) and of the tape with which party `i` obtains the shares `s` of the query and `ss` of the database from `share`
with the given MAC key and then sees the messages `v`. -/
noncomputable def wholeCountSpdz (f : Bytes → List Bool) (H : Hash) (K : Nat) (signed : Bool) (key : BitVec (verifWidth K)) (q : IrisCode)
    (db : List IrisCode) (cs : Nat) (st : Party → SpdzSt (idealPrg f) (verifWidth K)) (i : Party) (n : Nat)
    (s : List (SShare (verifWidth K))) (ss : List (List (SShare (verifWidth K)))) (v : Log) : Nat :=
  Set.ncard {x : List (BitVec (verifWidth K) × BitVec (verifWidth K) × BitVec (verifWidth K) × BitVec (verifWidth K)) ×
      List (List (BitVec (verifWidth K) × BitVec (verifWidth K) × BitVec (verifWidth K) × BitVec (verifWidth K))) × List Bool |
    (x.1.length = 12800 ∧ x.2.1.length = db.length ∧ (∀ r ∈ x.2.1, r.length = 12800) ∧ x.2.2.length = n) ∧
    dealtMac key (encode K q.code) x.1 i = s ∧ List.zipWith (fun c r => dealtMac key (encode K c.code) r i) db x.2.1 = ss ∧
    Sees (fun j => Iris.irisInDb (Spdz.ops (idealPrg f) H K signed j) (dealtMac key (encode K q.code) x.1 j)
      (List.zipWith (fun c r => dealtMac key (encode K c.code) r j) db x.2.1) q.mask (db.map fun c => c.mask) cs
      (tapeS i x.2.2 st j)) i v}

/-- For given shares the sharing randomness is unique. -/
theorem wholeCountSpdz_eq (H : Hash) (hK : 15 ≤ K) (hK2 : K ≤ 128) (signed : Bool) (key : BitVec (verifWidth K)) (q : IrisCode) (db : List IrisCode)
    (cs : Nat) (st : Party → SpdzSt (idealPrg f) (verifWidth K)) (i : Party) (n : Nat) (s : List (SShare (verifWidth K)))
    (ss : List (List (SShare (verifWidth K)))) (v : Log) (hs : s.length = 12800) (hss : ss.length = db.length) (hsl : ∀ l ∈ ss, l.length = 12800) :
    ∃ (a : Party → List (SShare (verifWidth K))) (b : Party → List (List (SShare (verifWidth K)))), a i = s ∧ b i = ss ∧
      Rels (MacSharesOf key) (encode (verifWidth K) q.code) a ∧ Rels (Rels (MacSharesOf key)) (db.map fun c => encode (verifWidth K) c.code) b ∧
      wholeCountSpdz f H K signed key q db cs st i n s ss v =
        viewCountSpdz (fun j => Iris.irisInDb (Spdz.ops (idealPrg f) H K signed j) (a j) (b j) q.mask (db.map fun c => c.mask) cs)
          st i n v := by
  have hw := verifWidth_ge hK2
  have hl : ∀ c : IrisCodeArray, (encode K c).length = 12800 := fun c => MpcLawful.encode_length _
  obtain ⟨r, ⟨hr, hd⟩, ur⟩ := dealtMac_unique key i (encode K q.code) s (by rw [hl, hs])
  obtain ⟨rs, ⟨⟨h1, h2⟩, h3⟩, urs⟩ := dealtsMac_unique key i (N := 12800) (db.map fun c => encode K c.code) ss (by simp [hss])
    (fun xs hxs => by obtain ⟨c, -, rfl⟩ := List.mem_map.1 hxs; exact hl _) hsl
  rw [List.length_map] at h1
  rw [List.zipWith_map_left] at h3
  refine ⟨dealtMac key (encode K q.code) r, fun j => List.zipWith (fun c r => dealtMac key (encode K c.code) r j) db rs, hd, h3, ?_, ?_, ?_⟩
  · have := dealtMac_ok key (encode K q.code) r hr
    rwa [encode_setWidth (by omega) (by omega)] at this
  · clear h3 urs hss
    induction db generalizing rs with
    | nil => exact Rels.nil
    | cons c db ih =>
      cases rs with
      | nil => simp at h1
      | cons r rs =>
        have h5 := dealtMac_ok key (encode K c.code) r (by rw [h2 r (by simp), hl])
        rw [encode_setWidth (by omega) (by omega)] at h5
        exact Rels.cons (b := dealtMac key (encode K c.code) r) h5 (ih rs (by simpa using h1) fun r hr => h2 r (by simp [hr]))
  · unfold wholeCountSpdz viewCountSpdz
    rw [← Set.InjOn.ncard_image (f := fun t : List Bool => (r, rs, t)) (fun a _ b _ h => by simpa using h)]
    congr 1
    ext ⟨r', rs', t⟩
    constructor
    · rintro ⟨⟨e1, e2, e3, e4⟩, e5, e6, e7⟩
      have hr' : r' = r := ur r' ⟨by rw [hl]; exact e1, e5⟩
      have hrs' : rs' = rs := urs rs' ⟨⟨by rw [List.length_map]; exact e2, e3⟩, by rw [List.zipWith_map_left]; exact e6⟩
      subst hr' hrs'
      exact ⟨t, ⟨e4, e7⟩, rfl⟩
    · rintro ⟨t', ⟨e4, e7⟩, e⟩
      simp only [Prod.mk.injEq] at e
      obtain ⟨rfl, rfl, rfl⟩ := e
      exact ⟨⟨by rw [hr, hl], h1, h2, e4⟩, hd, h3, e7⟩

/-- The joint distribution of the shares that party `i` gets from the client and the messages it receives during the query
depends only on the number of database entries, the masks, the answer and the state of party `i` (which contains its share
of the MAC key). -/
theorem C87_whole_view (H : Hash) (hK : 15 ≤ K) (hK2 : K ≤ 128) (signed : Bool) (m : Nat) (hm0 : m ≠ 0)
    (cs : Nat) (hcs : cs ≠ 0) (hov : (m + cs) * (2 * K) < 2 ^ 64) (he : EnoughTriples K m cs 0) :
    ∃ n₀, ∀ (i : Party) (key key' : BitVec (verifWidth K)) (q q' : IrisCode) (db db' : List IrisCode)
      (st st' : Party → SpdzSt (idealPrg f) (verifWidth K)),
      db.length = m → db'.length = m → q.mask = q'.mask → (db.map fun c => c.mask) = db'.map (fun c => c.mask) →
      (∀ c ∈ db, 8960 ≤ commonBits c q) → (∀ c ∈ db', 8960 ≤ commonBits c q') →
      SpdzOk key 0 0 st → SpdzOk key' 0 0 st' → (∀ j, (st j).verifyQueue = []) → (∀ j, (st' j).verifyQueue = []) →
      st i = st' i → inDb q db = inDb q' db' →
      ∀ n ≥ n₀, ∀ (s : List (SShare (verifWidth K))) (ss : List (List (SShare (verifWidth K)))) (v : Log),
        wholeCountSpdz f H K signed key q db cs st i n s ss v = wholeCountSpdz f H K signed key' q' db' cs st' i n s ss v := by
  obtain ⟨n₀, h⟩ := C87_query_private (f := f) H hK hK2 signed m hm0 cs hcs hov he
  refine ⟨n₀, fun i key key' q q' db db' st st' hl hl' hq hd hm hm' hst hst' hv hv' est hin n hn s ss v => ?_⟩
  by_cases hs : s.length = 12800 ∧ ss.length = m ∧ ∀ l ∈ ss, l.length = 12800
  · obtain ⟨hs, hss, hsl⟩ := hs
    obtain ⟨a, b, rfl, rfl, ha, hb, e⟩ := wholeCountSpdz_eq H hK hK2 signed key q db cs st i n s ss v hs (by rw [hss, hl]) hsl
    obtain ⟨a', b', ea, eb, ha', hb', e'⟩ := wholeCountSpdz_eq H hK hK2 signed key' q' db' cs st' i n (a i) (b i) v hs (by rw [hss, hl']) hsl
    rw [e, e']
    exact h i key key' q q' db db' a a' b b' st st' hl hl' hq hd hm hm' ha hb ha' hb' hst hst' hv hv' ea.symm eb.symm est hin n hn v
  · have empty : ∀ (key : BitVec (verifWidth K)) (q : IrisCode) (db : List IrisCode) st, db.length = m →
        wholeCountSpdz f H K signed key q db cs st i n s ss v = 0 := by
      intro key q db st hl
      unfold wholeCountSpdz
      rw [show {x : List (BitVec (verifWidth K) × BitVec (verifWidth K) × BitVec (verifWidth K) × BitVec (verifWidth K)) ×
        List (List (BitVec (verifWidth K) × BitVec (verifWidth K) × BitVec (verifWidth K) × BitVec (verifWidth K))) × List Bool | _} = ∅ from ?_]
      · exact Set.ncard_empty _
      · refine Set.eq_empty_iff_forall_notMem.2 ?_
        rintro ⟨r, rs, t⟩ ⟨⟨e1, e2, e3, -⟩, e5, e6, -⟩
        refine hs ⟨?_, ?_, ?_⟩
        · rw [← e5, dealtMac, List.length_zipWith, MpcLawful.encode_length, e1]; rfl
        · rw [← e6, List.length_zipWith, e2, hl, Nat.min_self]
        · intro l hl
          rw [← e6] at hl
          obtain ⟨c, -, r', hr', rfl⟩ := Uni.mem_zipWith hl
          rw [dealtMac, List.length_zipWith, MpcLawful.encode_length, e3 r' hr']; rfl
    rw [empty key q db st hl, empty key' q' db' st' hl']

/-! ## The building blocks -/

/-- AND gates: nothing about the inputs, whatever they are, and whatever the states are. (The check comes later.) -/
theorem C87_and_many_private (m : Nat) (i : Party) (a b a' b' : Party → List (AShare K)) (key key' : BitVec V) (p u p' u' L : Nat)
    (st st' : Party → SpdzSt (idealPrg f) V) (h1 : ∀ j, (a j).length = m) (h2 : ∀ j, (b j).length = m) (h3 : ∀ j, (a' j).length = m)
    (h4 : ∀ j, (b' j).length = m) (hst : SpdzOk key p u st) (hst' : SpdzOk key' p' u' st') (hL : ∀ j, (st j).verifyQueue.length = L)
    (hL' : ∀ j, (st' j).verifyQueue.length = L) (n : Nat) (hn : K * m ≤ n) (v : Log) :
    viewCountSpdz (fun j => Spdz.andMany j (a j) (b j)) st i n v = viewCountSpdz (fun j => Spdz.andMany j (a' j) (b' j)) st' i n v := by
  have shape : ∀ {key : BitVec V} {p u : Nat} {st : Party → SpdzSt (idealPrg f) V}, SpdzOk key p u st → ∀ j, BufShape (st j).buffer := by
    intro key p u st h j hb
    obtain ⟨ws, bits, h1, h2, h3, h4, h5⟩ := h.2.2.2.2
    obtain ⟨xs, ys, hx, hy, ha, hb', hc⟩ := h1
    have := h2 j
    have hw : ws ≠ 0 := by omega
    refine ⟨?_, ?_, ?_⟩ <;> intro he <;> apply hw
    · rw [← hx, ← ha.length j, he]; rfl
    · rw [← hy, ← hb'.length j, he]; rfl
    · have := hc.length j
      simp only [he, List.length_nil, List.length_zipWith, hx, hy, Nat.min_self] at this
      exact this.symm
  have := (andMany_cplB (f := f) (V := V) (i := i) (L := L) (m := m) (a := Bool.rec a a') (b := Bool.rec b b') (by rintro (_ | _) <;> assumption)
    (by rintro (_ | _) <;> assumption)).count (st := Bool.rec st st') (by
      rintro (_ | _) j
      · exact ⟨shape hst j, hL j⟩
      · exact ⟨shape hst' j, hL' j⟩) n hn v
  exact this

/-- The verification of the MACs of `L` values: nothing about the values, nor about the key. -/
theorem C87_verify_macs_private (H : Hash) (L : Nat) : ∃ n₀, ∀ (i : Party) (key key' : BitVec V) (u : Nat)
    (st st' : Party → SpdzSt (idealPrg f) V), SpdzOk key 0 u st → SpdzOk key' 0 u st' → (∀ j, (st j).verifyQueue.length = L) →
    (∀ j, (st' j).verifyQueue.length = L) → st i = st' i → ∀ n ≥ n₀, ∀ v : Log,
      viewCountSpdz (fun j => Spdz.verifyMacs H j) st i n v = viewCountSpdz (fun j => Spdz.verifyMacs H j) st' i n v := by
  refine ⟨macBits V L, fun i key key' u st st' hst hst' hL hL' est n hn v => ?_⟩
  have hT : TwinS i (Bool.rec key key') u (Bool.rec st st' : Bool → Party → SpdzSt (idealPrg f) V) :=
    TwinS.start (by rintro (_ | _) <;> assumption) est
  have := (verifyMacs_cpl (i := i) (x := u) (L := L) (f := f) (r := Bool.rec key key') H).count (st := Bool.rec st st') ⟨hT, fun w j =>
    ⟨hT.buf w j, by cases w; exacts [hL j, hL' j]⟩⟩ n hn v
  exact this

/-- The extraction of most significant bits, which includes the verification of all MACs. -/
theorem C87_get_msb_many_private (H : Hash) (hK : 3 ≤ K) (hK2 : K ≤ V) (L N : Nat) (hN : N ≠ 0) : ∃ n₀, ∀ (i : Party) (key key' : BitVec V) (u : Nat)
    (xs xs' : List (BitVec V)) (a a' : Party → List (SShare V)) (st st' : Party → SpdzSt (idealPrg f) V), xs.length = N → xs'.length = N →
    Rels (MacSharesOf key) xs a → Rels (MacSharesOf key') xs' a' → a i = a' i → SpdzOk key 0 u st → SpdzOk key' 0 u st' →
    (∀ j, (st j).verifyQueue.length = L) → (∀ j, (st' j).verifyQueue.length = L) → st i = st' i → ∀ n ≥ n₀, ∀ v : Log,
      viewCountSpdz (fun j => Spdz.getMsbMany H K j (a j)) st i n v = viewCountSpdz (fun j => Spdz.getMsbMany H K j (a' j)) st' i n v := by
  obtain ⟨n₀, h⟩ := getMsbMany_cpl (f := f) (H := H) hK hK2 L N hN
  refine ⟨n₀, fun i key key' u xs xs' a a' st st' h1 h2 ha ha' ea hst hst' hL hL' est n hn v => ?_⟩
  have hT : TwinS i (Bool.rec key key') u (Bool.rec st st' : Bool → Party → SpdzSt (idealPrg f) V) :=
    TwinS.start (by rintro (_ | _) <;> assumption) est
  have := (h i (Bool.rec key key') u (Bool.rec xs xs') (Bool.rec a a') (by rintro (_ | _) <;> assumption)
    (by rintro (_ | _) <;> assumption) ea).count (st := Bool.rec st st') ⟨hT, fun w j => ⟨hT.buf w j, by cases w; exacts [hL j, hL' j]⟩⟩ n hn v
  exact this

/-! ## The hypotheses can be met -/

/-- A new backend with a share of a MAC key, empty tapes in the known generators, and a message waiting to be compared in
every queue. -/
def spdzTapes (f : Bytes → List Bool) {V : Nat} (key : BitVec V) : Party → SpdzSt (idealPrg f) V := fun i =>
  ⟨jmpTapes f i, exShare key i, [], Triples.empty, Triples.empty⟩

theorem spdzTapes_ok (f : Bytes → List Bool) (key : BitVec V) : SpdzOk key 0 0 (spdzTapes f key) :=
  ⟨⟨fun _ => rfl, fun _ => rfl⟩, exShare_ok key, ⟨[], Rels.nil⟩, ⟨⟨[], [], rfl, rfl, Rels.nil, Rels.nil, Rels.nil⟩, fun _ => rfl⟩,
    0, 128, ⟨[], [], rfl, rfl, Rels.nil, Rels.nil, Rels.nil⟩, fun _ => rfl, by omega, by omega, by omega⟩

/-- Two worlds with different codes and different MAC keys in which party 1 has the same state and the same shares. -/
example (f : Bytes → List Bool) (c d : IrisCodeArray) : let e : IrisCode := ⟨c, IrisCodeArray.ones⟩; let e' : IrisCode := ⟨d, IrisCodeArray.ones⟩
    15 ≤ 16 ∧ 16 ≤ 128 ∧ EnoughTriples 16 3 256 0 ∧ (3 + 256) * (2 * 16) < 2 ^ 64 ∧ [e, e, e].length = 3 ∧ e.mask = e'.mask ∧
    ([e, e, e].map fun c => c.mask) = [e', e', e'].map (fun c => c.mask) ∧ (∀ x ∈ [e, e, e], 8960 ≤ commonBits x e) ∧
    Rels (MacSharesOf 77) (encode (verifWidth 16) e.code) (fun i => (encode (verifWidth 16) e.code).map (exMacShare 77 · i)) ∧
    (fun i : Party => (encode (verifWidth 16) e.code).map (exMacShare 77 · i)) 1 =
      (fun i => (encode (verifWidth 16) e'.code).map (exMacShare 1234 · i)) 1 ∧
    SpdzOk 77#(verifWidth 16) 0 0 (spdzTapes f 77) ∧ SpdzOk 1234#(verifWidth 16) 0 0 (spdzTapes f 1234) ∧
    (∀ j, (spdzTapes f (77#(verifWidth 16)) j).verifyQueue = []) ∧
    spdzTapes f (77#(verifWidth 16)) 1 = spdzTapes f (1234#(verifWidth 16)) 1 ∧ inDb e [e, e, e] = inDb e' [e', e', e'] := by
  intro e e'
  have hc : ∀ c : IrisCodeArray, commonBits ⟨c, IrisCodeArray.ones⟩ ⟨c, IrisCodeArray.ones⟩ = 12800 := fun c => fullMask_common c c
  have hd : ∀ c : IrisCodeArray, hammingDistance ⟨c, IrisCodeArray.ones⟩ ⟨c, IrisCodeArray.ones⟩ = 0 := fun c => by
    rw [distance_full]; simp
  refine ⟨by decide, by decide, C29_multiple (by decide) 3 2 (by decide) (by decide), by decide, rfl, rfl, rfl, fun x hx => ?_,
    exMacShares_ok _ _, ?_, spdzTapes_ok f _, spdzTapes_ok f _, fun _ => rfl, rfl, ?_⟩
  · have : x = e := by simpa using hx
    rw [this, hc]; omega
  · have : ∀ (k : BitVec (verifWidth 16)) (x : IrisCodeArray), (encode (verifWidth 16) x).map (exMacShare k · 1) =
        List.replicate 12800 (⟨⟨11, 3⟩, ⟨11, 3⟩⟩ : SShare (verifWidth 16)) := fun k x => by
      rw [List.eq_replicate_iff]
      refine ⟨by rw [List.length_map, MpcLawful.encode_length]; rfl, fun y hy => ?_⟩
      obtain ⟨z, -, rfl⟩ := List.mem_map.1 hy
      rfl
    exact (this _ c).trans (this _ d).symm
  · simp only [inDb, List.any_cons, List.any_nil]
    rw [hd, hc, hd, hc]

/-- Two queues with different values, the same for party 1. -/
example (f : Bytes → List Bool) (V : Nat) : let st : BitVec V → Party → SpdzSt (idealPrg f) V := fun x i =>
      { spdzTapes f 5 i with verifyQueue := [exMacShare 5 x i, exMacShare 5 1 i] }
    SpdzOk 5 0 0 (st 3) ∧ SpdzOk 5 0 0 (st 7) ∧ (∀ j, (st 3 j).verifyQueue.length = 2) ∧ st 3 1 = st 7 1 := by
  intro st
  have h : ∀ x, SpdzOk 5 0 0 (st x) := fun x => by
    obtain ⟨h1, h2, -, h4⟩ := spdzTapes_ok (V := V) f 5
    exact ⟨h1, h2, ⟨[x, 1], Rels.cons (exMacShare_ok _ _) (Rels.cons (exMacShare_ok _ _) Rels.nil)⟩, h4⟩
  exact ⟨h 3, h 7, fun _ => rfl, rfl⟩

end Verif
