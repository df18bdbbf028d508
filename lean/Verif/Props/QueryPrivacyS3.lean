import Verif.Proof.S3LockOpen
import Verif.Props.Swift3
import Verif.Props.Privacy
import Verif.Props.QueryPrivacyMal

/-! # C89: what one party learns from the computation and the opening of a query over the Swift3 backend

Perfect privacy against one semi-honest party: the messages of the gates (the resharing of the masks, the sharing of the
cross terms, the exchange of masked values), of the comparison of queues and of the opening. The party knows its shares, the
masks (which are public), its three random generators and the messages it receives. The generator that the other two parties
have in common is the ideal one of `Spec/PrivacyMal.lean`; probabilities are numbers of its tapes. What the hash function is
(`H`) does not matter.

The query is the one of `iris.rs` with a `verify` that does nothing. The messages of `verify` are distributed proofs, and a
party that sees them learns nothing else when the challenges are not interpolation points: this is C88. -/

namespace Verif

open Swift3

attribute [local irreducible] hammingDistance commonBits encode

variable {K : Nat} {f : Bytes → List Bool}

/-- Every tape, of any length, leads to exactly one view: the numbers of tapes below add up to all of them. -/
theorem C89_one_view (H : Hash) (hK : 15 ≤ K) (signed : Bool) (q : IrisCode) (db : List IrisCode)
    (hne : db ≠ []) (hm : ∀ c ∈ db, 8960 ≤ commonBits c q) (a : Party → List (S3Share K))
    (b : Party → List (List (S3Share K))) (ha : Rels S3SharesOf (encode K q.code) a)
    (hb : Rels (Rels S3SharesOf) (db.map fun c => encode K c.code) b)
    (cs : Nat) (hcs : cs ≠ 0) (hov : (db.length + cs) * (2 * K) < 2 ^ 64) (u v : Nat) (w : DotCount) (hw : w.size ≤ 12800)
    (st : Party → S3St (idealPrg f) K) (hst : S3Ok u v w st) (i : Party) (t : List Bool) :
    ∃! l, Sees (fun j => Iris.irisInDb (Swift3.ops (idealPrg f) H K signed (pure ()) j) (a j) (b j) q.mask (db.map fun c => c.mask) cs
      (s3TapeIn i t st j)) i l := by
  have L := Swift3.mpcLawful (idealPrg f) H (show 0 < K by omega) signed (fun _ => pure ()) u v w 0 0
  have hW : WPS (fun j => Iris.irisInDb (Swift3.ops (idealPrg f) H K signed (pure ()) j) (a j) (b j) q.mask (db.map fun c => c.mask) cs)
      (s3TapeIn i t st) fun _ _ => True := by
    have hl : ∀ j, (b j).length = (db.map fun c => c.mask).length := fun j => by rw [hb.length, List.length_map, List.length_map]
    have hne' : ∀ j, b j ≠ [] := fun j h => hne (by
      have := hl j
      rw [h, List.length_map] at this
      exact List.length_eq_zero_iff.1 this.symm)
    simp only [fun j => MpcLawful.irisInDb_eq (Swift3.ops (idealPrg f) H K signed (pure ()) j) (a j) (hne' j) q.mask
      (db.map fun c => c.mask) (hl j) cs]
    refine WPS.bind ((L.queryBody_wp hK (le_refl K) ha hne hm hb hcs trivial hov
      ⟨w.size, ⟨hw, fun h => absurd rfl h⟩, s3TapeIn_ok hst i t⟩).mono ?_)
    rintro r s' ⟨hr, x, d, ⟨sz, -, hs'⟩, -⟩
    exact WPS.bind (WPS.pure ((openBit_wp hr hs').mono fun _ _ _ => trivial))
  obtain ⟨r, hr, -⟩ := hW
  obtain ⟨l, hl⟩ := hr.recorded (fun _ => [])
  exact ⟨_, (Sees.of_runs hl _).2 rfl, fun v hv => (Sees.of_runs hl v).1 hv⟩

/-- The messages that party `i` receives during the computation and the opening of `iris_in_db` have the same distribution
in any two situations that the party cannot tell apart by its own state, its own shares, the masks and the answer: the query
and the database may differ, and so may the states and shares of the other two parties. `v` is any list of messages. -/
theorem C89_query_private (H : Hash) (hK : 15 ≤ K) (signed : Bool) (m : Nat) (hm0 : m ≠ 0)
    (cs : Nat) (hcs : cs ≠ 0) (hov : (m + cs) * (2 * K) < 2 ^ 64) :
    ∃ n₀, ∀ (i : Party) (q q' : IrisCode) (db db' : List IrisCode) (a a' : Party → List (S3Share K))
      (b b' : Party → List (List (S3Share K))) (u u' x x' : Nat) (w w' : DotCount) (st st' : Party → S3St (idealPrg f) K),
      db.length = m → db'.length = m → q.mask = q'.mask → (db.map fun c => c.mask) = db'.map (fun c => c.mask) →
      (∀ c ∈ db, 8960 ≤ commonBits c q) → (∀ c ∈ db', 8960 ≤ commonBits c q') →
      Rels S3SharesOf (encode K q.code) a → Rels (Rels S3SharesOf) (db.map fun c => encode K c.code) b →
      Rels S3SharesOf (encode K q'.code) a' → Rels (Rels S3SharesOf) (db'.map fun c => encode K c.code) b' →
      S3Ok u x w st → S3Ok u' x' w' st' → w.size ≤ 12800 → w'.size ≤ 12800 →
      a i = a' i → b i = b' i → st i = st' i → inDb q db = inDb q' db' →
      ∀ n ≥ n₀, ∀ v : Log,
        viewCountS3 (fun j => Iris.irisInDb (Swift3.ops (idealPrg f) H K signed (pure ()) j) (a j) (b j) q.mask (db.map fun c => c.mask) cs)
          st i n v =
        viewCountS3 (fun j => Iris.irisInDb (Swift3.ops (idealPrg f) H K signed (pure ()) j) (a' j) (b' j) q'.mask (db'.map fun c => c.mask) cs)
          st' i n v := by
  choose N hN using fun i => S3Cpl.queryBody (f := f) (H := H) (v := pure ()) i hK signed hcs m hm0 hov
  refine ⟨N 0 + N 1 + N 2, fun i q q' db db' a a' b b' u u' x x' w w' st st' hl hl' hq hd hm hm' ha hb ha' hb' hst hst' hw hw' ea eb est hin n hn v => ?_⟩
  have hni : N i ≤ n := by
    refine le_trans ?_ hn
    match i with
    | 0 => omega
    | 1 => omega
    | 2 => omega
  have hbl : ∀ j, (b j).length = m := fun j => by rw [hb.length, List.length_map, hl]
  have hbl' : ∀ j, (b' j).length = m := fun j => by rw [hb'.length, List.length_map, hl']
  have hes : ∀ c : IrisCodeArray, (encode K c).length = irisCodeSize := fun c => MpcLawful.encode_length _
  have hrow : ∀ {db : List IrisCode} {b : Party → List (List (S3Share K))}, Rels (Rels S3SharesOf) (db.map fun c => encode K c.code) b →
      ∀ j, ∀ l ∈ b j, l.length = irisCodeSize := by
    intro db b hb j l hl
    obtain ⟨js, h, rfl⟩ := hb
    obtain ⟨s, hs, rfl⟩ := List.mem_map.1 hl
    obtain ⟨k, hk, rfl⟩ := List.mem_iff_getElem.1 hs
    have hk' : k < (db.map fun c => encode K c.code).length := by rw [h.length_eq]; exact hk
    have := ((List.forall₂_iff_get.1 h).2 k hk' hk).length j
    simp only [List.get_eq_getElem, List.getElem_map, hes] at this
    exact this
  have hC := hN i q db (Bool.rec a a') (Bool.rec b b') hl (fun c hc => by rw [MpcLawful.commonBits_comm]; exact hm c hc)
    (by rintro (_ | _) j; exacts [by rw [← hes q.code]; exact ha.length j, by rw [← hes q'.code]; exact ha'.length j])
    (by rintro (_ | _) j; exacts [⟨hbl j, hrow hb j⟩, ⟨hbl' j, hrow hb' j⟩])
  have := s3Open_count (H := H) (i := i) (x := bitOf (inDb q db)) (st := Bool.rec st st') hC (by simp only [ea, eb])
    (Twin3.start (by rintro (_ | _); exacts [⟨_, _, _, hst⟩, ⟨_, _, _, hst'⟩]) est) (by
      rintro (_ | _) t
      · refine ((Swift3.mpcLawful (idealPrg f) H (show 0 < K by omega) signed (fun _ => pure ()) u x w 0 0).queryBody_wp hK (le_refl K) ha
          (by intro h; rw [h] at hl; exact hm0 hl.symm) hm hb hcs trivial (by rw [hl]; exact hov)
          ⟨w.size, ⟨hw, fun h => absurd rfl h⟩, s3TapeIn_ok hst i t⟩).mono ?_
        rintro r s' ⟨hr, y, d, ⟨sz, -, hs'⟩, -⟩
        exact ⟨hr, _, _, _, hs'⟩
      · rw [hq, hd, hin]
        refine ((Swift3.mpcLawful (idealPrg f) H (show 0 < K by omega) signed (fun _ => pure ()) u' x' w' 0 0).queryBody_wp hK (le_refl K) ha'
          (by intro h; rw [h] at hl'; exact hm0 hl'.symm) hm' hb' hcs trivial (by rw [hl']; exact hov)
          ⟨w'.size, ⟨hw', fun h => absurd rfl h⟩, s3TapeIn_ok hst' i t⟩).mono ?_
        rintro r s' ⟨hr, y, d, ⟨sz, -, hs'⟩, -⟩
        exact ⟨hr, _, _, _, hs'⟩) n hni v
  have eq : ∀ (a : List (S3Share K)) (b : List (List (S3Share K))) (j : Party), b.length = m →
      Iris.irisInDb (Swift3.ops (idealPrg f) H K signed (pure ()) j) a b q.mask (db.map fun c => c.mask) cs =
      Iris.queryBody (Swift3.ops (idealPrg f) H K signed (pure ()) j) a b q.mask (db.map fun c => c.mask) cs >>= openBit H j := by
    intro a b j hb
    rw [MpcLawful.irisInDb_eq _ _ (by intro h; rw [h] at hb; exact hm0 hb.symm) _ _ (by rw [hb, List.length_map, hl])]
    rfl
  rw [← hq, ← hd]
  simp only [eq _ _ _ (hbl _), eq _ _ _ (hbl' _)]
  exact this

/-- Everything before the opening tells a party nothing at all, not even whether there is a match: nothing is assumed
about the shares except for their numbers, and nothing about the states. -/
theorem C89_computation_private (H : Hash) (hK : 15 ≤ K) (signed : Bool) (m : Nat) (hm0 : m ≠ 0)
    (cs : Nat) (hcs : cs ≠ 0) (hov : (m + cs) * (2 * K) < 2 ^ 64) :
    ∃ n₀, ∀ (i : Party) (q : IrisCode) (db : List IrisCode) (a a' : Party → List (S3Share K))
      (b b' : Party → List (List (S3Share K))) (st st' : Party → S3St (idealPrg f) K),
      db.length = m → (∀ c ∈ db, 8960 ≤ commonBits q c) →
      (∀ j, (a j).length = 12800 ∧ (a' j).length = 12800) → (∀ j, (b j).length = m ∧ (b' j).length = m) →
      (∀ j, (∀ l ∈ b j, l.length = 12800) ∧ ∀ l ∈ b' j, l.length = 12800) →
      ∀ n ≥ n₀, ∀ v : Log,
        viewCountS3 (fun j => Iris.queryBody (Swift3.ops (idealPrg f) H K signed (pure ()) j) (a j) (b j) q.mask (db.map fun c => c.mask) cs) st i n v =
        viewCountS3 (fun j => Iris.queryBody (Swift3.ops (idealPrg f) H K signed (pure ()) j) (a' j) (b' j) q.mask (db.map fun c => c.mask) cs) st' i n v := by
  choose N hN using fun i => S3Cpl.queryBody (f := f) (H := H) (v := pure ()) i hK signed hcs m hm0 hov
  refine ⟨N 0 + N 1 + N 2, fun i q db a a' b b' st st' hl hm ha hb hr n hn v => ?_⟩
  have hni : N i ≤ n := by
    refine le_trans ?_ hn
    match i with
    | 0 => omega
    | 1 => omega
    | 2 => omega
  have hC := hN i q db (Bool.rec a a') (Bool.rec b b') hl hm (by rintro (_ | _) j; exacts [(ha j).1, (ha j).2])
    (by rintro (_ | _) j; exacts [⟨(hb j).1, (hr j).1⟩, ⟨(hb j).2, (hr j).2⟩])
  have := hC.count (Bool.rec st st') n hni v
  exact this

/-! ## Together with the sharing by the client -/

/-- Shares of a list of ring elements as the client makes them with `share`, from three masks for each element. -/
def dealtS3 (xs : List (BitVec K)) (rnd : List (BitVec K × BitVec K × BitVec K)) (i : Party) : List (S3Share K) :=
  List.zipWith (fun x r => (Swift3.share x r.1 r.2.1 r.2.2)[i.val]'(by have := i.isLt; simp [Swift3.share])) xs rnd

theorem dealtS3_ok (xs : List (BitVec K)) (rnd : List (BitVec K × BitVec K × BitVec K)) (h : rnd.length = xs.length) :
    Rels S3SharesOf xs (dealtS3 xs rnd) := by
  induction xs generalizing rnd with
  | nil => exact Rels.nil
  | cons x xs ih =>
    cases rnd with
    | nil => simp at h
    | cons r rs =>
      exact Rels.cons (b := fun i : Party => (Swift3.share x r.1 r.2.1 r.2.2)[i.val]'(by have := i.isLt; simp [Swift3.share]))
        (.mk' rfl rfl rfl rfl rfl rfl) (ih rs (by simpa using h))

theorem dealtS3_unique (i : Party) : ∀ (xs : List (BitVec K)) (s : List (S3Share K)), s.length = xs.length →
    ∃! r : List (BitVec K × BitVec K × BitVec K), r.length = xs.length ∧ dealtS3 xs r i = s := by
  intro xs
  induction xs with
  | nil =>
    intro s hs
    refine ⟨[], ⟨rfl, ?_⟩, fun r hr => List.length_eq_zero_iff.1 hr.1⟩
    rw [List.length_eq_zero_iff.1 hs]; rfl
  | cons x xs ih =>
    intro s hs
    cases s with
    | nil => simp at hs
    | cons s ss =>
      obtain ⟨⟨r1, r2, r3⟩, hr, ur⟩ := C20_swift3 x i s
      obtain ⟨rs, ⟨h1, h2⟩, urs⟩ := ih ss (by simpa using hs)
      have e : ∀ r : BitVec K × BitVec K × BitVec K, (Swift3.share x r.1 r.2.1 r.2.2)[i.val]? = some s ↔
          (Swift3.share x r.1 r.2.1 r.2.2)[i.val]'(by have := i.isLt; simp [Swift3.share]) = s := fun r => by
        rw [List.getElem?_eq_getElem (by have := i.isLt; simp [Swift3.share]), Option.some.injEq]
      refine ⟨(r1, r2, r3) :: rs, ⟨by simp [h1], ?_⟩, ?_⟩
      · show _ :: dealtS3 xs rs i = _
        beta_reduce
        rw [(e (r1, r2, r3)).1 hr, h2]
      · rintro (_ | ⟨⟨r1', r2', r3'⟩, rs'⟩) ⟨h3, h4⟩
        · simp at h3
        · change _ :: dealtS3 xs rs' i = _ at h4
          rw [List.cons.injEq] at h4
          have := ur ⟨r1', r2', r3'⟩ ((e (r1', r2', r3')).2 h4.1)
          simp only [Prod.mk.injEq] at this
          obtain ⟨rfl, rfl, rfl⟩ := this
          rw [urs rs' ⟨by simpa using h3, h4.2⟩]

theorem dealtsS3_unique (i : Party) {N : Nat} : ∀ (xss : List (List (BitVec K))) (ss : List (List (S3Share K))),
    ss.length = xss.length → (∀ xs ∈ xss, xs.length = N) → (∀ s ∈ ss, s.length = N) →
    ∃! rs : List (List (BitVec K × BitVec K × BitVec K)), (rs.length = xss.length ∧ ∀ r ∈ rs, r.length = N) ∧
      List.zipWith (fun xs r => dealtS3 xs r i) xss rs = ss := by
  intro xss
  induction xss with
  | nil =>
    intro ss hs _ _
    refine ⟨[], ⟨⟨rfl, by simp⟩, ?_⟩, fun r hr => List.length_eq_zero_iff.1 hr.1.1⟩
    rw [List.length_eq_zero_iff.1 hs]; rfl
  | cons xs xss ih =>
    intro ss hs h1 h2
    cases ss with
    | nil => simp at hs
    | cons s ss =>
      have hx : xs.length = N := h1 xs (by simp)
      obtain ⟨r, ⟨hr, hd⟩, ur⟩ := dealtS3_unique i xs s (by rw [hx]; exact h2 s (by simp))
      obtain ⟨rs, ⟨⟨h3, h4⟩, h5⟩, urs⟩ := ih ss (by simpa using hs) (fun x h => h1 x (by simp [h])) fun x h => h2 x (by simp [h])
      refine ⟨r :: rs, ⟨⟨by simp [h3], fun x hx' => ?_⟩, by simp [hd, h5]⟩, ?_⟩
      · rcases List.mem_cons.1 hx' with rfl | h
        · rw [hr, hx]
        · exact h4 x h
      · rintro (_ | ⟨r', rs'⟩) ⟨⟨h6, h7⟩, h8⟩
        · simp at h6
        · rw [List.zipWith_cons_cons, List.cons.injEq] at h8
          rw [ur r' ⟨by rw [hx]; exact h7 r' (by simp), h8.1⟩,
            urs rs' ⟨⟨by simpa using h6, fun x h => h7 x (by simp [h])⟩, h8.2⟩]

/-- The number of choices of the client's randomness (three masks for each shared bit of the query and of the database) and
of the tape with which party `i` obtains the shares `s` of the query and `ss` of the database from `share` and then sees the
messages `v`. -/
noncomputable def wholeCountS3 (f : Bytes → List Bool) (H : Hash) (K : Nat) (signed : Bool) (q : IrisCode)
    (db : List IrisCode) (cs : Nat) (st : Party → S3St (idealPrg f) K) (i : Party) (n : Nat)
    (s : List (S3Share K)) (ss : List (List (S3Share K))) (v : Log) : Nat :=
  Set.ncard {x : List (BitVec K × BitVec K × BitVec K) × List (List (BitVec K × BitVec K × BitVec K)) × List Bool |
    (x.1.length = 12800 ∧ x.2.1.length = db.length ∧ (∀ r ∈ x.2.1, r.length = 12800) ∧ x.2.2.length = n) ∧
    dealtS3 (encode K q.code) x.1 i = s ∧ List.zipWith (fun c r => dealtS3 (encode K c.code) r i) db x.2.1 = ss ∧
    Sees (fun j => Iris.irisInDb (Swift3.ops (idealPrg f) H K signed (pure ()) j) (dealtS3 (encode K q.code) x.1 j)
      (List.zipWith (fun c r => dealtS3 (encode K c.code) r j) db x.2.1) q.mask (db.map fun c => c.mask) cs
      (s3TapeIn i x.2.2 st j)) i v}

/-- For given shares the sharing randomness is unique. -/
theorem wholeCountS3_eq (H : Hash) (signed : Bool) (q : IrisCode) (db : List IrisCode)
    (cs : Nat) (st : Party → S3St (idealPrg f) K) (i : Party) (n : Nat) (s : List (S3Share K))
    (ss : List (List (S3Share K))) (v : Log) (hs : s.length = 12800) (hss : ss.length = db.length) (hsl : ∀ l ∈ ss, l.length = 12800) :
    ∃ (a : Party → List (S3Share K)) (b : Party → List (List (S3Share K))), a i = s ∧ b i = ss ∧
      Rels S3SharesOf (encode K q.code) a ∧ Rels (Rels S3SharesOf) (db.map fun c => encode K c.code) b ∧
      wholeCountS3 f H K signed q db cs st i n s ss v =
        viewCountS3 (fun j => Iris.irisInDb (Swift3.ops (idealPrg f) H K signed (pure ()) j) (a j) (b j) q.mask (db.map fun c => c.mask) cs)
          st i n v := by
  have hl : ∀ c : IrisCodeArray, (encode K c).length = 12800 := fun c => MpcLawful.encode_length _
  obtain ⟨r, ⟨hr, hd⟩, ur⟩ := dealtS3_unique i (encode K q.code) s (by rw [hl, hs])
  obtain ⟨rs, ⟨⟨h1, h2⟩, h3⟩, urs⟩ := dealtsS3_unique i (N := 12800) (db.map fun c => encode K c.code) ss (by simp [hss])
    (fun xs hxs => by obtain ⟨c, -, rfl⟩ := List.mem_map.1 hxs; exact hl _) hsl
  rw [List.length_map] at h1
  rw [List.zipWith_map_left] at h3
  refine ⟨dealtS3 (encode K q.code) r, fun j => List.zipWith (fun c r => dealtS3 (encode K c.code) r j) db rs, hd, h3, ?_, ?_, ?_⟩
  · exact dealtS3_ok (encode K q.code) r hr
  · clear h3 urs hss
    induction db generalizing rs with
    | nil => exact Rels.nil
    | cons c db ih =>
      cases rs with
      | nil => simp at h1
      | cons r rs =>
        have h5 := dealtS3_ok (encode K c.code) r (by rw [h2 r (by simp), hl])
        exact Rels.cons (b := dealtS3 (encode K c.code) r) h5 (ih rs (by simpa using h1) fun r hr => h2 r (by simp [hr]))
  · unfold wholeCountS3 viewCountS3
    rw [← Set.InjOn.ncard_image (f := fun t : List Bool => (r, rs, t)) (fun a _ b _ h => by simpa using h)]
    congr 1
    ext ⟨r', rs', t⟩
    constructor
    · rintro ⟨⟨e1, e2, e3, e4⟩, e5, e6, e7⟩
      have hr' : r' = r := ur r' ⟨by rw [hl]; exact e1, e5⟩
      have hrs' : rs' = rs := urs rs' ⟨⟨by rw [List.length_map]; exact e2, e3⟩, by rw [List.zipWith_map_left]; exact e6⟩
      subst hr' hrs'
      exact ⟨t, ⟨e4, e7⟩, rfl⟩
    · rintro ⟨t', ⟨e4, e7⟩, e⟩
      simp only [Prod.mk.injEq] at e
      obtain ⟨rfl, rfl, rfl⟩ := e
      exact ⟨⟨by rw [hr, hl], h1, h2, e4⟩, hd, h3, e7⟩

/-- The joint distribution of the shares that party `i` gets from the client and the messages it receives during the
computation and the opening depends only on the number of database entries, the masks, the answer and the state of party
`i`. -/
theorem C89_whole_view (H : Hash) (hK : 15 ≤ K) (signed : Bool) (m : Nat) (hm0 : m ≠ 0)
    (cs : Nat) (hcs : cs ≠ 0) (hov : (m + cs) * (2 * K) < 2 ^ 64) :
    ∃ n₀, ∀ (i : Party) (q q' : IrisCode) (db db' : List IrisCode) (u u' x x' : Nat) (w w' : DotCount)
      (st st' : Party → S3St (idealPrg f) K),
      db.length = m → db'.length = m → q.mask = q'.mask → (db.map fun c => c.mask) = db'.map (fun c => c.mask) →
      (∀ c ∈ db, 8960 ≤ commonBits c q) → (∀ c ∈ db', 8960 ≤ commonBits c q') →
      S3Ok u x w st → S3Ok u' x' w' st' → w.size ≤ 12800 → w'.size ≤ 12800 →
      st i = st' i → inDb q db = inDb q' db' →
      ∀ n ≥ n₀, ∀ (s : List (S3Share K)) (ss : List (List (S3Share K))) (v : Log),
        wholeCountS3 f H K signed q db cs st i n s ss v = wholeCountS3 f H K signed q' db' cs st' i n s ss v := by
  obtain ⟨n₀, h⟩ := C89_query_private (f := f) H hK signed m hm0 cs hcs hov
  refine ⟨n₀, fun i q q' db db' u u' x x' w w' st st' hl hl' hq hd hm hm' hst hst' hw hw' est hin n hn s ss v => ?_⟩
  by_cases hs : s.length = 12800 ∧ ss.length = m ∧ ∀ l ∈ ss, l.length = 12800
  · obtain ⟨hs, hss, hsl⟩ := hs
    obtain ⟨a, b, rfl, rfl, ha, hb, e⟩ := wholeCountS3_eq H signed q db cs st i n s ss v hs (by rw [hss, hl]) hsl
    obtain ⟨a', b', ea, eb, ha', hb', e'⟩ := wholeCountS3_eq H signed q' db' cs st' i n (a i) (b i) v hs (by rw [hss, hl']) hsl
    rw [e, e']
    exact h i q q' db db' a a' b b' u u' x x' w w' st st' hl hl' hq hd hm hm' ha hb ha' hb' hst hst' hw hw' ea.symm eb.symm est hin n hn v
  · have empty : ∀ (q : IrisCode) (db : List IrisCode) st, db.length = m →
        wholeCountS3 f H K signed q db cs st i n s ss v = 0 := by
      intro q db st hl
      unfold wholeCountS3
      rw [show {x : List (BitVec K × BitVec K × BitVec K) × List (List (BitVec K × BitVec K × BitVec K)) × List Bool | _} = ∅ from ?_]
      · exact Set.ncard_empty _
      · refine Set.eq_empty_iff_forall_notMem.2 ?_
        rintro ⟨r, rs, t⟩ ⟨⟨e1, e2, e3, -⟩, e5, e6, -⟩
        refine hs ⟨?_, ?_, ?_⟩
        · rw [← e5, dealtS3, List.length_zipWith, MpcLawful.encode_length, e1]; rfl
        · rw [← e6, List.length_zipWith, e2, hl, Nat.min_self]
        · intro l hl
          rw [← e6] at hl
          obtain ⟨c, -, r', hr', rfl⟩ := Uni.mem_zipWith hl
          rw [dealtS3, List.length_zipWith, MpcLawful.encode_length, e3 r' hr']; rfl
    rw [empty q db st hl, empty q' db' st' hl']

/-! ## The building blocks -/

/-- AND gates: nothing about the inputs, whatever they are, and whatever the states are; three random bits for every bit. -/
theorem C89_and_many_private {L : Nat} (m : Nat) (i : Party) (a b a' b' : Party → List (S3Share L)) (st st' : Party → S3St (idealPrg f) K)
    (h1 : ∀ j, (a j).length = m) (h2 : ∀ j, (b j).length = m) (h3 : ∀ j, (a' j).length = m) (h4 : ∀ j, (b' j).length = m)
    (n : Nat) (hn : 3 * (L * m) ≤ n) (v : Log) :
    viewCountS3 (fun j => Swift3.andMany j (a j) (b j)) st i n v = viewCountS3 (fun j => Swift3.andMany j (a' j) (b' j)) st' i n v := by
  have := (s3AndMany_cpl (f := f) (K := K) (i := i) (m := m) (a := Bool.rec a a') (b := Bool.rec b b') (by rintro (_ | _) <;> assumption)
    (by rintro (_ | _) <;> assumption)).count (Bool.rec st st') n (by unfold gateBits jbits; split <;> omega) v
  exact this

/-- Dot products: the same. -/
theorem C89_dot_many_private (m : Nat) (i : Party) (a b a' b' : Party → List (List (S3Share K))) (st st' : Party → S3St (idealPrg f) K)
    (h1 : ∀ j, (a j).length = m) (h2 : ∀ j, (b j).length = m) (h3 : ∀ j, (a' j).length = m) (h4 : ∀ j, (b' j).length = m)
    (n : Nat) (hn : 3 * (K * m) ≤ n) (v : Log) :
    viewCountS3 (fun j => Swift3.dotMany j (a j) (b j)) st i n v = viewCountS3 (fun j => Swift3.dotMany j (a' j) (b' j)) st' i n v := by
  have := (s3DotMany_cpl (f := f) (K := K) (i := i) (m := m) (a := Bool.rec a a') (b := Bool.rec b b') (by rintro (_ | _) <;> assumption)
    (by rintro (_ | _) <;> assumption)).count (Bool.rec st st') n (by unfold gateBits jbits; split <;> omega) v
  exact this

/-- The extraction of most significant bits: the same. -/
theorem C89_get_msb_many_private (m : Nat) : ∃ n₀, ∀ (i : Party) (a a' : Party → List (S3Share K)) (st st' : Party → S3St (idealPrg f) K),
    (∀ j, (a j).length = m) → (∀ j, (a' j).length = m) → ∀ n ≥ n₀, ∀ v : Log,
      viewCountS3 (fun j => Swift3.getMsbMany j (a j)) st i n v = viewCountS3 (fun j => Swift3.getMsbMany j (a' j)) st' i n v := by
  choose N hN using fun i => S3Cpl.getMsbMany (f := f) (K := K) i m
  refine ⟨N 0 + N 1 + N 2, fun i a a' st st' h h' n hn v => ?_⟩
  have := (hN i (Bool.rec a a') (by rintro (_ | _) <;> assumption)).count (Bool.rec st st') n (by
    refine le_trans ?_ hn
    match i with
    | 0 => omega
    | 1 => omega
    | 2 => omega) v
  exact this

/-- The OR of bits: the same. -/
theorem C89_reduce_binary_or_private (cs : Nat) (hcs : cs ≠ 0) (m : Nat) (hm : m ≠ 0) : ∃ n₀, ∀ (i : Party) (a a' : Party → List (S3Share 1))
    (st st' : Party → S3St (idealPrg f) K), (∀ j, (a j).length = m) → (∀ j, (a' j).length = m) → ∀ n ≥ n₀, ∀ v : Log,
      viewCountS3 (fun j => Swift3.reduceBinaryOr j (a j) cs) st i n v = viewCountS3 (fun j => Swift3.reduceBinaryOr j (a' j) cs) st' i n v := by
  choose N hN using fun i => S3Cpl.reduceBinaryOr (f := f) (K := K) i hcs m hm
  refine ⟨N 0 + N 1 + N 2, fun i a a' st st' h h' n hn v => ?_⟩
  have := (hN i (Bool.rec a a') (by rintro (_ | _) <;> assumption)).count (Bool.rec st st') n (by
    refine le_trans ?_ hn
    match i with
    | 0 => omega
    | 1 => omega
    | 2 => omega) v
  exact this

/-- The opening of a bit: nothing but the bit. No randomness of the other two parties is needed. -/
theorem C89_open_bit_private (H : Hash) (i : Party) (x : BitVec 1) (s s' : Party → S3Share 1) (hs : S3BinSharesOf x s) (hs' : S3BinSharesOf x s')
    (hi : s i = s' i) (u u' y y' : Nat) (w w' : DotCount) (st st' : Party → S3St (idealPrg f) K) (hst : S3Ok u y w st) (hst' : S3Ok u' y' w' st')
    (est : st i = st' i) (n : Nat) (v : Log) :
    viewCountS3 (fun j => Swift3.openBit H j (s j)) st i n v = viewCountS3 (fun j => Swift3.openBit H j (s' j)) st' i n v := by
  have hT : Twin3 i (Bool.rec st st' : Bool → Party → S3St (idealPrg f) K) :=
    Twin3.start (by rintro (_ | _); exacts [⟨_, _, _, hst⟩, ⟨_, _, _, hst'⟩]) est
  have := lock3_count (i := i) (p := fun w j => Swift3.openBit H j ((Bool.rec s s' : Bool → Party → S3Share 1) w j)) (st := Bool.rec st st') (N := 0)
    (φ := fun _ u => u) (fun _ _ h => h) (fun _ _ _ _ _ h => h) (fun u hu => by
      have e := List.length_eq_zero_iff.1 hu
      subst e
      exact (s3OpenBit_lock hT (by rintro (_ | _) <;> assumption) hi).mono fun _ _ _ => trivial) n (Nat.zero_le _) v
  exact this

/-! ## The hypotheses can be met -/

/-- A sharing of `x` that looks the same to party 1 for all `x`: the mask unknown to party 1 makes up for the difference. -/
def exS3Hidden (x : BitVec K) (i : Party) : S3Share K :=
  match i with
  | 0 => ⟨3, 7 - x, 21⟩
  | 1 => ⟨11, 3, 21⟩
  | 2 => ⟨7 - x, 11, 21⟩

theorem exS3Hidden_ok (x : BitVec K) : S3SharesOf x (exS3Hidden x) := by
  have e : (21 : BitVec K) = x + 3 + 11 + (7 - x) := by
    have : (21 : BitVec K) = 3 + 11 + 7 := by
      rw [show (3 : BitVec K) = BitVec.ofNat K 3 from rfl, show (11 : BitVec K) = BitVec.ofNat K 11 from rfl,
        show (7 : BitVec K) = BitVec.ofNat K 7 from rfl, ← BitVec.ofNat_add, ← BitVec.ofNat_add]; rfl
    rw [this]; ring
  refine .mk' ?_ ?_ ?_ ?_ ?_ ?_ <;> simp only [exS3Hidden] <;> exact e

theorem exS3Hiddens_ok (xs : List (BitVec K)) : Rels S3SharesOf xs (fun i => xs.map (exS3Hidden · i)) := by
  induction xs with
  | nil => exact Rels.nil
  | cons x xs ih => exact Rels.cons (b := exS3Hidden x) (exS3Hidden_ok x) ih

/-- New instances with empty tapes in the known generators. -/
def s3Tapes (f : Bytes → List Bool) (K : Nat) : Party → S3St (idealPrg f) K := fun _ =>
  Swift3.new ⟨[], [], []⟩

theorem s3Tapes_ok (f : Bytes → List Bool) (K : Nat) : S3Ok 0 0 ⟨0, 0⟩ (s3Tapes f K) :=
  ⟨⟨fun _ => rfl, fun _ _ => rfl⟩, ⟨fun _ => rfl, fun _ => rfl⟩, fun _ => ⟨⟨[], by simp, rfl, rfl, rfl⟩, rfl⟩,
    fun _ => ⟨⟨[], by simp, rfl, rfl, rfl⟩, rfl⟩, fun _ => ⟨⟨[], by simp, rfl, rfl, rfl⟩, rfl⟩,
    fun _ => ⟨fun k g h => by simp [s3Tapes, Swift3.new, DProof.empty] at h, rfl, rfl⟩⟩

/-- Two worlds with different codes in which party 1 has the same state and the same shares. -/
example (f : Bytes → List Bool) (c d : IrisCodeArray) : let e : IrisCode := ⟨c, IrisCodeArray.ones⟩; let e' : IrisCode := ⟨d, IrisCodeArray.ones⟩
    15 ≤ 16 ∧ (3 + 256) * (2 * 16) < 2 ^ 64 ∧ [e, e, e].length = 3 ∧ e.mask = e'.mask ∧
    ([e, e, e].map fun c => c.mask) = [e', e', e'].map (fun c => c.mask) ∧ (∀ x ∈ [e, e, e], 8960 ≤ commonBits x e) ∧
    Rels S3SharesOf (encode 16 e.code) (fun i => (encode 16 e.code).map (exS3Hidden · i)) ∧
    Rels S3SharesOf (encode 16 e'.code) (fun i => (encode 16 e'.code).map (exS3Hidden · i)) ∧
    (fun i : Party => (encode 16 e.code).map (exS3Hidden · i)) 1 = (fun i => (encode 16 e'.code).map (exS3Hidden · i)) 1 ∧
    S3Ok 0 0 ⟨0, 0⟩ (s3Tapes f 16) ∧ (⟨0, 0⟩ : DotCount).size ≤ 12800 ∧ inDb e [e, e, e] = inDb e' [e', e', e'] := by
  intro e e'
  have hc : ∀ c : IrisCodeArray, commonBits ⟨c, IrisCodeArray.ones⟩ ⟨c, IrisCodeArray.ones⟩ = 12800 := fun c => fullMask_common c c
  have hd : ∀ c : IrisCodeArray, hammingDistance ⟨c, IrisCodeArray.ones⟩ ⟨c, IrisCodeArray.ones⟩ = 0 := fun c => by
    rw [distance_full]; simp
  refine ⟨by decide, by decide, rfl, rfl, rfl, fun x hx => ?_, exS3Hiddens_ok _, exS3Hiddens_ok _, ?_, s3Tapes_ok f _, Nat.zero_le _, ?_⟩
  · have : x = e := by simpa using hx
    rw [this, hc]; omega
  · have : ∀ (x : IrisCodeArray), (encode 16 x).map (exS3Hidden · 1) = List.replicate 12800 (⟨11, 3, 21⟩ : S3Share 16) := fun x => by
      rw [List.eq_replicate_iff]
      refine ⟨by rw [List.length_map, MpcLawful.encode_length]; rfl, fun y hy => ?_⟩
      obtain ⟨z, -, rfl⟩ := List.mem_map.1 hy
      rfl
    exact (this c).trans (this d).symm
  · simp only [inDb, List.any_cons, List.any_nil]
    rw [hd, hc, hd, hc]

/-- Two sharings of a bit that are the same for party 1, and consistent states in which the queues are not empty. -/
example (f : Bytes → List Bool) (x : BitVec 1) : let st : Party → S3St (idealPrg f) 16 := fun i =>
      { s3Tapes f 16 i with sendQNext := [BitVec.ofNat 8 i.val], rcvQPrev := [BitVec.ofNat 8 i.prev.val] }
    S3BinSharesOf x (exS3Bin x) ∧ S3Ok 0 0 ⟨0, 0⟩ st := by
  intro st
  have h := s3Tapes_ok f 16
  exact ⟨exS3Bin_ok x, h.prf, ⟨fun _ => rfl, fun _ => rfl⟩, h.ands, h.muls, h.dots, h.sizes⟩

end Verif
