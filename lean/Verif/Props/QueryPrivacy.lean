import Verif.Proof.UniOpen
import Verif.Props.Iris
import Verif.Props.Privacy

/-! # C68: what one party learns from a whole ABY3 query

Perfect privacy against one semi-honest party. The party knows its shares, the masks (which are public), its two random
generators and the messages it receives. The third generator is the ideal one of `Spec/Privacy.lean`; probabilities are
numbers of its tapes. -/

namespace Verif

attribute [local irreducible] hammingDistance commonBits encode

variable {K : Nat}

/-- Every tape, of any length, leads to exactly one view: the numbers of tapes below add up to all of them. -/
theorem C68_one_view (hK : 15 ≤ K) (signed : Bool) (q : IrisCode) (db : List IrisCode) (hne : db ≠ [])
    (hm : ∀ c ∈ db, 8960 ≤ commonBits c q) (a : Party → List (AShare K)) (b : Party → List (List (AShare K)))
    (ha : Rels SharesOf (encode K q.code) a) (hb : Rels (Rels SharesOf) (db.map fun c => encode K c.code) b)
    (cs : Nat) (hcs : cs ≠ 0) (hov : (db.length + cs) * (2 * K) < 2 ^ 64) (st : Party → Aby3St bitPrg)
    (hst : Aby3Ready st) (i : Party) (t : List Bool) :
    ∃! v, Sees (fun j => Iris.irisInDb (Aby3.ops bitPrg K signed j) (a j) (b j) q.mask (db.map fun c => c.mask) cs
      (withTape i t st j)) i v := by
  obtain ⟨r, hr, -⟩ := (Aby3.mpcLawful bitPrg (by omega) signed).irisInDb_wp (q := q) (a := a) (db := db) (b := b) (cs := cs)
    (st := withTape i t st) hK le_rfl ha hne hm hb hcs trivial hov trivial (withTape_ready hst t)
  obtain ⟨l, hl⟩ := hr.recorded (fun _ => [])
  exact ⟨_, (Sees.of_runs hl _).2 rfl, fun v hv => (Sees.of_runs hl v).1 hv⟩

/-- The messages that party `i` receives during `iris_in_db` have the same distribution in any two situations that the
party cannot tell apart by its own shares, the masks and the answer: the query and the database may differ, and so may
the shares of the other two parties. `v` is any list of messages. -/
theorem C68_query_private (hK : 15 ≤ K) (signed : Bool) (m : Nat) (hm0 : m ≠ 0) (cs : Nat) (hcs : cs ≠ 0)
    (hov : (m + cs) * (2 * K) < 2 ^ 64) :
    ∃ n₀, ∀ (i : Party) (q q' : IrisCode) (db db' : List IrisCode) (a a' : Party → List (AShare K))
      (b b' : Party → List (List (AShare K))) (st : Party → Aby3St bitPrg),
      db.length = m → db'.length = m → q.mask = q'.mask → (db.map fun c => c.mask) = db'.map (fun c => c.mask) →
      (∀ c ∈ db, 8960 ≤ commonBits c q) → (∀ c ∈ db', 8960 ≤ commonBits c q') →
      Rels SharesOf (encode K q.code) a → Rels (Rels SharesOf) (db.map fun c => encode K c.code) b →
      Rels SharesOf (encode K q'.code) a' → Rels (Rels SharesOf) (db'.map fun c => encode K c.code) b' →
      a i = a' i → b i = b' i → Aby3Ready st → inDb q db = inDb q' db' →
      ∀ n ≥ n₀, ∀ v : Log,
        viewCount (fun j => Iris.irisInDb (Aby3.ops bitPrg K signed j) (a j) (b j) q.mask (db.map fun c => c.mask) cs) st i n v =
        viewCount (fun j => Iris.irisInDb (Aby3.ops bitPrg K signed j) (a' j) (b' j) q'.mask (db'.map fun c => c.mask) cs) st i n v := by
  obtain ⟨F, hF⟩ := Uni.query (K := K) hK signed hcs m hm0
  refine ⟨fmtSize F, fun i q q' db db' a a' b b' st hl hl' hq hd hm hm' ha hb ha' hb' ea eb hst hin n hn v => ?_⟩
  -- one world
  have world : ∀ (q : IrisCode) (db : List IrisCode) (a : Party → List (AShare K)) (b : Party → List (List (AShare K))),
      db.length = m → (∀ c ∈ db, 8960 ≤ commonBits c q) →
      Rels SharesOf (encode K q.code) a → Rels (Rels SharesOf) (db.map fun c => encode K c.code) b →
      viewCount (fun j => Iris.irisInDb (Aby3.ops bitPrg K signed j) (a j) (b j) q.mask (db.map fun c => c.mask) cs) st i n v =
      Set.ncard {t : List Bool | t.length = n ∧ v = msgs i.prev F (t.take (fmtSize F)) ++ lastMsg i.prev (inDb q db)
        ((Uni.closed K signed cs (a i) (b i) q.mask (db.map fun c => c.mask) i (st i)).replay
          (msgs i.prev F (t.take (fmtSize F))))} := by
    intro q db a b hl hm ha hb
    have hne : db ≠ [] := by rintro rfl; exact hm0 hl.symm
    have hbl : ∀ j, (b j).length = m := fun j => by rw [hb.length]; simpa using hl
    have e : ∀ j, Iris.irisInDb (Aby3.ops bitPrg K signed j) (a j) (b j) q.mask (db.map fun c => c.mask) cs =
        Uni.closed K signed cs (a j) (b j) q.mask (db.map fun c => c.mask) j >>= Aby3.openBit j := fun j =>
      Uni.irisInDb_eq hK signed hcs (by rw [← List.length_pos_iff, hbl]; omega) (by rw [hbl, List.length_map, hl])
        (by rw [hbl]; exact hov) _ _ _
    have hrows : Uni.Rows m irisCodeSize b := fun j => ⟨hbl j, fun l hl => by
      obtain ⟨js, h1, rfl⟩ := hb
      obtain ⟨s, hs, rfl⟩ := List.mem_map.1 hl
      obtain ⟨k, hk, e⟩ := List.getElem_of_mem hs
      have h2 := List.forall₂_iff_get.1 h1
      have hxs := h2.2 k (h2.1 ▸ hk) hk
      rw [List.get_eq_getElem, List.get_eq_getElem, e, List.getElem_map] at hxs
      rw [hxs.length, MpcLawful.encode_length]⟩
    have hu := hF i q db a b hl (fun c hc => by rw [MpcLawful.commonBits_comm]; exact hm c hc)
      (fun j => by rw [ha.length, MpcLawful.encode_length]) hrows
    have hx : ∀ t, WPS (fun j => Uni.closed K signed cs (a j) (b j) q.mask (db.map fun c => c.mask) j >>= Aby3.openBit j)
        (withTape i t st) (fun r _ => ∀ j, r j = inDb q db) := by
      intro t
      have := (Aby3.mpcLawful bitPrg (by omega) signed).irisInDb_wp (q := q) (a := a) (db := db) (b := b) (cs := cs)
        (st := withTape i t st) hK le_rfl ha hne hm hb hcs trivial (by rw [hl]; exact hov) trivial (withTape_ready hst t)
      simp only [e] at this
      exact this.mono fun r s h => h.1
    simp only [e]
    exact Uni.opened hu st (inDb q db) hx n hn v
  rw [world q db a b hl hm ha hb, world q' db' a' b' hl' hm' ha' hb', hin, ea, eb, hq, hd]

/-! ## Together with the sharing by the client -/

theorem dealt_unique (i : Party) : ∀ (xs : List (BitVec K)) (s : List (AShare K)), s.length = xs.length →
    ∃! r : List (BitVec K × BitVec K), r.length = xs.length ∧ dealt xs r i = s := by
  intro xs
  induction xs with
  | nil =>
    intro s hs
    refine ⟨[], ⟨rfl, ?_⟩, fun r hr => List.length_eq_zero_iff.1 hr.1⟩
    rw [List.length_eq_zero_iff.1 hs]; rfl
  | cons x xs ih =>
    intro s hs
    cases s with
    | nil => simp at hs
    | cons s ss =>
      obtain ⟨r, hr, ur⟩ := C20_aby3 x i s
      obtain ⟨rs, ⟨h1, h2⟩, urs⟩ := ih ss (by simpa using hs)
      have e : ∀ r : BitVec K × BitVec K, (Aby3.share x r.1 r.2)[i.val]? = some s ↔
          (Aby3.share x r.1 r.2)[i.val]'(by have := i.isLt; simp [Aby3.share]) = s := fun r => by
        rw [List.getElem?_eq_getElem (by have := i.isLt; simp [Aby3.share]), Option.some.injEq]
      refine ⟨r :: rs, ⟨by simp [h1], ?_⟩, ?_⟩
      · show _ :: dealt xs rs i = _
        beta_reduce
        rw [(e r).1 hr, h2]
      · rintro (_ | ⟨r', rs'⟩) ⟨h3, h4⟩
        · simp at h3
        · change _ :: dealt xs rs' i = _ at h4
          rw [List.cons.injEq] at h4
          rw [ur r' ((e r').2 h4.1), urs rs' ⟨by simpa using h3, h4.2⟩]

theorem dealts_unique (i : Party) {N : Nat} : ∀ (xss : List (List (BitVec K))) (ss : List (List (AShare K))),
    ss.length = xss.length → (∀ xs ∈ xss, xs.length = N) → (∀ s ∈ ss, s.length = N) →
    ∃! rs : List (List (BitVec K × BitVec K)), (rs.length = xss.length ∧ ∀ r ∈ rs, r.length = N) ∧
      List.zipWith (fun xs r => dealt xs r i) xss rs = ss := by
  intro xss
  induction xss with
  | nil =>
    intro ss hs _ _
    refine ⟨[], ⟨⟨rfl, by simp⟩, ?_⟩, fun r hr => List.length_eq_zero_iff.1 hr.1.1⟩
    rw [List.length_eq_zero_iff.1 hs]; rfl
  | cons xs xss ih =>
    intro ss hs h1 h2
    cases ss with
    | nil => simp at hs
    | cons s ss =>
      have hx : xs.length = N := h1 xs (by simp)
      obtain ⟨r, ⟨hr, hd⟩, ur⟩ := dealt_unique i xs s (by rw [hx]; exact h2 s (by simp))
      obtain ⟨rs, ⟨⟨h3, h4⟩, h5⟩, urs⟩ := ih ss (by simpa using hs) (fun x h => h1 x (by simp [h])) fun x h => h2 x (by simp [h])
      refine ⟨r :: rs, ⟨⟨by simp [h3], fun x hx' => ?_⟩, by simp [hd, h5]⟩, ?_⟩
      · rcases List.mem_cons.1 hx' with rfl | h
        · rw [hr, hx]
        · exact h4 x h
      · rintro (_ | ⟨r', rs'⟩) ⟨⟨h6, h7⟩, h8⟩
        · simp at h6
        · rw [List.zipWith_cons_cons, List.cons.injEq] at h8
          rw [ur r' ⟨by rw [hx]; exact h7 r' (by simp), h8.1⟩,
            urs rs' ⟨⟨by simpa using h6, fun x h => h7 x (by simp [h])⟩, h8.2⟩]

/-- The number of choices of the client's randomness (one pair of ring elements for each shared bit of the query and of
the database) and of the tape with which party `i` obtains the shares `s` of the query and `ss` of the database from
`share` and then sees the messages `v`. -/
noncomputable def wholeCount (K : Nat) (signed : Bool) (q : IrisCode) (db : List IrisCode) (cs : Nat) (st : Party → Aby3St bitPrg)
    (i : Party) (n : Nat) (s : List (AShare K)) (ss : List (List (AShare K))) (v : Log) : Nat :=
  Set.ncard {x : List (BitVec K × BitVec K) × List (List (BitVec K × BitVec K)) × List Bool |
    (x.1.length = 12800 ∧ x.2.1.length = db.length ∧ (∀ r ∈ x.2.1, r.length = 12800) ∧ x.2.2.length = n) ∧
    dealt (encode K q.code) x.1 i = s ∧ List.zipWith (fun c r => dealt (encode K c.code) r i) db x.2.1 = ss ∧
    Sees (fun j => Iris.irisInDb (Aby3.ops bitPrg K signed j) (dealt (encode K q.code) x.1 j)
      (List.zipWith (fun c r => dealt (encode K c.code) r j) db x.2.1) q.mask (db.map fun c => c.mask) cs
      (withTape i x.2.2 st j)) i v}

/-- For given shares the sharing randomness is unique. -/
theorem wholeCount_eq (signed : Bool) (q : IrisCode) (db : List IrisCode) (cs : Nat) (st : Party → Aby3St bitPrg)
    (i : Party) (n : Nat) (s : List (AShare K)) (ss : List (List (AShare K))) (v : Log)
    (hs : s.length = 12800) (hss : ss.length = db.length) (hsl : ∀ l ∈ ss, l.length = 12800) :
    ∃ (a : Party → List (AShare K)) (b : Party → List (List (AShare K))), a i = s ∧ b i = ss ∧
      Rels SharesOf (encode K q.code) a ∧ Rels (Rels SharesOf) (db.map fun c => encode K c.code) b ∧
      wholeCount K signed q db cs st i n s ss v =
        viewCount (fun j => Iris.irisInDb (Aby3.ops bitPrg K signed j) (a j) (b j) q.mask (db.map fun c => c.mask) cs) st i n v := by
  have hl : ∀ c : IrisCodeArray, (encode K c).length = 12800 := fun c => MpcLawful.encode_length _
  obtain ⟨r, ⟨hr, hd⟩, ur⟩ := dealt_unique i (encode K q.code) s (by rw [hl, hs])
  obtain ⟨rs, ⟨⟨h1, h2⟩, h3⟩, urs⟩ := dealts_unique i (N := 12800) (db.map fun c => encode K c.code) ss (by simp [hss])
    (fun xs hxs => by obtain ⟨c, -, rfl⟩ := List.mem_map.1 hxs; exact hl _) hsl
  rw [List.length_map] at h1
  rw [List.zipWith_map_left] at h3
  refine ⟨dealt (encode K q.code) r, fun j => List.zipWith (fun c r => dealt (encode K c.code) r j) db rs, hd, h3,
    dealt_ok _ r hr, ?_, ?_⟩
  · have := dealts_ok (db.map fun c => encode K c.code) rs (by
      rw [List.forall₂_map_left_iff]
      refine List.forall₂_iff_zip.2 ⟨h1.symm, fun {c r} h => ?_⟩
      rw [h2 r (List.of_mem_zip h).2, hl])
    simpa only [List.zipWith_map_left] using this
  · unfold wholeCount viewCount
    rw [← Set.InjOn.ncard_image (f := fun t : List Bool => (r, rs, t)) (fun a _ b _ h => by simpa using h)]
    congr 1
    ext ⟨r', rs', t⟩
    constructor
    · rintro ⟨⟨e1, e2, e3, e4⟩, e5, e6, e7⟩
      have hr' : r' = r := ur r' ⟨by rw [hl]; exact e1, e5⟩
      have hrs' : rs' = rs := urs rs' ⟨⟨by rw [List.length_map]; exact e2, e3⟩, by rw [List.zipWith_map_left]; exact e6⟩
      subst hr' hrs'
      exact ⟨t, ⟨e4, e7⟩, rfl⟩
    · rintro ⟨t', ⟨e4, e7⟩, e⟩
      simp only [Prod.mk.injEq] at e
      obtain ⟨rfl, rfl, rfl⟩ := e
      exact ⟨⟨by rw [hr, hl], h1, h2, e4⟩, hd, h3, e7⟩

/-- The joint distribution of the shares that party `i` gets from the client and the messages it receives during the query
depends only on the number of database entries, the masks and the answer. -/
theorem C68_whole_view (hK : 15 ≤ K) (signed : Bool) (m : Nat) (hm0 : m ≠ 0) (cs : Nat) (hcs : cs ≠ 0)
    (hov : (m + cs) * (2 * K) < 2 ^ 64) :
    ∃ n₀, ∀ (i : Party) (q q' : IrisCode) (db db' : List IrisCode) (st : Party → Aby3St bitPrg),
      db.length = m → db'.length = m → q.mask = q'.mask → (db.map fun c => c.mask) = db'.map (fun c => c.mask) →
      (∀ c ∈ db, 8960 ≤ commonBits c q) → (∀ c ∈ db', 8960 ≤ commonBits c q') →
      Aby3Ready st → inDb q db = inDb q' db' →
      ∀ n ≥ n₀, ∀ (s : List (AShare K)) (ss : List (List (AShare K))) (v : Log),
        wholeCount K signed q db cs st i n s ss v = wholeCount K signed q' db' cs st i n s ss v := by
  obtain ⟨n₀, h⟩ := C68_query_private hK signed m hm0 cs hcs hov
  refine ⟨n₀, fun i q q' db db' st hl hl' hq hd hm hm' hst hin n hn s ss v => ?_⟩
  by_cases hs : s.length = 12800 ∧ ss.length = m ∧ ∀ l ∈ ss, l.length = 12800
  · obtain ⟨hs, hss, hsl⟩ := hs
    obtain ⟨a, b, rfl, rfl, ha, hb, e⟩ := wholeCount_eq signed q db cs st i n s ss v hs (by rw [hss, hl]) hsl
    obtain ⟨a', b', ea, eb, ha', hb', e'⟩ := wholeCount_eq signed q' db' cs st i n (a i) (b i) v hs (by rw [hss, hl']) hsl
    rw [e, e']
    exact h i q q' db db' a a' b b' st hl hl' hq hd hm hm' ha hb ha' hb' ea.symm eb.symm hst hin n hn v
  · have empty : ∀ (q : IrisCode) (db : List IrisCode), db.length = m → wholeCount K signed q db cs st i n s ss v = 0 := by
      intro q db hl
      unfold wholeCount
      rw [show {x : List (BitVec K × BitVec K) × List (List (BitVec K × BitVec K)) × List Bool | _} = ∅ from ?_]
      · exact Set.ncard_empty _
      · refine Set.eq_empty_iff_forall_notMem.2 ?_
        rintro ⟨r, rs, t⟩ ⟨⟨e1, e2, e3, -⟩, e5, e6, -⟩
        refine hs ⟨?_, ?_, ?_⟩
        · rw [← e5, dealt, List.length_zipWith, MpcLawful.encode_length, e1]; rfl
        · rw [← e6, List.length_zipWith, e2, hl, Nat.min_self]
        · intro l hl
          rw [← e6] at hl
          obtain ⟨c, -, r', hr', rfl⟩ := Uni.mem_zipWith hl
          rw [dealt, List.length_zipWith, MpcLawful.encode_length, e3 r' hr']; rfl
    rw [empty q db hl, empty q' db' hl']

/-! ## The building blocks

The messages of these operations do not depend on the inputs at all, neither on the shared values nor on the shares. -/

theorem C68_and_many_private (N : Nat) : ∃ n₀, ∀ (i : Party) (a b a' b' : Party → List (AShare K)) (st : Party → Aby3St bitPrg),
    (∀ j, (a j).length = N ∧ (b j).length = N ∧ (a' j).length = N ∧ (b' j).length = N) → ∀ n ≥ n₀, ∀ v : Log,
      viewCount (fun j => Aby3.andMany j (a j) (b j)) st i n v = viewCount (fun j => Aby3.andMany j (a' j) (b' j)) st i n v := by
  refine ⟨fmtSize [(K, N)], fun i a b a' b' st h n hn v => ?_⟩
  rw [(Uni.andMany (fun j => (h j).1) (fun j => (h j).2.1)).viewCount st n hn v,
    (Uni.andMany (fun j => (h j).2.2.1) (fun j => (h j).2.2.2)).viewCount st n hn v]

theorem C68_masked_dot_many_private (N : Nat) : ∃ n₀, ∀ (i : Party) (a a' : Party → List (AShare K))
    (b b' : Party → List (List (AShare K))) (masks masks' : List IrisCodeArray) (st : Party → Aby3St bitPrg),
    (∀ j, (a j).length = 12800 ∧ (b j).length = N ∧ ∀ l ∈ b j, l.length = 12800) →
    (∀ j, (a' j).length = 12800 ∧ (b' j).length = N ∧ ∀ l ∈ b' j, l.length = 12800) →
    masks.length = N → masks'.length = N → ∀ n ≥ n₀, ∀ v : Log,
      viewCount (fun j => Aby3.maskedDotMany j (a j) (b j) masks) st i n v =
      viewCount (fun j => Aby3.maskedDotMany j (a' j) (b' j) masks') st i n v := by
  refine ⟨fmtSize [(K, N)], fun i a a' b b' m m' st h h' hm hm' n hn v => ?_⟩
  rw [(Uni.maskedDotMany (fun j => (h j).1) (fun j => (h j).2) hm).viewCount st n hn v,
    (Uni.maskedDotMany (fun j => (h' j).1) (fun j => (h' j).2) hm').viewCount st n hn v]

theorem C68_get_msb_many_private (hK : 3 ≤ K) (N : Nat) (hN : N ≠ 0) : ∃ n₀, ∀ (i : Party) (a a' : Party → List (AShare K))
    (st : Party → Aby3St bitPrg), (∀ j, (a j).length = N ∧ (a' j).length = N) → ∀ n ≥ n₀, ∀ v : Log,
      viewCount (fun j => Aby3.getMsbMany j (a j)) st i n v = viewCount (fun j => Aby3.getMsbMany j (a' j)) st i n v := by
  obtain ⟨F, hF⟩ := Uni.getMsbMany hK N hN
  refine ⟨fmtSize F, fun i a a' st h n hn v => ?_⟩
  rw [(hF i a fun j => (h j).1).viewCount st n hn v, (hF i a' fun j => (h j).2).viewCount st n hn v]

theorem C68_reduce_binary_or_private (cs : Nat) (hcs : cs ≠ 0) (N : Nat) (hN : N ≠ 0) : ∃ n₀, ∀ (i : Party)
    (a a' : Party → List (AShare 1)) (st : Party → Aby3St bitPrg), (∀ j, (a j).length = N ∧ (a' j).length = N) →
    ∀ n ≥ n₀, ∀ v : Log,
      viewCount (fun j => Aby3.reduceBinaryOr j (a j) cs) st i n v =
      viewCount (fun j => Aby3.reduceBinaryOr j (a' j) cs) st i n v := by
  obtain ⟨F, hF⟩ := Uni.reduceBinaryOr hcs N hN
  refine ⟨fmtSize F, fun i a a' st h n hn v => ?_⟩
  rw [(hF i a fun j => (h j).1).viewCount st n hn v, (hF i a' fun j => (h j).2).viewCount st n hn v]

/-! ## Two worlds that meet the hypotheses -/

/-- Tapes for the states: every party has empty known generators. -/
def emptyTapes : Party → Aby3St bitPrg := fun _ => ⟨⟨[], []⟩⟩

example : Aby3Ready emptyTapes := fun _ => rfl

/-- Party 1 has the same shares of all bits, whatever the bits. Querying a database of three copies of the query, for two
different codes. -/
example (c d : IrisCodeArray) : let e : IrisCode := ⟨c, IrisCodeArray.ones⟩; let e' : IrisCode := ⟨d, IrisCodeArray.ones⟩
    let sh (x : IrisCode) (i : Party) := (encode 16 x.code).map (exShare · i)
    [e, e, e].length = 3 ∧ e.mask = e'.mask ∧ ([e, e, e].map fun c => c.mask) = [e', e', e'].map (fun c => c.mask) ∧
    (∀ x ∈ [e, e, e], 8960 ≤ commonBits x e) ∧ Rels SharesOf (encode 16 e.code) (sh e) ∧
    Rels (Rels SharesOf) ([e, e, e].map fun c => encode 16 c.code) (fun i => [sh e i, sh e i, sh e i]) ∧
    sh e 1 = sh e' 1 ∧ inDb e [e, e, e] = inDb e' [e', e', e'] := by
  intro e e' sh
  have hc : ∀ x : IrisCodeArray, commonBits ⟨x, IrisCodeArray.ones⟩ ⟨x, IrisCodeArray.ones⟩ = 12800 := fun x =>
    fullMask_common x x
  have hd : ∀ x : IrisCodeArray, hammingDistance ⟨x, IrisCodeArray.ones⟩ ⟨x, IrisCodeArray.ones⟩ = 0 := fun x => by
    rw [distance_full]; simp
  refine ⟨rfl, rfl, rfl, fun x hx => ?_, exShares_ok _, ?_, ?_, ?_⟩
  · have : x = e := by simpa using hx
    rw [this, hc]; omega
  · exact Rels.cons (exShares_ok _) (Rels.cons (exShares_ok _) (Rels.cons (exShares_ok _) Rels.nil))
  · have : ∀ x : IrisCodeArray, (encode 16 x).map (exShare · 1) = List.replicate 12800 (⟨11, 3⟩ : AShare 16) := fun x => by
      rw [List.eq_replicate_iff]
      refine ⟨by rw [List.length_map, MpcLawful.encode_length]; rfl, fun y hy => ?_⟩
      obtain ⟨z, -, rfl⟩ := List.mem_map.1 hy
      rfl
    exact (this c).trans (this d).symm
  · simp only [inDb, List.any_cons, List.any_nil]
    rw [hd, hc, hd, hc]

end Verif
