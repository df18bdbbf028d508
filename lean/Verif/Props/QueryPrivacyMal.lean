import Verif.Proof.LockCount
import Verif.Props.QueryPrivacy
import Verif.Props.MalAby3

/-! # C84: what one party learns from a whole query over the malicious ABY3 backend

Perfect privacy against one semi-honest party: the sacrificed triples, the tossed coins, the checks and the comparison of
queues tell a party that follows the protocol nothing. The party knows its shares, the masks (which are public), its two
random generators and the messages it receives. The third generator is the ideal one of `Spec/PrivacyMal.lean`;
probabilities are numbers of its tapes. How a tossed seed is expanded to further random numbers (`f`), and what the hash
function is (`H`), does not matter. -/

namespace Verif

open Jmp

attribute [local irreducible] hammingDistance commonBits encode

variable {K : Nat} {f : Bytes → List Bool}

/-- Every tape, of any length, leads to exactly one view: the numbers of tapes below add up to all of them. -/
theorem C84_one_view (H : Hash) (hK : 15 ≤ K) (hV : 40 ≤ verifWidth K - K) (signed : Bool) (q : IrisCode) (db : List IrisCode)
    (hne : db ≠ []) (hm : ∀ c ∈ db, 8960 ≤ commonBits c q) (a : Party → List (AShare K)) (b : Party → List (List (AShare K)))
    (ha : Rels SharesOf (encode K q.code) a) (hb : Rels (Rels SharesOf) (db.map fun c => encode K c.code) b)
    (cs : Nat) (hcs : cs ≠ 0) (hlt : cs * 128 < 2 ^ 64) (hov : (db.length + cs) * (2 * K) < 2 ^ 64)
    (st : Party → JmpSt (idealPrg f)) (hst : JmpOk st) (i : Party) (t : List Bool) :
    ∃! v, Sees (fun j => Iris.irisInDb (MalAby3.ops (idealPrg f) H K signed j) (a j) (b j) q.mask (db.map fun c => c.mask) cs
      (tapeIn i t st j)) i v := by
  obtain ⟨r, hr, -⟩ := (MalAby3.mpcLawful (idealPrg f) H hV (by omega) signed).irisInDb_wp (q := q) (a := a) (db := db) (b := b)
    (cs := cs) (st := tapeIn i t st) hK le_rfl ha hne hm hb hcs hlt hov trivial (tapeIn_ok hst t)
  obtain ⟨l, hl⟩ := hr.recorded (fun _ => [])
  exact ⟨_, (Sees.of_runs hl _).2 rfl, fun v hv => (Sees.of_runs hl v).1 hv⟩

/-- The messages that party `i` receives during `iris_in_db` have the same distribution in any two situations that the
party cannot tell apart by its own shares, the masks and the answer: the query and the database may differ, and so may
the shares of the other two parties. `v` is any list of messages. -/
theorem C84_query_private (H : Hash) (hK : 15 ≤ K) (hV : 40 ≤ verifWidth K - K) (signed : Bool) (m : Nat) (hm0 : m ≠ 0)
    (cs : Nat) (hcs : cs ≠ 0) (hlt : cs * 128 < 2 ^ 64) (hov : (m + cs) * (2 * K) < 2 ^ 64) :
    ∃ n₀, ∀ (i : Party) (q q' : IrisCode) (db db' : List IrisCode) (a a' : Party → List (AShare K))
      (b b' : Party → List (List (AShare K))) (st : Party → JmpSt (idealPrg f)),
      db.length = m → db'.length = m → q.mask = q'.mask → (db.map fun c => c.mask) = db'.map (fun c => c.mask) →
      (∀ c ∈ db, 8960 ≤ commonBits c q) → (∀ c ∈ db', 8960 ≤ commonBits c q') →
      Rels SharesOf (encode K q.code) a → Rels (Rels SharesOf) (db.map fun c => encode K c.code) b →
      Rels SharesOf (encode K q'.code) a' → Rels (Rels SharesOf) (db'.map fun c => encode K c.code) b' →
      a i = a' i → b i = b' i → JmpOk st → inDb q db = inDb q' db' →
      ∀ n ≥ n₀, ∀ v : Log,
        viewCountMal (fun j => Iris.irisInDb (MalAby3.ops (idealPrg f) H K signed j) (a j) (b j) q.mask (db.map fun c => c.mask) cs)
          st i n v =
        viewCountMal (fun j => Iris.irisInDb (MalAby3.ops (idealPrg f) H K signed j) (a' j) (b' j) q'.mask (db'.map fun c => c.mask) cs)
          st i n v := by
  obtain ⟨N, hN⟩ := irisInDb_two (f := f) H hK hV signed m hm0 cs hcs hlt hov
  refine ⟨N, fun i q q' db db' a a' b b' st hl hl' hq hd hm hm' ha hb ha' hb' ea eb hst hin n hn v => ?_⟩
  have hany : ∀ (q : IrisCode) (db : List IrisCode), db.any (MpcLawful.closeBit q) = inDb q db := fun q db => by
    unfold inDb
    congr 1
    funext c
    rw [MpcLawful.closeBit, MpcLawful.hammingDistance_comm, MpcLawful.commonBits_comm]
  have := (hN i (Bool.rec q q') q.mask (db.map fun c => c.mask) (Bool.rec db db') (Bool.rec a a') (Bool.rec b b')
    (by rintro (_ | _) <;> simp [hq]) (by rintro (_ | _) <;> assumption) ea
    ⟨by rintro (_ | _) <;> assumption, by rintro (_ | _) <;> simp [hd], by rintro (_ | _) <;> assumption, eb⟩
    (by
      rintro (_ | _) c hc
      · rw [MpcLawful.commonBits_comm]; exact hm c hc
      · rw [MpcLawful.commonBits_comm]; exact hm' c hc) (by
      show db.any (MpcLawful.closeBit q) = db'.any (MpcLawful.closeBit q')
      rw [hany, hany, hin])).count hst n hn v
  rw [← hq, ← hd]
  exact this

/-! ## Together with the sharing by the client -/

/-- The number of choices of the client's randomness (one pair of ring elements for each shared bit of the query and of
the database) and of the tape with which party `i` obtains the shares `s` of the query and `ss` of the database from
`share` and then sees the messages `v`. -/
noncomputable def wholeCountMal (f : Bytes → List Bool) (H : Hash) (K : Nat) (signed : Bool) (q : IrisCode) (db : List IrisCode)
    (cs : Nat) (st : Party → JmpSt (idealPrg f)) (i : Party) (n : Nat) (s : List (AShare K)) (ss : List (List (AShare K))) (v : Log) : Nat :=
  Set.ncard {x : List (BitVec K × BitVec K) × List (List (BitVec K × BitVec K)) × List Bool |
    (x.1.length = 12800 ∧ x.2.1.length = db.length ∧ (∀ r ∈ x.2.1, r.length = 12800) ∧ x.2.2.length = n) ∧
    dealt (encode K q.code) x.1 i = s ∧ List.zipWith (fun c r => dealt (encode K c.code) r i) db x.2.1 = ss ∧
    Sees (fun j => Iris.irisInDb (MalAby3.ops (idealPrg f) H K signed j) (dealt (encode K q.code) x.1 j)
      (List.zipWith (fun c r => dealt (encode K c.code) r j) db x.2.1) q.mask (db.map fun c => c.mask) cs
      (tapeIn i x.2.2 st j)) i v}

/-- For given shares the sharing randomness is unique. -/
theorem wholeCountMal_eq (H : Hash) (signed : Bool) (q : IrisCode) (db : List IrisCode) (cs : Nat) (st : Party → JmpSt (idealPrg f))
    (i : Party) (n : Nat) (s : List (AShare K)) (ss : List (List (AShare K))) (v : Log)
    (hs : s.length = 12800) (hss : ss.length = db.length) (hsl : ∀ l ∈ ss, l.length = 12800) :
    ∃ (a : Party → List (AShare K)) (b : Party → List (List (AShare K))), a i = s ∧ b i = ss ∧
      Rels SharesOf (encode K q.code) a ∧ Rels (Rels SharesOf) (db.map fun c => encode K c.code) b ∧
      wholeCountMal f H K signed q db cs st i n s ss v =
        viewCountMal (fun j => Iris.irisInDb (MalAby3.ops (idealPrg f) H K signed j) (a j) (b j) q.mask (db.map fun c => c.mask) cs)
          st i n v := by
  have hl : ∀ c : IrisCodeArray, (encode K c).length = 12800 := fun c => MpcLawful.encode_length _
  obtain ⟨r, ⟨hr, hd⟩, ur⟩ := dealt_unique i (encode K q.code) s (by rw [hl, hs])
  obtain ⟨rs, ⟨⟨h1, h2⟩, h3⟩, urs⟩ := dealts_unique i (N := 12800) (db.map fun c => encode K c.code) ss (by simp [hss])
    (fun xs hxs => by obtain ⟨c, -, rfl⟩ := List.mem_map.1 hxs; exact hl _) hsl
  rw [List.length_map] at h1
  rw [List.zipWith_map_left] at h3
  refine ⟨dealt (encode K q.code) r, fun j => List.zipWith (fun c r => dealt (encode K c.code) r j) db rs, hd, h3,
    dealt_ok _ r hr, ?_, ?_⟩
  · have := dealts_ok (db.map fun c => encode K c.code) rs (by
      rw [List.forall₂_map_left_iff]
      refine List.forall₂_iff_zip.2 ⟨h1.symm, fun {c r} h => ?_⟩
      rw [h2 r (List.of_mem_zip h).2, hl])
    simpa only [List.zipWith_map_left] using this
  · unfold wholeCountMal viewCountMal
    rw [← Set.InjOn.ncard_image (f := fun t : List Bool => (r, rs, t)) (fun a _ b _ h => by simpa using h)]
    congr 1
    ext ⟨r', rs', t⟩
    constructor
    · rintro ⟨⟨e1, e2, e3, e4⟩, e5, e6, e7⟩
      have hr' : r' = r := ur r' ⟨by rw [hl]; exact e1, e5⟩
      have hrs' : rs' = rs := urs rs' ⟨⟨by rw [List.length_map]; exact e2, e3⟩, by rw [List.zipWith_map_left]; exact e6⟩
      subst hr' hrs'
      exact ⟨t, ⟨e4, e7⟩, rfl⟩
    · rintro ⟨t', ⟨e4, e7⟩, e⟩
      simp only [Prod.mk.injEq] at e
      obtain ⟨rfl, rfl, rfl⟩ := e
      exact ⟨⟨by rw [hr, hl], h1, h2, e4⟩, hd, h3, e7⟩

/-- The joint distribution of the shares that party `i` gets from the client and the messages it receives during the query
depends only on the number of database entries, the masks and the answer. -/
theorem C84_whole_view (H : Hash) (hK : 15 ≤ K) (hV : 40 ≤ verifWidth K - K) (signed : Bool) (m : Nat) (hm0 : m ≠ 0)
    (cs : Nat) (hcs : cs ≠ 0) (hlt : cs * 128 < 2 ^ 64) (hov : (m + cs) * (2 * K) < 2 ^ 64) :
    ∃ n₀, ∀ (i : Party) (q q' : IrisCode) (db db' : List IrisCode) (st : Party → JmpSt (idealPrg f)),
      db.length = m → db'.length = m → q.mask = q'.mask → (db.map fun c => c.mask) = db'.map (fun c => c.mask) →
      (∀ c ∈ db, 8960 ≤ commonBits c q) → (∀ c ∈ db', 8960 ≤ commonBits c q') →
      JmpOk st → inDb q db = inDb q' db' →
      ∀ n ≥ n₀, ∀ (s : List (AShare K)) (ss : List (List (AShare K))) (v : Log),
        wholeCountMal f H K signed q db cs st i n s ss v = wholeCountMal f H K signed q' db' cs st i n s ss v := by
  obtain ⟨n₀, h⟩ := C84_query_private (f := f) H hK hV signed m hm0 cs hcs hlt hov
  refine ⟨n₀, fun i q q' db db' st hl hl' hq hd hm hm' hst hin n hn s ss v => ?_⟩
  by_cases hs : s.length = 12800 ∧ ss.length = m ∧ ∀ l ∈ ss, l.length = 12800
  · obtain ⟨hs, hss, hsl⟩ := hs
    obtain ⟨a, b, rfl, rfl, ha, hb, e⟩ := wholeCountMal_eq H signed q db cs st i n s ss v hs (by rw [hss, hl]) hsl
    obtain ⟨a', b', ea, eb, ha', hb', e'⟩ := wholeCountMal_eq H signed q' db' cs st i n (a i) (b i) v hs (by rw [hss, hl']) hsl
    rw [e, e']
    exact h i q q' db db' a a' b b' st hl hl' hq hd hm hm' ha hb ha' hb' ea.symm eb.symm hst hin n hn v
  · have empty : ∀ (q : IrisCode) (db : List IrisCode), db.length = m → wholeCountMal f H K signed q db cs st i n s ss v = 0 := by
      intro q db hl
      unfold wholeCountMal
      rw [show {x : List (BitVec K × BitVec K) × List (List (BitVec K × BitVec K)) × List Bool | _} = ∅ from ?_]
      · exact Set.ncard_empty _
      · refine Set.eq_empty_iff_forall_notMem.2 ?_
        rintro ⟨r, rs, t⟩ ⟨⟨e1, e2, e3, -⟩, e5, e6, -⟩
        refine hs ⟨?_, ?_, ?_⟩
        · rw [← e5, dealt, List.length_zipWith, MpcLawful.encode_length, e1]; rfl
        · rw [← e6, List.length_zipWith, e2, hl, Nat.min_self]
        · intro l hl
          rw [← e6] at hl
          obtain ⟨c, -, r', hr', rfl⟩ := Uni.mem_zipWith hl
          rw [dealt, List.length_zipWith, MpcLawful.encode_length, e3 r' hr']; rfl
    rw [empty q db hl, empty q' db' hl']

/-! ## The building blocks

Unlike in the semi-honest backend the checks involve the shares of the party, so its own shares are kept fixed. -/

theorem C84_and_many_private (H : Hash) (hK : K ≠ 0) (N : Nat) : ∃ n₀, ∀ (i : Party) (xs ys xs' ys' : List (BitVec K))
    (a b a' b' : Party → List (AShare K)) (st : Party → JmpSt (idealPrg f)),
    xs.length = N → ys.length = N → xs'.length = N → ys'.length = N →
    Rels BinSharesOf xs a → Rels BinSharesOf ys b → Rels BinSharesOf xs' a' → Rels BinSharesOf ys' b' →
    a i = a' i → b i = b' i → JmpOk st → ∀ n ≥ n₀, ∀ v : Log,
      viewCountMal (fun j => MalAby3.andMany H j (a j) (b j)) st i n v =
      viewCountMal (fun j => MalAby3.andMany H j (a' j) (b' j)) st i n v := by
  refine ⟨tripleBits (verifWidth 1) (K * N), fun i xs ys xs' ys' a b a' b' st h1 h2 h3 h4 ha hb ha' hb' ea eb hst n hn v => ?_⟩
  have := (andMany_two (H := H) hK (n := N) (a := Bool.rec a a') (b := Bool.rec b b')
    ⟨by rintro (_ | _); exacts [⟨xs, h1, ha⟩, ⟨xs', h3, ha'⟩], ea⟩
    ⟨by rintro (_ | _); exacts [⟨ys, h2, hb⟩, ⟨ys', h4, hb'⟩], eb⟩).count hst n hn v
  exact this

theorem C84_dot_many_private (H : Hash) (hV : 40 ≤ verifWidth K - K) (ns : List Nat) : ∃ n₀, ∀ (i : Party)
    (X Y X' Y' : List (List (BitVec K))) (a b a' b' : Party → List (List (AShare K))) (st : Party → JmpSt (idealPrg f)),
    X.map List.length = ns → Y.map List.length = ns → X'.map List.length = ns → Y'.map List.length = ns →
    Rels (Rels SharesOf) X a → Rels (Rels SharesOf) Y b → Rels (Rels SharesOf) X' a' → Rels (Rels SharesOf) Y' b' →
    a i = a' i → b i = b' i → JmpOk st → ∀ n ≥ n₀, ∀ v : Log,
      viewCountMal (fun j => MalAby3.dotMany H j (a j) (b j)) st i n v =
      viewCountMal (fun j => MalAby3.dotMany H j (a' j) (b' j)) st i n v := by
  refine ⟨dotBits (verifWidth K) ns, fun i X Y X' Y' a b a' b' st h1 h2 h3 h4 ha hb ha' hb' ea eb hst n hn v => ?_⟩
  have := (dotMany_cpl H hV (ns := ns) (a := Bool.rec a a') (b := Bool.rec b b') (X := Bool.rec X X') (Y := Bool.rec Y Y')
    (by rintro (_ | _) <;> assumption) (by rintro (_ | _) <;> assumption) (by rintro (_ | _) <;> assumption)
    (by rintro (_ | _) <;> assumption) ea eb).count hst n hn v
  exact this

theorem C84_get_msb_many_private (H : Hash) (hK : K ≠ 0) (N : Nat) : ∃ n₀, ∀ (i : Party) (xs xs' : List (BitVec K))
    (a a' : Party → List (AShare K)) (st : Party → JmpSt (idealPrg f)), xs.length = N → xs'.length = N →
    Rels SharesOf xs a → Rels SharesOf xs' a' → a i = a' i → JmpOk st → ∀ n ≥ n₀, ∀ v : Log,
      viewCountMal (fun j => MalAby3.getMsbMany H j (a j)) st i n v =
      viewCountMal (fun j => MalAby3.getMsbMany H j (a' j)) st i n v := by
  obtain ⟨n₀, h⟩ := getMsbMany_two (f := f) (H := H) hK N
  refine ⟨n₀, fun i xs xs' a a' st h1 h3 ha ha' ea hst n hn v => ?_⟩
  have := (h i (Bool.rec a a') ⟨by rintro (_ | _); exacts [⟨xs, h1, ha⟩, ⟨xs', h3, ha'⟩], ea⟩).count hst n hn v
  exact this

theorem C84_reduce_binary_or_private (H : Hash) (cs : Nat) (hcs : cs ≠ 0) (hlt : cs * 128 < 2 ^ 64) (N : Nat) (hN : N ≠ 0) :
    ∃ n₀, ∀ (i : Party) (xs xs' : List (BitVec 1)) (a a' : Party → List (AShare 1)) (st : Party → JmpSt (idealPrg f)),
    xs.length = N → xs'.length = N → Rels BinSharesOf xs a → Rels BinSharesOf xs' a' → a i = a' i → JmpOk st →
    ∀ n ≥ n₀, ∀ v : Log,
      viewCountMal (fun j => MalAby3.reduceBinaryOr H j (a j) cs) st i n v =
      viewCountMal (fun j => MalAby3.reduceBinaryOr H j (a' j) cs) st i n v := by
  obtain ⟨n₀, h⟩ := reduceBinaryOr_two (f := f) (H := H) hcs hlt N hN
  refine ⟨n₀, fun i xs xs' a a' st h1 h3 ha ha' ea hst n hn v => ?_⟩
  have := (h i (Bool.rec a a') ⟨by rintro (_ | _); exacts [⟨xs, h1, ha⟩, ⟨xs', h3, ha'⟩], ea⟩).count hst n hn v
  exact this

/-! ## The hypotheses can be met

Two worlds with the same masks, answer and shares of party 1 are given at the end of `Props/QueryPrivacy.lean`; the other
hypotheses: -/

/-- Empty tapes in the known generators, a message waiting to be compared in every queue. -/
def jmpTapes (f : Bytes → List Bool) : Party → JmpSt (idealPrg f) := fun i =>
  ⟨⟨[], []⟩, [BitVec.ofNat 8 i.val], [BitVec.ofNat 8 i.next.val]⟩

example (f : Bytes → List Bool) : JmpOk (jmpTapes f) := ⟨fun _ => rfl, fun _ => rfl⟩

example : 15 ≤ 16 ∧ 40 ≤ verifWidth 16 - 16 ∧ 1024 * 128 < 2 ^ 64 ∧ (100000 + 1024) * (2 * 16) < 2 ^ 64 := by decide

/-- Two pairs of inputs of an AND gate with the same shares of party 1. -/
example : Rels BinSharesOf [(0x1234 : BitVec 16), 7] (fun i => [exBinShare 0x1234 i, exBinShare 7 i]) ∧
    Rels BinSharesOf [(0xffff : BitVec 16), 0] (fun i => [exBinShare 0xffff i, exBinShare 0 i]) ∧
    (fun i : Party => [exBinShare (0x1234 : BitVec 16) i, exBinShare 7 i]) 1 = (fun i => [exBinShare 0xffff i, exBinShare 0 i]) 1 :=
  ⟨Rels.cons (exBinShare_ok _) (Rels.cons (exBinShare_ok _) Rels.nil), Rels.cons (exBinShare_ok _) (Rels.cons (exBinShare_ok _) Rels.nil),
    rfl⟩

end Verif
