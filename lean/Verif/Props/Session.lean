import Verif.Spec.Session
import Verif.Props.QueryPrivacyMal

/-! # C85: a session of many queries over the malicious ABY3 backend

The queries run one after the other on the same generators and queues. All answers are right, and what one semi-honest
party sees in the whole session depends only on the sizes, the masks and the answers: nothing adds up over many queries. -/

namespace Verif

open Jmp

attribute [local irreducible] hammingDistance commonBits encode

variable {K : Nat} {f : Bytes → List Bool}

/-- Under every schedule every party obtains the answers of all queries, in order. -/
theorem C85_session_answers (G : Prg) (H : Hash) (hK : 15 ≤ K) (hV : 40 ≤ verifWidth K - K) (signed : Bool) (cs : Nat) (hcs : cs ≠ 0)
    (hlt : cs * 128 < 2 ^ 64) (rs : List (Request (AShare K))) (hrs : ∀ r ∈ rs, r.Ok SharesOf ∧ (r.db.length + cs) * (2 * K) < 2 ^ 64)
    (st : Party → JmpSt G) (hst : JmpOk st) :
    EverySchedule (fun j => session (MalAby3.ops G H K signed j) cs j rs) st
      fun out st' => (∀ j, out j = rs.map fun r => inDb r.q r.db) ∧ JmpOk st' := by
  have key : ∀ (rs : List (Request (AShare K))) (st : Party → JmpSt G), (∀ r ∈ rs, r.Ok SharesOf ∧ (r.db.length + cs) * (2 * K) < 2 ^ 64) → JmpOk st →
      WPS (fun j => session (MalAby3.ops G H K signed j) cs j rs) st
        fun out st' => (∀ j, out j = rs.map fun r => inDb r.q r.db) ∧ JmpOk st' := by
    intro rs
    induction rs with
    | nil => intro st _ hst; exact WPS.pure (a := fun _ => []) ⟨fun _ => rfl, hst⟩
    | cons r rs ih =>
      intro st hrs hst
      obtain ⟨⟨hne, hm, ha, hb⟩, hov⟩ := hrs r (by simp)
      refine WPS.bind (((MalAby3.mpcLawful G H hV (by omega) signed).irisInDb_wp (q := r.q) (a := r.a) (db := r.db)
        (b := r.b) (cs := cs) hK le_rfl ha hne hm hb hcs hlt hov trivial hst).mono fun x st1 hx => ?_)
      refine WPS.bind ((ih st1 (fun r' hr' => hrs r' (by simp [hr'])) hx.2).mono fun xs st2 hxs => ?_)
      exact WPS.pure (a := fun j => x j :: xs j) ⟨fun j => by simp only [hx.1 j, hxs.1 j, List.map_cons], hxs.2⟩
  exact (key rs st hrs hst).allSchedules

/-- The coupling of two sessions. -/
theorem session_two (H : Hash) (hK : 15 ≤ K) (hV : 40 ≤ verifWidth K - K) (signed : Bool) (cs : Nat) (hcs : cs ≠ 0)
    (hlt : cs * 128 < 2 ^ 64) (ms : List Nat) (hms : ∀ m ∈ ms, (m + cs) * (2 * K) < 2 ^ 64) : ∃ N, ∀ (i : Party)
    (rs : Bool → List (Request (AShare K))), (∀ w, (rs w).map (fun r => r.db.length) = ms) → (∀ w, ∀ r ∈ rs w, r.Ok SharesOf) →
    List.Forall₂ (Request.Alike i) (rs false) (rs true) →
    Cpl (f := f) i N (fun w j => session (MalAby3.ops (idealPrg f) H K signed j) cs j (rs w)) fun _ => True := by
  induction ms with
  | nil =>
    refine ⟨0, fun i rs hl hok hal => ?_⟩
    have e : ∀ w, rs w = [] := fun w => by simpa using hl w
    simp only [e, session]
    exact Cpl.pure (a := fun _ _ => []) trivial
  | cons m ms ih =>
    obtain ⟨N2, h2⟩ := ih fun m hm => hms m (by simp [hm])
    by_cases hm0 : m = 0
    · refine ⟨0, fun i rs hl hok hal => ?_⟩
      obtain ⟨r, l, e⟩ : ∃ r l, rs false = r :: l := by
        cases h : rs false with
        | nil => have := hl false; rw [h] at this; simp at this
        | cons r l => exact ⟨r, l, rfl⟩
      have := hl false
      rw [e, List.map_cons, List.cons.injEq] at this
      exact absurd (List.length_eq_zero_iff.1 (this.1.trans hm0)) (hok false r (by rw [e]; simp)).1
    obtain ⟨N1, h1⟩ := irisInDb_two (f := f) H hK hV signed m hm0 cs hcs hlt (hms m (by simp))
    refine ⟨N1 + N2, fun i rs hl hok hal => ?_⟩
    have hex : ∀ w, ∃ r l, rs w = r :: l ∧ r.db.length = m ∧ l.map (fun r => r.db.length) = ms := by
      intro w
      have := hl w
      cases h : rs w with
      | nil => rw [h] at this; simp at this
      | cons r l =>
        rw [h, List.map_cons, List.cons.injEq] at this
        exact ⟨r, l, rfl, this⟩
    choose r l e hlen hls using hex
    rw [e false, e true, List.forall₂_cons] at hal
    obtain ⟨⟨eq, ed, ea, eb, ein⟩, hal⟩ := hal
    have hok' : ∀ w, (r w).Ok SharesOf := fun w => hok w _ (by rw [e]; simp)
    have eq' : ∀ w, (r w).q.mask = (r false).q.mask := by rintro (_ | _); rfl; exact eq.symm
    have ed' : ∀ w, ((r w).db.map fun c => c.mask) = (r false).db.map fun c => c.mask := by rintro (_ | _); rfl; exact ed.symm
    have hany : ∀ (q : IrisCode) (db : List IrisCode), db.any (MpcLawful.closeBit q) = inDb q db := fun q db => by
      unfold inDb
      congr 1
      funext c
      rw [MpcLawful.closeBit, MpcLawful.hammingDistance_comm, MpcLawful.commonBits_comm]
    simp only [e, session, eq', ed']
    refine Cpl.bind (h1 i (fun w => (r w).q) (r false).q.mask ((r false).db.map fun c => c.mask) (fun w => (r w).db)
      (fun w => (r w).a) (fun w => (r w).b) eq' (fun w => (hok' w).2.2.1) ea
      ⟨hlen, ed', fun w => (hok' w).2.2.2, eb⟩ (fun w c hc => by rw [MpcLawful.commonBits_comm]; exact (hok' w).2.1 c hc)
      (by rw [hany, hany, ein])) fun x _ => ?_
    refine Cpl.bind (m := 0) (h2 i l hls (fun w r' hr' => hok w r' (by rw [e]; simp [hr'])) hal) fun xs _ => ?_
    exact Cpl.pure (a := fun w j => x w j :: xs w j) trivial

/-- What party `i` sees in a session of any number of queries has the same distribution in any two sessions whose queries
the party cannot tell apart, one by one, by its own shares, the masks and the answers. `n₀` depends on the sizes of the
databases only. -/
theorem C85_session_private (H : Hash) (hK : 15 ≤ K) (hV : 40 ≤ verifWidth K - K) (signed : Bool) (cs : Nat) (hcs : cs ≠ 0)
    (hlt : cs * 128 < 2 ^ 64) (ms : List Nat) (hms : ∀ m ∈ ms, (m + cs) * (2 * K) < 2 ^ 64) :
    ∃ n₀, ∀ (i : Party) (rs rs' : List (Request (AShare K))) (st : Party → JmpSt (idealPrg f)),
      rs.map (fun r => r.db.length) = ms → rs'.map (fun r => r.db.length) = ms → (∀ r ∈ rs, r.Ok SharesOf) → (∀ r ∈ rs', r.Ok SharesOf) →
      List.Forall₂ (Request.Alike i) rs rs' → JmpOk st → ∀ n ≥ n₀, ∀ v : Log,
        viewCountMal (fun j => session (MalAby3.ops (idealPrg f) H K signed j) cs j rs) st i n v =
        viewCountMal (fun j => session (MalAby3.ops (idealPrg f) H K signed j) cs j rs') st i n v := by
  obtain ⟨N, h⟩ := session_two (f := f) H hK hV signed cs hcs hlt ms hms
  refine ⟨N, fun i rs rs' st hl hl' hok hok' hal hst n hn v => ?_⟩
  have := (h i (Bool.rec rs rs') (by rintro (_ | _) <;> assumption) (by rintro (_ | _) <;> assumption) hal).count hst n hn v
  exact this

/-! ## The hypotheses can be met -/

/-- A query for a code with full mask, in a database with two copies of it. -/
def exRequest (c : IrisCodeArray) : Request (AShare 16) where
  q := ⟨c, IrisCodeArray.ones⟩
  db := [⟨c, IrisCodeArray.ones⟩, ⟨c, IrisCodeArray.ones⟩]
  a := fun i => (encode 16 c).map (exShare · i)
  b := fun i => [(encode 16 c).map (exShare · i), (encode 16 c).map (exShare · i)]

theorem exRequest_ok (c : IrisCodeArray) : (exRequest c).Ok SharesOf := by
  refine ⟨by simp [exRequest], fun x hx => ?_, exShares_ok _, Rels.cons (exShares_ok _) (Rels.cons (exShares_ok _) Rels.nil)⟩
  have : x = ⟨c, IrisCodeArray.ones⟩ := by simpa [exRequest] using hx
  rw [this]
  exact le_trans (by omega) (fullMask_common c c).ge

theorem exRequest_alike (c d : IrisCodeArray) : (exRequest c).Alike 1 (exRequest d) := by
  have sh : ∀ x : IrisCodeArray, (encode 16 x).map (exShare · 1) = List.replicate 12800 (⟨11, 3⟩ : AShare 16) := fun x => by
    rw [List.eq_replicate_iff]
    refine ⟨by rw [List.length_map, MpcLawful.encode_length]; rfl, fun y hy => ?_⟩
    obtain ⟨z, -, rfl⟩ := List.mem_map.1 hy
    rfl
  refine ⟨rfl, rfl, (sh c).trans (sh d).symm, ?_, ?_⟩
  · simp only [exRequest, sh]
  · have hd : ∀ x : IrisCodeArray, hammingDistance ⟨x, IrisCodeArray.ones⟩ ⟨x, IrisCodeArray.ones⟩ = 0 := fun x => by
      rw [distance_full]; simp
    have hc : ∀ x : IrisCodeArray, commonBits ⟨x, IrisCodeArray.ones⟩ ⟨x, IrisCodeArray.ones⟩ = 12800 := fun x =>
      fullMask_common x x
    simp only [exRequest, inDb, List.any_cons, List.any_nil, hd, hc]

/-- Two sessions of three queries that party 1 cannot tell apart, for any codes. -/
example (c d e c' d' e' : IrisCodeArray) : let rs := [exRequest c, exRequest d, exRequest e]
    let rs' := [exRequest c', exRequest d', exRequest e']
    rs.map (fun r => r.db.length) = [2, 2, 2] ∧ (∀ r ∈ rs, r.Ok SharesOf) ∧ List.Forall₂ (Request.Alike 1) rs rs' := by
  refine ⟨rfl, ?_, ?_⟩
  · intro r hr
    simp only [List.mem_cons, List.not_mem_nil, or_false] at hr
    rcases hr with rfl | rfl | rfl <;> exact exRequest_ok _
  · exact .cons (exRequest_alike _ _) (.cons (exRequest_alike _ _) (.cons (exRequest_alike _ _) .nil))

example : 15 ≤ 16 ∧ 40 ≤ verifWidth 16 - 16 ∧ 1024 * 128 < 2 ^ 64 ∧ ∀ m ∈ [2, 2, 2], (m + 1024) * (2 * 16) < 2 ^ 64 := by decide

end Verif
