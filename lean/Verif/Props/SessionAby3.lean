import Verif.Proof.UniSession
import Verif.Props.QueryPrivacy
import Verif.Props.Session

/-! # C92: a session of many queries over the ABY3 backend

As C85, for the semi-honest backend (the answers are those of `C86_aby3`): what one party sees in the whole session depends only on the
sizes, its shares, the masks and the answers. Every query re-uses the generators as the query before left them. -/

namespace Verif

attribute [local irreducible] hammingDistance commonBits encode

variable {K : Nat}

theorem aby3Session_wps (G : Prg) (hK : 15 ≤ K) (signed : Bool) (cs : Nat) (hcs : cs ≠ 0) (rs : List (Request (AShare K))) :
    ∀ (st : Party → Aby3St G), (∀ r ∈ rs, r.Ok SharesOf ∧ (r.db.length + cs) * (2 * K) < 2 ^ 64) →
      Aby3Ready st → WPS (fun j => session (Aby3.ops G K signed j) cs j rs) st
        fun out st' => (∀ j, out j = rs.map fun r => inDb r.q r.db) ∧ Aby3Ready st' := by
  induction rs with
  | nil => intro st _ hst; exact WPS.pure (a := fun _ => []) ⟨fun _ => rfl, hst⟩
  | cons r rs ih =>
    intro st hrs hst
    obtain ⟨⟨hne, hm, ha, hb⟩, hov⟩ := hrs r (by simp)
    refine WPS.bind (((Aby3.mpcLawful G (by omega) signed).irisInDb_wp (q := r.q) (a := r.a) (db := r.db)
      (b := r.b) (cs := cs) hK le_rfl ha hne hm hb hcs trivial hov trivial hst).mono fun x st1 hx => ?_)
    refine WPS.bind ((ih st1 (fun r' hr' => hrs r' (by simp [hr'])) hx.2).mono fun xs st2 hxs => ?_)
    exact WPS.pure (a := fun j => x j :: xs j) ⟨fun j => by simp only [hx.1 j, hxs.1 j, List.map_cons], hxs.2⟩

/-- One query. -/
theorem query_sims (hK : 15 ≤ K) (signed : Bool) (m : Nat) (hm0 : m ≠ 0) (cs : Nat) (hcs : cs ≠ 0) (hov : (m + cs) * (2 * K) < 2 ^ 64) :
    ∃ N, ∀ (i : Party) (r r' : Request (AShare K)), r.db.length = m → r'.db.length = m → r.Ok SharesOf → r'.Ok SharesOf → r.Alike i r' →
      TapeSims i N (fun j => Iris.irisInDb (Aby3.ops bitPrg K signed j) (r.a j) (r.b j) r.q.mask (r.db.map fun c => c.mask) cs)
        fun j => Iris.irisInDb (Aby3.ops bitPrg K signed j) (r'.a j) (r'.b j) r'.q.mask (r'.db.map fun c => c.mask) cs := by
  obtain ⟨F, hF⟩ := Uni.query (K := K) hK signed hcs m hm0
  refine ⟨fmtSize F, fun i r r' hl hl' hok hok' hal => ?_⟩
  have world : ∀ r : Request (AShare K), r.db.length = m → r.Ok SharesOf →
      (Faithful (fmtSize F) (openedM i F (Uni.closed K signed cs (r.a i) (r.b i) r.q.mask (r.db.map fun c => c.mask) i) (inDb r.q r.db)) ∧
      TapeSim i (fmtSize F) (openedM i F (Uni.closed K signed cs (r.a i) (r.b i) r.q.mask (r.db.map fun c => c.mask) i) (inDb r.q r.db))
        (openedT i F (Uni.closed K signed cs (r.a i) (r.b i) r.q.mask (r.db.map fun c => c.mask) i))
        fun j => Iris.irisInDb (Aby3.ops bitPrg K signed j) (r.a j) (r.b j) r.q.mask (r.db.map fun c => c.mask) cs) := by
    rintro ⟨q, db, a, b⟩ hl ⟨hne, hm, ha, hb⟩
    simp only at hl hne hm ha hb ⊢
    have hbl : ∀ j, (b j).length = m := fun j => by rw [hb.length]; simpa using hl
    have e : ∀ j, Iris.irisInDb (Aby3.ops bitPrg K signed j) (a j) (b j) q.mask (db.map fun c => c.mask) cs =
        Uni.closed K signed cs (a j) (b j) q.mask (db.map fun c => c.mask) j >>= Aby3.openBit j := fun j =>
      Uni.irisInDb_eq hK signed hcs (by rw [← List.length_pos_iff, hbl]; omega) (by rw [hbl, List.length_map, hl])
        (by rw [hbl]; exact hov) _ _ _
    have hrows : Uni.Rows m irisCodeSize b := fun j => ⟨hbl j, fun l hl => by
      obtain ⟨js, h1, rfl⟩ := hb
      obtain ⟨s, hs, rfl⟩ := List.mem_map.1 hl
      obtain ⟨k, hk, e⟩ := List.getElem_of_mem hs
      have h2 := List.forall₂_iff_get.1 h1
      have hxs := h2.2 k (h2.1 ▸ hk) hk
      rw [List.get_eq_getElem, List.get_eq_getElem, e, List.getElem_map] at hxs
      rw [hxs.length, MpcLawful.encode_length]⟩
    have hu := hF i q db a b hl (fun c hc => by rw [MpcLawful.commonBits_comm]; exact hm c hc)
      (fun j => by rw [ha.length, MpcLawful.encode_length]) hrows
    have hx : ∀ st, Aby3Ready st → WPS (fun j => Uni.closed K signed cs (a j) (b j) q.mask (db.map fun c => c.mask) j >>= Aby3.openBit j)
        st (fun r st' => (∀ j, r j = inDb q db) ∧ Aby3Ready st') := by
      intro st hst
      have := (Aby3.mpcLawful bitPrg (by omega) signed).irisInDb_wp (q := q) (a := a) (db := db) (b := b) (cs := cs)
        (st := st) hK le_rfl ha hne hm hb hcs trivial (by rw [hl]; exact hov) trivial hst
      simp only [e] at this
      exact this
    simp only [e]
    exact ⟨hu.faithful _, hu.sim _ hx⟩
  obtain ⟨f1, s1⟩ := world r hl hok
  obtain ⟨-, s2⟩ := world r' hl' hok'
  obtain ⟨eq, ed, ea, eb, ein⟩ := hal
  refine ⟨_, _, f1, s1, ?_⟩
  rw [eq, ed, ea, eb, ein]
  exact s2

theorem session_sims (hK : 15 ≤ K) (signed : Bool) (cs : Nat) (hcs : cs ≠ 0) (ms : List Nat) (hms : ∀ m ∈ ms, (m + cs) * (2 * K) < 2 ^ 64) :
    ∃ N, ∀ (i : Party) (rs rs' : List (Request (AShare K))), rs.map (fun r => r.db.length) = ms → rs'.map (fun r => r.db.length) = ms →
      (∀ r ∈ rs, r.Ok SharesOf) → (∀ r ∈ rs', r.Ok SharesOf) → List.Forall₂ (Request.Alike i) rs rs' →
      TapeSims i N (fun j => session (Aby3.ops bitPrg K signed j) cs j rs) fun j => session (Aby3.ops bitPrg K signed j) cs j rs' := by
  induction ms with
  | nil =>
    refine ⟨0, fun i rs rs' hl hl' _ _ _ => ?_⟩
    obtain rfl : rs = [] := by simpa using hl
    obtain rfl : rs' = [] := by simpa using hl'
    exact ⟨_, _, ⟨0, fun s => ⟨fun _ _ => rfl, fun w w' hw hw' _ => by
      rw [List.length_eq_zero_iff.1 hw, List.length_eq_zero_iff.1 hw']⟩⟩, TapeSim.pure (fun _ => []), TapeSim.pure (fun _ => [])⟩
  | cons m ms ih =>
    obtain ⟨N2, h2⟩ := ih fun m hm => hms m (by simp [hm])
    by_cases hm0 : m = 0
    · refine ⟨0, fun i rs rs' hl hl' hok _ _ => ?_⟩
      cases rs with
      | nil => simp at hl
      | cons r rs =>
        rw [List.map_cons, List.cons.injEq] at hl
        exact absurd (List.length_eq_zero_iff.1 (hl.1.trans hm0)) (hok r (by simp)).1
    obtain ⟨N1, h1⟩ := query_sims hK signed m hm0 cs hcs (hms m (by simp))
    refine ⟨N1 + (N2 + 0), fun i rs rs' hl hl' hok hok' hal => ?_⟩
    cases hal with
    | nil => simp at hl
    | @cons r r' rs rs' hr hal =>
      rw [List.map_cons, List.cons.injEq] at hl hl'
      obtain ⟨M, T, g1, g2, g3⟩ := h2 i rs rs' hl.2 hl'.2 (fun x hx => hok x (by simp [hx])) (fun x hx => hok' x (by simp [hx])) hal
      refine TapeSims.bind (h1 i r r' hl.1 hl'.1 (hok r (by simp)) (hok' r' (by simp)) hr)
        ⟨TapeSim.seqM N2 M (fun _ _ => []) T, TapeSim.seqT N2 T (fun s _ => s), ?_, fun a => ?_, fun a => ?_⟩
      rotate_left
      · exact g2.bind fun xs => TapeSim.pure fun j => a j :: xs j
      · exact g3.bind fun xs => TapeSim.pure fun j => a j :: xs j
      · exact TapeSim.faithful_seq g1 ⟨0, fun s => ⟨fun _ _ => rfl, fun w w' hw hw' _ => by
          rw [List.length_eq_zero_iff.1 hw, List.length_eq_zero_iff.1 hw']⟩⟩

/-- What party `i` sees in a session of any number of queries has the same distribution in any two sessions whose queries
the party cannot tell apart, one by one, by its own shares, the masks and the answers; the other parties may start from other
states. `n₀` depends on the sizes of the databases only. -/
theorem C92_session_private (hK : 15 ≤ K) (signed : Bool) (cs : Nat) (hcs : cs ≠ 0) (ms : List Nat)
    (hms : ∀ m ∈ ms, (m + cs) * (2 * K) < 2 ^ 64) :
    ∃ n₀, ∀ (i : Party) (rs rs' : List (Request (AShare K))) (st st' : Party → Aby3St bitPrg),
      rs.map (fun r => r.db.length) = ms → rs'.map (fun r => r.db.length) = ms → (∀ r ∈ rs, r.Ok SharesOf) → (∀ r ∈ rs', r.Ok SharesOf) →
      List.Forall₂ (Request.Alike i) rs rs' → Aby3Ready st → Aby3Ready st' → st i = st' i → ∀ n ≥ n₀, ∀ v : Log,
        viewCount (fun j => session (Aby3.ops bitPrg K signed j) cs j rs) st i n v =
        viewCount (fun j => session (Aby3.ops bitPrg K signed j) cs j rs') st' i n v := by
  obtain ⟨N, h⟩ := session_sims hK signed cs hcs ms hms
  exact ⟨N, fun i rs rs' st st' hl hl' hok hok' hal hst hst' hi n hn v => (h i rs rs' hl hl' hok hok' hal).count hst hst' hi n hn v⟩

/-- The numbers of tapes add up: every tape leads to exactly one view of the session. -/
theorem C92_one_view (hK : 15 ≤ K) (signed : Bool) (cs : Nat) (hcs : cs ≠ 0) (rs : List (Request (AShare K)))
    (hrs : ∀ r ∈ rs, r.Ok SharesOf ∧ (r.db.length + cs) * (2 * K) < 2 ^ 64) (st : Party → Aby3St bitPrg) (hst : Aby3Ready st) (i : Party) (t : List Bool) :
    ∃! v, Sees (fun j => session (Aby3.ops bitPrg K signed j) cs j rs (withTape i t st j)) i v := by
  obtain ⟨r, hr, -⟩ := aby3Session_wps bitPrg hK signed cs hcs rs (withTape i t st) hrs (withTape_ready hst t)
  obtain ⟨l, hl⟩ := hr.recorded (fun _ => [])
  exact ⟨_, (Sees.of_runs hl _).2 rfl, fun v hv => (Sees.of_runs hl v).1 hv⟩

/-! ## The hypotheses can be met -/

/-- Two sessions of three queries that party 1 cannot tell apart, for any codes, and two states of the other parties. -/
example (c d e c' d' e' : IrisCodeArray) : let rs := [exRequest c, exRequest d, exRequest e]
    let rs' := [exRequest c', exRequest d', exRequest e']
    rs.map (fun r => r.db.length) = [2, 2, 2] ∧ (∀ r ∈ rs, r.Ok SharesOf ∧ (r.db.length + 1024) * (2 * 16) < 2 ^ 64) ∧
      List.Forall₂ (Request.Alike 1) rs rs' ∧ Aby3Ready emptyTapes ∧ Aby3Ready (withTape 1 [true] emptyTapes) ∧
      emptyTapes 1 = withTape 1 [true] emptyTapes 1 := by
  have hst : Aby3Ready emptyTapes := fun _ => rfl
  refine ⟨rfl, ?_, ?_, hst, withTape_ready hst _, (withTape_self _ _ _).symm⟩
  · intro r hr
    simp only [List.mem_cons, List.not_mem_nil, or_false] at hr
    rcases hr with rfl | rfl | rfl <;> exact ⟨exRequest_ok _, by show (2 + 1024) * (2 * 16) < 2 ^ 64; omega⟩
  · exact .cons (exRequest_alike _ _) (.cons (exRequest_alike _ _) (.cons (exRequest_alike _ _) .nil))

end Verif
