import Verif.Spec.Session
import Verif.Props.Session
import Verif.Props.SpdzIris
import Verif.Props.Iris
import Verif.Proof.Swift3Session
import Verif.Props.SpdzQuery
import Verif.Props.Swift3Verify

/-! # C86: sessions over ABY3, SPDZ-wise and Swift3

Many queries, one after the other, on the same backends. ABY3 answers all. SPDZ-wise answers all exactly if the triples
suffice, where what one query leaves is used by the next: with chunk sizes like the default this is always so, and with any
larger multiple of 128 as long as the database does not shrink. -/

namespace Verif

attribute [local irreducible] hammingDistance commonBits encode

variable {G : Prg} {H : Hash} {K : Nat}

/-! ## ABY3 -/

/-- Under every schedule every party obtains the answers of all queries, in order. -/
theorem C86_aby3 (hK : 15 ≤ K) (signed : Bool) (cs : Nat) (hcs : cs ≠ 0) (rs : List (Request (AShare K)))
    (hrs : ∀ r ∈ rs, r.Ok SharesOf ∧ (r.db.length + cs) * (2 * K) < 2 ^ 64) (st : Party → Aby3St G) (hst : Aby3Ready st) :
    EverySchedule (fun j => session (Aby3.ops G K signed j) cs j rs) st
      fun out st' => (∀ j, out j = rs.map fun r => inDb r.q r.db) ∧ Aby3Ready st' := by
  have key : ∀ (rs : List (Request (AShare K))) (st : Party → Aby3St G),
      (∀ r ∈ rs, r.Ok SharesOf ∧ (r.db.length + cs) * (2 * K) < 2 ^ 64) → Aby3Ready st →
      WPS (fun j => session (Aby3.ops G K signed j) cs j rs) st
        fun out st' => (∀ j, out j = rs.map fun r => inDb r.q r.db) ∧ Aby3Ready st' := by
    intro rs
    induction rs with
    | nil => intro st _ hst; exact WPS.pure (a := fun _ => []) ⟨fun _ => rfl, hst⟩
    | cons r rs ih =>
      intro st hrs hst
      obtain ⟨⟨hne, hm, ha, hb⟩, hov⟩ := hrs r (by simp)
      refine WPS.bind (((Aby3.mpcLawful G (by omega) signed).irisInDb_wp (q := r.q) (a := r.a) (db := r.db)
        (b := r.b) (cs := cs) hK le_rfl ha hne hm hb hcs trivial hov trivial hst).mono fun x st1 hx => ?_)
      refine WPS.bind ((ih st1 (fun r' hr' => hrs r' (by simp [hr'])) hx.2).mono fun xs st2 hxs => ?_)
      exact WPS.pure (a := fun j => x j :: xs j) ⟨fun j => by simp only [hx.1 j, hxs.1 j, List.map_cons], hxs.2⟩
  exact (key rs st hrs hst).allSchedules

/-! ## SPDZ-wise -/

/-- One query, as in `C29_exact`. -/
theorem spdz_query (hK : 15 ≤ K) (hK2 : K ≤ 128) (signed : Bool) (r : Request (SShare (verifWidth K))) {key : BitVec (verifWidth K)}
    (hr : r.Ok (MacSharesOf key)) {cs : Nat} (hcs : cs ≠ 0) (hov : (r.db.length + cs) * (2 * K) < 2 ^ 64) {p : Nat}
    {st : Party → SpdzSt G (verifWidth K)} (hst : SpdzOk key p 0 st) :
    (EnoughTriples K r.db.length cs p → WPS
      (fun i => Iris.irisInDb (Spdz.ops G H K signed i) (r.a i) (r.b i) r.q.mask (r.db.map fun c => c.mask) cs) st
      (fun o st' => (∀ i, o i = inDb r.q r.db) ∧ SpdzOk key
        (stockAfter p (wordsRequested K r.db.length cs) - max (wordsNeeded K r.db.length cs) 8192) 0 st')) ∧
    (¬ EnoughTriples K r.db.length cs p → WPSF
      (fun i => Iris.irisInDb (Spdz.ops G H K signed i) (r.a i) (r.b i) r.q.mask (r.db.map fun c => c.mask) cs) st .panic) := by
  obtain ⟨hne, hm, ha, hb⟩ := hr
  have hn : r.db.length ≠ 0 := by simpa using hne
  have hu := used_eq (K := K) hn hcs
  have hA := avail_eq (K := K) r.db.length cs p
  have hw := Spdz.verifWidth_ge hK2
  constructor
  · intro h
    refine ((Spdz.mpcLawful G H (by omega) hK2 signed key p 0 _).irisInDb_wp hK hw ha hne hm hb hcs trivial hov
      ⟨?_, rfl⟩ hst).mono ?_
    · simp only [Nat.add_zero]; rw [hu, hA]; exact h
    · rintro r st' ⟨hr, hI⟩
      simp only [Nat.add_zero] at hI
      rw [hu, hA] at hI
      exact ⟨hr, hI⟩
  · intro h
    refine ((Spdz.mpcLawful G H (by omega) hK2 signed key p 0 0).irisInDb_verify_fails (e := .notEnoughTriples) hK hw ha hne hm hb hcs trivial hov
      (fun st' hI => Spdz.verify_fails hI ?_) hst)
    simp only [Nat.add_zero]
    rw [hu, hA]
    unfold EnoughTriples at h
    omega

/-- A session over SPDZ-wise: all answers if the triples suffice, a panic of every party otherwise, under every schedule. -/
theorem C86_spdz_exact (hK : 15 ≤ K) (hK2 : K ≤ 128) (signed : Bool) (key : BitVec (verifWidth K)) (cs : Nat) (hcs : cs ≠ 0)
    (rs : List (Request (SShare (verifWidth K))))
    (hrs : ∀ r ∈ rs, r.Ok (MacSharesOf key) ∧ (r.db.length + cs) * (2 * K) < 2 ^ 64) (p : Nat)
    (st : Party → SpdzSt G (verifWidth K)) (hst : SpdzOk key p 0 st) :
    (SessionEnough K cs p (rs.map fun r => r.db.length) →
      EverySchedule (fun j => session (Spdz.ops G H K signed j) cs j rs) st
        fun out st' => (∀ j, out j = rs.map fun r => inDb r.q r.db) ∧ ∃ p', SpdzOk key p' 0 st') ∧
    (¬ SessionEnough K cs p (rs.map fun r => r.db.length) →
      EveryScheduleFails (fun j => session (Spdz.ops G H K signed j) cs j rs) st .panic) := by
  have main : ∀ (rs : List (Request (SShare (verifWidth K)))) (p : Nat) (st : Party → SpdzSt G (verifWidth K)),
      (∀ r ∈ rs, r.Ok (MacSharesOf key) ∧ (r.db.length + cs) * (2 * K) < 2 ^ 64) → SpdzOk key p 0 st →
      (SessionEnough K cs p (rs.map fun r => r.db.length) →
        WPS (fun j => session (Spdz.ops G H K signed j) cs j rs) st
          fun out st' => (∀ j, out j = rs.map fun r => inDb r.q r.db) ∧ ∃ p', SpdzOk key p' 0 st') ∧
      (¬ SessionEnough K cs p (rs.map fun r => r.db.length) →
        WPSF (fun j => session (Spdz.ops G H K signed j) cs j rs) st .panic) := by
    intro rs
    induction rs with
    | nil =>
      intro p st _ hst
      exact ⟨fun _ => WPS.pure (a := fun _ => []) ⟨fun _ => rfl, p, hst⟩, fun h => absurd trivial h⟩
    | cons r rs ih =>
      intro p st hrs hst
      obtain ⟨h1, h2⟩ := spdz_query (H := H) hK hK2 signed r (hrs r (by simp)).1 hcs (hrs r (by simp)).2 hst
      have hrs' : ∀ r ∈ rs, r.Ok (MacSharesOf key) ∧ (r.db.length + cs) * (2 * K) < 2 ^ 64 := fun r' hr' => hrs r' (by simp [hr'])
      refine ⟨fun h => ?_, fun h => ?_⟩
      · rw [List.map_cons, SessionEnough] at h
        refine WPS.bind ((h1 h.1).mono fun x st1 hx => ?_)
        refine WPS.bind (((ih _ st1 hrs' hx.2).1 h.2).mono fun xs st2 hxs => ?_)
        exact WPS.pure (a := fun j => x j :: xs j) ⟨fun j => by simp only [hx.1 j, hxs.1 j, List.map_cons], hxs.2⟩
      · rw [List.map_cons, SessionEnough, not_and_or] at h
        by_cases he : EnoughTriples K r.db.length cs p
        · refine WPSF.bind ((h1 he).mono fun x st1 hx => ?_)
          exact WPSF.bind_left ((ih _ st1 hrs' hx.2).2 (h.resolve_left (not_not.2 he)))
        · exact WPSF.bind_left (h2 he)
  exact ⟨fun h => ((main rs p st hrs hst).1 h).allSchedules, fun h => ((main rs p st hrs hst).2 h).every⟩

/-! ### Chunk sizes that are multiples of 128 -/

theorem mul_ceil (k t : Nat) (hk : 0 < k) : t ≤ k * ((t + k - 1) / k) ∧ k * ((t + k - 1) / k) ≤ t + (k - 1) := by
  have h1 := Nat.div_add_mod (t + k - 1) k
  have h2 := Nat.mod_lt (t + k - 1) hk
  constructor <;> omega

/-- The words requested and used, in blocks of 128 comparisons. -/
theorem words_128 (hK : 2 ≤ K) (n k : Nat) (hn : n ≠ 0) (hk : 0 < k) :
    wordsRequested K n (128 * k) = (2 * K - 3) * (k * (((n + 127) / 128 + k - 1) / k)) + k * (((n + 126) / 128 + k - 1) / k) ∧
    wordsNeeded K n (128 * k) = (2 * K - 3) * ((n + 127) / 128) + (n + 127) / 128 := by
  have hd : ∀ x y : Nat, 0 < y → x / (128 * k) = x / 128 / k := fun x y _ => by rw [Nat.div_div_eq_div_mul]
  have e1 : (n + 128 * k - 1) / (128 * k) = ((n + 127) / 128 + k - 1) / k := by
    rw [hd _ 1 one_pos]
    congr 1
    omega
  have e2 : (n + 128 * k - 2) / (128 * k) = ((n + 126) / 128 + k - 1) / k := by
    rw [hd _ 1 one_pos]
    congr 1
    omega
  constructor
  · unfold wordsRequested
    rw [e1, e2]
    generalize ((n + 127) / 128 + k - 1) / k = x
    generalize ((n + 126) / 128 + k - 1) / k = y
    rw [show x * (128 * k) * (2 * K - 3) + y * (128 * k) + 127 = 128 * ((2 * K - 3) * (k * x) + k * y) + 127 by ring]
    omega
  · unfold wordsNeeded blocksOf
    have hr := Nat.mod_lt n (show 128 * k > 0 by omega)
    have hd := Nat.div_add_mod n (128 * k)
    rw [show (128 * k + 127) / 128 = k by omega]
    have : n / (128 * k) * k + (n % (128 * k) + 127) / 128 = (n + 127) / 128 := by
      generalize n / (128 * k) = m at hd
      generalize n % (128 * k) = r at hd hr
      have : 128 * k * m = 128 * (m * k) := by ring
      omega
    rw [this]

theorem words_mono (hK : 2 ≤ K) {n n' k : Nat} (hn : n ≠ 0) (hk : 0 < k) (h : n ≤ n') :
    wordsRequested K n (128 * k) ≤ wordsRequested K n' (128 * k) := by
  rw [(words_128 hK n k hn hk).1, (words_128 hK n' k (by omega) hk).1]
  refine Nat.add_le_add (Nat.mul_le_mul_left _ (Nat.mul_le_mul_left _ (Nat.div_le_div_right ?_)))
    (Nat.mul_le_mul_left _ (Nat.div_le_div_right ?_)) <;> omega

theorem words_bounds (hK : 2 ≤ K) (n k : Nat) (hn : n ≠ 0) (hk : 0 < k) :
    wordsRequested K n (128 * k) ≤ wordsNeeded K n (128 * k) + (2 * K - 2) * (k - 1) ∧
    (2 * K - 3) * k ≤ wordsRequested K n (128 * k) := by
  rw [(words_128 hK n k hn hk).1, (words_128 hK n k hn hk).2]
  obtain ⟨A, hA⟩ : ∃ A, 2 * K - 3 = A := ⟨_, rfl⟩
  rw [hA, show 2 * K - 2 = A + 1 by omega]
  have h1 := mul_ceil k ((n + 127) / 128) hk
  have h2 := mul_ceil k ((n + 126) / 128) hk
  generalize hX : k * (((n + 127) / 128 + k - 1) / k) = X at h1 ⊢
  generalize hY : k * (((n + 126) / 128 + k - 1) / k) = Y at h2 ⊢
  have hT : (n + 126) / 128 ≤ (n + 127) / 128 := Nat.div_le_div_right (by omega)
  have hT1 : 1 ≤ (n + 127) / 128 := by omega
  generalize (n + 127) / 128 = T at *
  constructor
  · have := Nat.mul_le_mul_left A h1.2
    have e1 : A * (T + (k - 1)) = A * T + A * (k - 1) := by ring
    have e2 : (A + 1) * (k - 1) = A * (k - 1) + (k - 1) := by ring
    omega
  · have : k ≤ X := by
      have : 1 ≤ (T + k - 1) / k := by rw [Nat.le_div_iff_mul_le hk]; omega
      rw [← hX]
      exact Nat.le_mul_of_pos_right _ this
    have := Nat.mul_le_mul_left A this
    omega

/-- The step of the accounting: if not more words are left than the query requests, the query succeeds, and not more are
left than it requested, nor more than were there before or than it requested in vain. -/
theorem stock_step (hK : 2 ≤ K) (n k p : Nat) (hn : n ≠ 0) (hk : 2 ≤ k) (hp : p ≤ wordsRequested K n (128 * k)) :
    EnoughTriples K n (128 * k) p ∧
    stockAfter p (wordsRequested K n (128 * k)) - max (wordsNeeded K n (128 * k)) 8192 ≤ wordsRequested K n (128 * k) ∧
    stockAfter p (wordsRequested K n (128 * k)) - max (wordsNeeded K n (128 * k)) 8192 ≤
      max p (wordsRequested K n (128 * k) - wordsNeeded K n (128 * k)) := by
  have h := C29_multiple hK n k hn hk
  unfold EnoughTriples stockAfter at *
  rw [if_pos (by omega)] at h
  rw [if_pos hp]
  omega

/-- Chunks of `128·k` entries with `2 ≤ k ≤ 2K-2` (for 16-bit rings 256 to 3840, and the default of the programs, 1024, is one
of them): the triples suffice for every session. -/
theorem C86_spdz_any_sizes (hK : 2 ≤ K) (k : Nat) (hk : 2 ≤ k) (hk2 : k ≤ 2 * K - 2) (ns : List Nat) (hns : ∀ n ∈ ns, n ≠ 0) :
    SessionEnough K (128 * k) 0 ns := by
  have key : ∀ (ns : List Nat) (p : Nat), (∀ n ∈ ns, n ≠ 0) → p ≤ (2 * K - 2) * (k - 1) → SessionEnough K (128 * k) p ns := by
    intro ns
    induction ns with
    | nil => intro _ _ _; exact trivial
    | cons n ns ih =>
      intro p hns hp
      have hn := hns n (by simp)
      obtain ⟨b1, b2⟩ := words_bounds hK n k hn (by omega)
      have hkk : (2 * K - 2) * (k - 1) ≤ (2 * K - 3) * k := by
        obtain ⟨A, hA⟩ : ∃ A, 2 * K - 3 = A := ⟨_, rfl⟩
        rw [hA, show 2 * K - 2 = A + 1 by omega]
        obtain ⟨m, rfl⟩ : ∃ m, k = m + 1 := ⟨k - 1, by omega⟩
        rw [Nat.add_sub_cancel]
        have : A * (m + 1) = A * m + A := by ring
        have : (A + 1) * m = A * m + m := by ring
        omega
      obtain ⟨s1, s2, s3⟩ := stock_step hK n k p hn hk (by omega)
      exact ⟨s1, ih _ (fun n' h' => hns n' (by simp [h'])) (le_trans s3 (by omega))⟩
  exact key ns 0 hns (Nat.zero_le _)

/-- Chunks of any multiple of 128 greater than 128: the triples suffice as long as the database does not shrink. -/
theorem C86_spdz_growing (hK : 2 ≤ K) (k : Nat) (hk : 2 ≤ k) (ns : List Nat) (hns : ∀ n ∈ ns, n ≠ 0) (hs : ns.Pairwise (· ≤ ·)) :
    SessionEnough K (128 * k) 0 ns := by
  have key : ∀ (ns : List Nat) (p : Nat), (∀ n ∈ ns, n ≠ 0) → ns.Pairwise (· ≤ ·) →
      (∀ n ∈ ns, p ≤ wordsRequested K n (128 * k)) → SessionEnough K (128 * k) p ns := by
    intro ns
    induction ns with
    | nil => intro _ _ _ _; exact trivial
    | cons n ns ih =>
      intro p hns hs hp
      have hn := hns n (by simp)
      obtain ⟨s1, s2, -⟩ := stock_step hK n k p hn hk (hp n (by simp))
      rw [List.pairwise_cons] at hs
      exact ⟨s1, ih _ (fun n' h' => hns n' (by simp [h'])) hs.2 fun n' h' =>
        le_trans s2 (words_mono hK hn (by omega) (hs.1 n' h'))⟩
  exact key ns 0 hns hs fun n _ => Nat.zero_le _

/-- Neither bound can be dropped: in chunks of 8192 a query over one entry fails after a query over 40962 entries (and
succeeds on its own, or before it). -/
theorem C86_spdz_shrinking : ¬ SessionEnough 16 8192 0 [40962, 1] ∧ SessionEnough 16 8192 0 [1, 40962] ∧
    SessionEnough 16 8192 0 [1] := by
  simp only [SessionEnough, EnoughTriples]
  decide

/-! ## Swift3 -/

/-- A session over Swift3 with honest parties and rings of 15 to 63 bits: either every party obtains all answers, under every
schedule; or, under every schedule, one party rejects an honest proof (finding 2) and panics, and nobody ever obtains the
list of answers. -/
theorem C86_swift3 (hK : 15 ≤ K) (h64 : K < 64) (hG : G.Lively K) (signed : Bool) (cs : Nat) (hcs : cs ≠ 0)
    (rs : List ((Party → G.S × G.S × G.S) × Request (S3Share K)))
    (hrs : ∀ x ∈ rs, x.2.Ok S3SharesOf ∧ (x.2.db.length + cs) * (2 * K) < 2 ^ 64) (u : Nat) (w : DotCount) (hw : w.size ≤ 12800)
    (hfit : SessionFits u w.n (rs.map fun x => x.2.db.length)) (st : Party → S3St G K) (hst : S3Ok u 0 w st) :
    EverySchedule (fun j => swift3Session H K signed cs j rs) st
      (fun out st' => (∀ j, out j = rs.map fun x => inDb x.2.q x.2.db) ∧ ∃ u w, S3Ok u 0 w st') ∨
    ∃ j, EndsIn (fun i => swift3Session H K signed cs i rs (st i)) (fun c => c.prog j = .fail .panic ∧ ∀ i a, c.prog i ≠ .ret a) := by
  have main : ∀ (rs : List ((Party → G.S × G.S × G.S) × Request (S3Share K))) (u U D : Nat) (w : DotCount) (st : Party → S3St G K),
      (∀ x ∈ rs, x.2.Ok S3SharesOf ∧ (x.2.db.length + cs) * (2 * K) < 2 ^ 64) → w.size ≤ irisCodeSize → u ≤ U → w.n ≤ D →
      SessionFits U D (rs.map fun x => x.2.db.length) → S3Ok u 0 w st →
      WPS (fun j => swift3Session H K signed cs j rs) st
        (fun out st' => (∀ j, out j = rs.map fun x => inDb x.2.q x.2.db) ∧ ∃ u w, S3Ok u 0 w st') ∨
      ∃ j, ∀ {β : Type} (k : Party → List Bool → Proto (S3St G K) β),
        EndsIn (fun i => (swift3Session H K signed cs i rs >>= k i) (st i))
          (fun c => c.prog j = .fail .panic ∧ ∀ i a, c.prog i ≠ .ret a) := by
    intro rs
    induction rs with
    | nil =>
      intro u U D w st _ _ _ _ _ hst
      exact .inl (WPS.pure (a := fun _ => []) ⟨fun _ => rfl, u, w, hst⟩)
    | cons x rs ih =>
      intro u U D w st hrs hw hu hd hfit hst
      obtain ⟨g, r⟩ := x
      obtain ⟨hok, hov⟩ := hrs (g, r) (by simp)
      rw [List.map_cons, SessionFits] at hfit
      obtain ⟨f1, f2, f3⟩ := hfit
      simp only at f1 f2 f3 hov hok
      have hdn : 51202 * (w.n + r.db.length) ≤ 51202 * (D + r.db.length) := Nat.mul_le_mul_left _ (by omega)
      obtain ⟨st1, u1, w1, rd, -, -, -, -, -, h1, h2⟩ := Swift3.query_session (H := H) hK h64 hG signed hst hw hok hcs hov
        (by omega) (by omega) g
      by_cases hrd : ∀ i, rd i = .ok ()
      · obtain ⟨y, hy, ⟨ho, u', w', hI', hsz, hu', -, hn'⟩⟩ := h1 hrd
        have hn'' : w'.n ≤ D + r.db.length + ceilSqrt (51202 * (D + r.db.length)) :=
          le_trans hn' (Nat.add_le_add (by omega) (Swift3.ceilSqrt_mono hdn))
        rcases ih u' _ _ w' _ (fun x hx => hrs x (by simp [hx])) hsz (by omega) hn'' f3 hI' with h | ⟨j, h⟩
        · refine .inl (WPS.bind ⟨y, hy, WPS.bind (h.mono fun xs st2 hxs => ?_)⟩)
          exact WPS.pure (a := fun j => (y j).1 :: xs j) ⟨fun j => by simp only [ho j, hxs.1 j, List.map_cons], hxs.2⟩
        · refine .inr ⟨j, fun k => ?_⟩
          simp only [swift3Session, bind_assoc, pure_bind]
          exact EndsIn.after ⟨y, hy, h _⟩
      · push Not at hrd
        obtain ⟨j, hj⟩ := hrd
        obtain ⟨e, he⟩ : ∃ e, rd j = .error e := by
          cases h : rd j with
          | error e => exact ⟨e, rfl⟩
          | ok a => exact absurd h hj
        refine .inr ⟨j, fun k => ?_⟩
        simp only [swift3Session, bind_assoc, pure_bind]
        exact h2 j e he _
  rcases main rs u u w.n w st hrs hw le_rfl le_rfl hfit hst with h | h
  · exact .inl h.allSchedules
  · obtain ⟨j, h⟩ := h
    have := h fun _ => pure
    simp only [bind_pure] at this
    exact .inr ⟨j, this⟩

/-- In a session over Swift3 nobody ever obtains a wrong answer: at any moment of any schedule, a party that has returned has
returned the answers of the plaintext searches. -/
theorem C86_swift3_never_wrong (hK : 15 ≤ K) (h64 : K < 64) (hG : G.Lively K) (signed : Bool) (cs : Nat) (hcs : cs ≠ 0)
    (rs : List ((Party → G.S × G.S × G.S) × Request (S3Share K)))
    (hrs : ∀ x ∈ rs, x.2.Ok S3SharesOf ∧ (x.2.db.length + cs) * (2 * K) < 2 ^ 64) (u : Nat) (w : DotCount) (hw : w.size ≤ 12800)
    (hfit : SessionFits u w.n (rs.map fun x => x.2.db.length)) (st : Party → S3St G K) (hst : S3Ok u 0 w st)
    (n : Nat) (c : Config (List Bool × S3St G K))
    (hc : StepsN n (Config.init fun i => swift3Session H K signed cs i rs (st i)) c) (i : Party) (o : List Bool × S3St G K)
    (ho : c.prog i = .ret o) : o.1 = rs.map fun x => inDb x.2.q x.2.db := by
  rcases C86_swift3 (H := H) hK h64 hG signed cs hcs rs hrs u w hw hfit st hst with ⟨a, st', h, hq⟩ | ⟨j, h⟩
  · refine EndsIn.result (P := fun _ o => o.1 = rs.map fun x => inDb x.2.q x.2.db) (h.1.mono ?_) hc ho
    intro c hcc i o ho
    rw [hcc.1 i] at ho
    cases ho
    exact hq.1 i
  · refine EndsIn.result (P := fun _ o => o.1 = rs.map fun x => inDb x.2.q x.2.db) (h.mono ?_) hc ho
    intro c hcc i o ho
    exact absurd ho (hcc.2 i o)

/-- One query of a Swift3 session, exactly: the dot products checked are all that were ever registered (padding included), each
of 12800 elements. If every party accepts, all get the right answer, and the number of registered dot products has grown by at
least the size of the database. If there are more than the proof has room for, every party panics. -/
theorem C86_swift3_accumulates (hK : 15 ≤ K) (h64 : K < 64) (hG : G.Lively K) (signed : Bool) (cs : Nat) (hcs : cs ≠ 0)
    (g : Party → G.S × G.S × G.S) (r : Request (S3Share K)) (hr : r.Ok S3SharesOf) (hov : (r.db.length + cs) * (2 * K) < 2 ^ 64)
    (u : Nat) (w : DotCount) (hw : w.size ≤ 12800) (hu : u + 1100 * r.db.length ≤ 2 ^ 44) (st : Party → S3St G K)
    (hst : S3Ok u 0 w st) :
    let p := fun i => Iris.irisInDb (Swift3.ops G H K signed (Swift3.verify H i (g i).1 (g i).2.1 (g i).2.2) i) (r.a i) (r.b i)
      r.q.mask (r.db.map fun c => c.mask) cs
    (2 ^ 44 < 51202 * (w.n + r.db.length) → EveryScheduleFails p st .panic) ∧
    (51202 * (w.n + r.db.length) ≤ 2 ^ 44 → ∃ (st1 : Party → S3St G K) (u1 : Nat) (res : Party → Except Err Unit),
      S3Ok u1 0 ⟨w.n + r.db.length, 12800⟩ st1 ∧
      DotOutcome ⟨w.n + r.db.length, 12800⟩ (G.genSeed (st1 0).prf.pp).2 (fun i => (g i).2.2) (fun i => (st1 i).dotProof) res ∧
      ((∀ i, res i = .ok ()) → EverySchedule p st (fun o st' => (∀ i, o i = inDb r.q r.db) ∧
        ∃ u' w', S3Ok u' 0 w' st' ∧ w.n + r.db.length ≤ w'.n)) ∧
      ∀ j e, res j = .error e → EndsIn (fun i => p i (st i)) (fun c => c.prog j = .fail .panic ∧ ∀ i a, c.prog i ≠ .ret a)) := by
  intro p
  refine ⟨fun h => (Swift3.query_exceeds hK h64 hG signed hst hw hr hcs hov hu h g).every, fun h => ?_⟩
  obtain ⟨st1, u1, w1, rd, -, h1, h2, h3, h4, h5, h6⟩ := Swift3.query_session (H := H) hK h64 hG signed hst hw hr hcs hov hu h g
  obtain ⟨wn, ws⟩ := w1
  simp only at h2 h3
  subst h2 h3
  refine ⟨st1, u1, rd, h1, h4, fun hok => ?_, fun j e he => ?_⟩
  · exact ((h5 hok).mono fun o st' ⟨ho, u', w', hI', _, _, hl, _⟩ => ⟨ho, u', w', hI', hl⟩).allSchedules
  · have := h6 j e he fun _ => pure
    simpa only [bind_pure] using this

/-- A Swift3 backend does not serve queries for ever: a session (of at most a million queries, on fresh backends) over more than
`2^44/51202`, about 343 million, entries in total never completes, under any schedule: nobody obtains the answers. (The
limit on the number of queries and entries keeps the AND gates within theirs.) -/
theorem C86_swift3_limit (hK : 15 ≤ K) (h64 : K < 64) (hG : G.Lively K) (signed : Bool) (cs : Nat) (hcs : cs ≠ 0)
    (rs : List ((Party → G.S × G.S × G.S) × Request (S3Share K)))
    (hrs : ∀ x ∈ rs, x.2.Ok S3SharesOf ∧ (x.2.db.length + cs) * (2 * K) < 2 ^ 64) (hlen : rs.length ≤ 2 ^ 20)
    (hbig : 2 ^ 44 < 51202 * (rs.map fun x => x.2.db.length).sum) (hsum : (rs.map fun x => x.2.db.length).sum ≤ 2 ^ 32)
    (size : Nat) (hsize : size ≤ 12800) (st : Party → S3St G K) (hst : S3Ok 0 0 ⟨0, size⟩ st) :
    EndsIn (fun i => swift3Session H K signed cs i rs (st i)) (fun c => ∀ i a, c.prog i ≠ .ret a) := by
  have main : ∀ (rs : List ((Party → G.S × G.S × G.S) × Request (S3Share K))) (u D : Nat) (w : DotCount) (st : Party → S3St G K),
      (∀ x ∈ rs, x.2.Ok S3SharesOf ∧ (x.2.db.length + cs) * (2 * K) < 2 ^ 64) → w.size ≤ irisCodeSize →
      D ≤ w.n → 51202 * D ≤ 2 ^ 44 → 2 ^ 44 < 51202 * (D + (rs.map fun x => x.2.db.length).sum) →
      u + 1100 * (rs.map fun x => x.2.db.length).sum + 2 ^ 22 * rs.length ≤ 2 ^ 44 → S3Ok u 0 w st →
      ∀ {β : Type} (k : Party → List Bool → Proto (S3St G K) β),
        EndsIn (fun i => (swift3Session H K signed cs i rs >>= k i) (st i)) (fun c => ∀ i a, c.prog i ≠ .ret a) := by
    intro rs
    induction rs with
    | nil =>
      intro u D w st _ _ _ h1 h2 _ _ _ _
      simp only [List.map_nil, List.sum_nil] at h2
      omega
    | cons x rs ih =>
      intro u D w st hrs hw hD h1 h2 hu hst β k
      obtain ⟨g, r⟩ := x
      obtain ⟨hok, hov⟩ := hrs (g, r) (by simp)
      simp only [List.map_cons, List.sum_cons, List.length_cons] at hu h2 hov hok
      simp only [swift3Session, bind_assoc, pure_bind]
      by_cases hx : 2 ^ 44 < 51202 * (w.n + r.db.length)
      · have h := (Swift3.query_exceeds (H := H) hK h64 hG signed hst hw hok hcs hov (by omega) hx g).bind_left
          (k := fun i x => swift3Session H K signed cs i rs >>= fun xs => k i (x :: xs))
        refine (show EndsIn _ _ from h.every).mono fun c hc i a => ?_
        rw [hc i]
        exact fun h => nomatch h
      · obtain ⟨st1, u1, w1, rd, -, -, -, -, -, h3, h4⟩ := Swift3.query_session (H := H) hK h64 hG signed hst hw hok hcs hov
          (by omega) (by omega) g
        by_cases hrd : ∀ i, rd i = .ok ()
        · obtain ⟨y, hy, ⟨ho, u', w', hI', hsz, hu', hl, -⟩⟩ := h3 hrd
          refine EndsIn.after ⟨y, hy, ih u' (D + r.db.length) w' _ (fun x hx => hrs x (by simp [hx])) hsz (by omega) ?_
            (by omega) (by omega) hI' _⟩
          have := Nat.mul_le_mul_left 51202 (show D + r.db.length ≤ w.n + r.db.length by omega)
          omega
        · push Not at hrd
          obtain ⟨j, hj⟩ := hrd
          obtain ⟨e, he⟩ : ∃ e, rd j = .error e := by
            cases h : rd j with
            | error e => exact ⟨e, rfl⟩
            | ok a => exact absurd h hj
          exact (h4 j e he _).mono fun c hc => hc.2
  have := main rs 0 0 ⟨0, size⟩ st hrs hsize le_rfl (by norm_num) (by simpa using hbig) (by omega) hst fun _ => pure
  simpa only [bind_pure] using this

/-! ## The hypotheses can be met -/

/-- A request for a code with full mask in a database of `n` copies of it, shared by `sh`. -/
def exRequestOf {A : Type} {W : Nat} (sh : BitVec W → Party → A) (n : Nat) (c : IrisCodeArray) : Request A where
  q := ⟨c, IrisCodeArray.ones⟩
  db := List.replicate n ⟨c, IrisCodeArray.ones⟩
  a := fun i => (encode W c).map (sh · i)
  b := fun i => List.replicate n ((encode W c).map (sh · i))

theorem exRequestOf_ok {A : Type} {W : Nat} {R : BitVec W → (Party → A) → Prop} {sh : BitVec W → Party → A}
    (h : ∀ xs : List (BitVec W), Rels R xs fun i => xs.map (sh · i)) {n : Nat} (hn : n ≠ 0) (c : IrisCodeArray) :
    (exRequestOf sh n c).Ok R := by
  refine ⟨by simp [exRequestOf, hn], fun x hx => ?_, h _, ?_⟩
  · have : x = ⟨c, IrisCodeArray.ones⟩ := (List.mem_replicate.1 hx).2
    rw [this]
    exact le_trans (by omega) (fullMask_common c c).ge
  · simp only [exRequestOf, List.map_replicate]
    clear hn
    induction n with
    | zero => exact Rels.nil
    | succ n ih =>
      simp only [List.replicate_succ]
      exact Rels.cons (b := fun i => (encode W c).map (sh · i)) (h _) ih

example (c d : IrisCodeArray) : (exRequestOf exShare 3 c).Ok (SharesOf (K := 16)) ∧ Aby3Ready exSt :=
  ⟨exRequestOf_ok exShares_ok (by omega) c, exSt_ready⟩

/-- SPDZ-wise: sessions over databases of different sizes, with the default chunk size and with a larger one. -/
example (key : BitVec 64) (c : IrisCodeArray) : SpdzOk key 0 0 (exSpdzSt key) ∧
    (∀ n ≠ 0, (exRequestOf (exMacShare key) n c).Ok (MacSharesOf key)) ∧ (34817 + 1024) * (2 * 16) < 2 ^ 64 ∧
    SessionEnough 16 1024 0 [2, 2, 34817, 1] ∧ SessionEnough 16 8192 0 [1, 40962, 50000] :=
  ⟨exSpdzSt_ok key, fun n hn => exRequestOf_ok (exMacShares_ok key) hn c, by omega,
    C86_spdz_any_sizes (by omega) 8 (by omega) (by omega) _ (by simp),
    C86_spdz_growing (by omega) 64 (by omega) _ (by simp) (by simp)⟩

/-- Swift3: short sessions are within the limits, and one over 200 million and then 150 million entries is not. -/
example (c : IrisCodeArray) : stuckPrg.Lively 16 ∧ S3Ok 0 0 ⟨0, 0⟩ (exFreshSt 16) ∧ (∀ n ≠ 0, (exRequestOf exS3Share n c).Ok (S3SharesOf (K := 16))) ∧
    SessionFits 0 0 [1000, 5000] ∧ 2 ^ 44 < 51202 * [200000000, 150000000].sum ∧ [200000000, 150000000].sum ≤ 2 ^ 32 ∧
    (200000000 + 1024) * (2 * 16) < 2 ^ 64 := by
  refine ⟨stuckPrg_lively, exFreshSt_ok 16, fun n hn => exRequestOf_ok exS3Shares_ok hn c, ?_, by decide, by decide, by omega⟩
  have : ceilSqrt (51202 * (0 + 1000)) ≤ 8000 := (ceilSqrt_spec _).2 _ (by omega)
  simp only [SessionFits]
  generalize ceilSqrt (51202 * (0 + 1000)) = x at this ⊢
  generalize ceilSqrt (51202 * (0 + 1000 + x + 5000)) = y
  norm_num
  omega

end Verif
