import Verif.Proof.Swift3Full
import Verif.Props.Swift3
import Verif.Props.DzkpMul

/-! # C41: verification and database queries over Swift3, honest parties -/

namespace Verif

open Swift3

variable {G : Prg} {K : Nat} {H : Hash}

/-! ## Verification -/

/-- `verify`: honest parties with `u` AND-gate bits, `v` multiplications and the dot products `w` registered, rings of
fewer than 64 bits. The AND gates are always accepted. The registered multiplications are checked first; if every party
accepts, the parties end, under every schedule, with the results of the check of the dot products, and in consistent
states. If a party rejects a multiplication and there is something else to verify, this party ends with the error and no
party ever returns; if there is nothing else to verify, the parties end with the results of the check of the
multiplications. -/
theorem C41_verify (hK : 0 < K) (h64 : K < 64) (hG : G.Lively K) (u v : Nat) (w : DotCount) (st : Party → S3St G K)
    (hst : S3Ok u v w st) (hu : u ≤ 2 ^ 44) (hv : v ≤ 2 ^ 44) (hw : (4 * w.size + 2) * w.n ≤ 2 ^ 44)
    (rngMul rngAnd rngDot : Party → G.S) :
    ∃ mulRes dotRes, MulOutcome v (st 0).prf.pp rngMul (fun i => (st i).mulProof) mulRes ∧
      DotOutcome w (seedFor u (seedFor v (st 0).prf.pp)) rngDot (fun i => (st i).dotProof) dotRes ∧
      ((∀ i, mulRes i = .ok ()) → ∃ u' v' w' st', S3Ok u' v' w' st' ∧
        EveryScheduleOutcome (fun i => Swift3.verify H i (rngMul i) (rngAnd i) (rngDot i)) st
          (fun i => (dotRes i).map fun a => (a, st' i))) ∧
      (u = 0 → w.n = 0 → ∃ v' st', S3Ok u v' w st' ∧
        EveryScheduleOutcome (fun i => Swift3.verify H i (rngMul i) (rngAnd i) (rngDot i)) st
          (fun i => (mulRes i).map fun a => (a, st' i))) ∧
      ∀ j e, mulRes j = .error e → (u ≠ 0 ∨ w.n ≠ 0) →
        EndsIn (fun i => Swift3.verify H i (rngMul i) (rngAnd i) (rngDot i) (st i))
          (fun c => c.prog j = .fail e ∧ ∀ i a, c.prog i ≠ .ret a) := by
  obtain ⟨rm, rd, st', u', v', w', h1, h2, h3, h4, st1, h5, h6⟩ := verify_wpe (H := H) hK h64 hG hst hu hv hw rngMul rngAnd rngDot
  refine ⟨rm, rd, h1, h2, fun hm => ⟨u', v', w', st', h3, (h4 hm).every⟩, fun hu0 hn0 => ?_, fun j e hj hne =>
    verify_mul_rejected h5 h6 hj hne⟩
  subst hu0
  exact ⟨v', st1, h5, (verify_mul_only h5 hn0 h6).every⟩

/-- The check of one party accepts or gives `DZKPVerifyError`; it never panics. -/
theorem C41_outcome (hK : 0 < K) (h64 : K < 64) (u v : Nat) (w : DotCount) (st : Party → S3St G K) (hst : S3Ok u v w st)
    (hv : v ≤ 2 ^ 44) (hw : (4 * w.size + 2) * w.n ≤ 2 ^ 44) (pp : G.S) (rng : Party → G.S) (res : Party → Except Err Unit) :
    (MulOutcome v pp rng (fun i => (st i).mulProof) res → ∀ i, res i = .ok () ∨ res i = .error .dzkpVerify) ∧
    (DotOutcome w pp rng (fun i => (st i).dotProof) res → ∀ i, res i = .ok () ∨ res i = .error .dzkpVerify) := by
  constructor
  · intro h i
    unfold MulOutcome at h
    split at h
    · exact .inl (h i)
    · rename_i hv0
      obtain ⟨md, ch, -, hch, hr⟩ := h
      have hm := hst.muls
      obtain ⟨hle, -, hm22⟩ := and_params hv0 hv
      have hg := (hm i.next).1
      rw [(party_np i).1, (party_np i).2.1] at hg
      obtain ⟨md', v1, v2, -, hok, hbad⟩ := C44_mul G hK h64 _ _ _ hg (by rw [(hm _).2, (hm _).2]) (by rw [(hm _).2, (hm _).2])
        _ _ (by rw [(hm _).2]; exact hle) hm22 (ch.thetas i.next) (ch.betas i.next) (zkChallenges_lengths hch _).1
        (zkChallenges_lengths hch _).2 (ch.r i.next) (rng i.next)
      rw [hr i]
      by_cases hl : LeadCancels v1.pr v2.pr
      · exact .inr (hbad hl)
      · exact .inl (hok hl)
  · intro h i
    unfold DotOutcome at h
    split at h
    · exact .inl (h i)
    · rename_i hn0
      obtain ⟨md, ch, -, hch, hr⟩ := h
      have hd := hst.dots
      have hs := hst.sizes
      obtain ⟨hle, -, hm22⟩ := dot_params hn0 hw
      have hg := (hd i.next).1
      rw [(party_np i).1, (party_np i).2.1] at hg
      obtain ⟨md', v1, v2, -, hok, hbad⟩ := C44_dot G hK h64 _ _ _ hg (hs _).1 (by rw [(hd _).2, (hd _).2])
        (by rw [(hd _).2, (hd _).2]) (by rw [(hs _).2.1, (hs _).2.1]) (by rw [(hs _).2.1, (hs _).2.1])
        (by rw [(hs i.prev).2.2, (hs i.next).2.2]) (by rw [(hs i).2.2, (hs i.next).2.2])
        _ _ (by rw [(hd _).2]; exact hle) hm22 (ch.thetas i.next) (ch.betas i.next) (zkChallenges_lengths hch _).1
        (zkChallenges_lengths hch _).2 (ch.r i.next) (rng i.next)
      rw [hr i]
      by_cases hl : LeadCancels v1.pr v2.pr
      · exact .inr (hbad hl)
      · exact .inl (hok hl)

/-- Runs with AND gates only are always accepted. -/
theorem C41_verify_and (hK : 0 < K) (h64 : K < 64) (hG : G.Lively K) (u : Nat) (st : Party → S3St G K) (size : Nat)
    (hst : S3Ok u 0 ⟨0, size⟩ st) (hu : u ≤ 2 ^ 44) (rngMul rngAnd rngDot : Party → G.S) :
    EverySchedule (fun i => Swift3.verify H i (rngMul i) (rngAnd i) (rngDot i)) st
      (fun _ st' => ∃ u' v' w', S3Ok u' v' w' st') := by
  obtain ⟨rm, rd, st', u', v', w', h1, h2, h3, h4, -⟩ := verify_wpe (H := H) hK h64 hG hst hu (by omega) (by simp)
    rngMul rngAnd rngDot
  rw [MulOutcome, if_pos rfl] at h1
  rw [DotOutcome, if_pos rfl] at h2
  exact ((h4 h1).wps (a := fun _ => ()) (st' := st') (fun i => by rw [h2]; rfl)
    (Q := fun _ st' => ∃ u' v' w', S3Ok u' v' w' st') ⟨u', v', w', h3⟩).allSchedules

/-- For rings of 64 bits or more the verification of honest runs panics at every party as soon as a multiplication or a
dot product is registered. -/
theorem C41_wide (h64 : 64 ≤ K) (hG : G.Lively K) (u v : Nat) (w : DotCount) (st : Party → S3St G K)
    (hst : S3Ok u v w st) (hu : u ≤ 2 ^ 44) (hv : v ≤ 2 ^ 44) (hw : (4 * w.size + 2) * w.n ≤ 2 ^ 44)
    (hne : v ≠ 0 ∨ w.n ≠ 0) (rngMul rngAnd rngDot : Party → G.S) :
    EveryScheduleFails (fun i => Swift3.verify H i (rngMul i) (rngAnd i) (rngDot i)) st .panic :=
  (verify_wide h64 hG hst hu hv hw hne rngMul rngAnd rngDot).every

/-! ## Queries -/

/-- `iris_in_db` is `queryBody`, then `verify().unwrap()`, then the opening of the result. -/
theorem C41_split {σ A B : Type} (ops : MpcOps σ A B K) (a : List A) (b : List (List A)) (hb : b ≠ []) (mask : IrisCodeArray)
    (masks : List IrisCodeArray) (hl : b.length = masks.length) (cs : Nat) :
    Iris.irisInDb ops a b mask masks cs = (do
      let res ← Iris.queryBody ops a b mask masks cs
      Proto.unwrap ops.verify
      ops.openBit res) := MpcLawful.irisInDb_eq ops a hb mask masks hl cs

/-- A database query over Swift3 with honest parties and rings of 15 to 63 bits. Before the verification the parties hold
the bit `inDb q db`, shared, and are in consistent states `st1`. If every check of the dot products registered there
accepts, every party gets the answer of the plaintext search, under every schedule. If the check of party `j` rejects,
party `j` panics and no party ever gets an answer, under every schedule. -/
theorem C41_query (hK : 15 ≤ K) (h64 : K < 64) (hG : G.Lively K) (signed : Bool) (u : Nat) (w : DotCount)
    (st : Party → S3St G K) (hst : S3Ok u 0 w st) (hw : w.size ≤ 12800) (q : IrisCode) (db : List IrisCode) (hne : db ≠ [])
    (hm : ∀ c ∈ db, 8960 ≤ commonBits c q) (a : Party → List (S3Share K)) (ha : Rels S3SharesOf (encode K q.code) a)
    (b : Party → List (List (S3Share K))) (hb : Rels (Rels S3SharesOf) (db.map fun c => encode K c.code) b)
    (cs : Nat) (hcs : cs ≠ 0) (hov : (db.length + cs) * (2 * K) < 2 ^ 64) (hu : u + 1100 * db.length ≤ 2 ^ 44)
    (hn : 51202 * (w.n + db.length) ≤ 2 ^ 44) (rngMul rngAnd rngDot : Party → G.S) :
    let ops := fun i => Swift3.ops G H K signed (Swift3.verify H i (rngMul i) (rngAnd i) (rngDot i)) i
    ∃ st1 u1 w1 res,
      EverySchedule (fun i => Iris.queryBody (ops i) (a i) (b i) q.mask (db.map fun c => c.mask) cs) st
        (fun r st' => S3BinSharesOf (bitOf (inDb q db)) r ∧ st' = st1) ∧
      S3Ok u1 0 w1 st1 ∧ w1.n = w.n + db.length ∧
      DotOutcome w1 (G.genSeed (st1 0).prf.pp).2 rngDot (fun i => (st1 i).dotProof) res ∧
      ((∀ i, res i = .ok ()) →
        EverySchedule (fun i => Iris.irisInDb (ops i) (a i) (b i) q.mask (db.map fun c => c.mask) cs) st
          (fun o st' => (∀ i, o i = inDb q db) ∧ ∃ u v w, S3Ok u v w st')) ∧
      ∀ j e, res j = .error e →
        EndsIn (fun i => Iris.irisInDb (ops i) (a i) (b i) q.mask (db.map fun c => c.mask) cs (st i))
          (fun c => c.prog j = .fail .panic ∧ ∀ i a, c.prog i ≠ .ret a) := by
  obtain ⟨st1, size, rd, h1, h2, h3, h4, h5, h6⟩ := query_wpe (H := H) hK h64 hG signed hst hw ha hne hm hb hcs hov hu hn
    rngMul rngAnd rngDot
  exact ⟨st1, _, ⟨w.n + db.length, size⟩, rd, h1.allSchedules, h2, rfl, h4, fun h => (h5 h).allSchedules, h6⟩

/-- A party never gets a wrong answer: at any moment of any schedule, a party that has returned has returned the answer
of the plaintext search. -/
theorem C41_never_wrong (hK : 15 ≤ K) (h64 : K < 64) (hG : G.Lively K) (signed : Bool) (u : Nat) (w : DotCount)
    (st : Party → S3St G K) (hst : S3Ok u 0 w st) (hw : w.size ≤ 12800) (q : IrisCode) (db : List IrisCode) (hne : db ≠ [])
    (hm : ∀ c ∈ db, 8960 ≤ commonBits c q) (a : Party → List (S3Share K)) (ha : Rels S3SharesOf (encode K q.code) a)
    (b : Party → List (List (S3Share K))) (hb : Rels (Rels S3SharesOf) (db.map fun c => encode K c.code) b)
    (cs : Nat) (hcs : cs ≠ 0) (hov : (db.length + cs) * (2 * K) < 2 ^ 64) (hu : u + 1100 * db.length ≤ 2 ^ 44)
    (hn : 51202 * (w.n + db.length) ≤ 2 ^ 44) (rngMul rngAnd rngDot : Party → G.S)
    (n : Nat) (c : Config (Bool × S3St G K))
    (hc : StepsN n (Config.init fun i => Iris.irisInDb
      (Swift3.ops G H K signed (Swift3.verify H i (rngMul i) (rngAnd i) (rngDot i)) i) (a i) (b i) q.mask
      (db.map fun c => c.mask) cs (st i)) c) (i : Party) (o : Bool × S3St G K) (ho : c.prog i = .ret o) : o.1 = inDb q db := by
  obtain ⟨st1, size, rd, h1, h2, h3, h4, h5, h6⟩ := query_wpe (H := H) hK h64 hG signed hst hw ha hne hm hb hcs hov hu hn
    rngMul rngAnd rngDot
  by_cases h : ∀ i, rd i = .ok ()
  · obtain ⟨x, hx, hq⟩ := h5 h
    refine EndsIn.result (P := fun _ o => o.1 = inDb q db) (hx.allSchedules.mono ?_) hc ho
    intro c hcc i o ho
    rw [hcc.1 i] at ho
    cases ho
    exact hq.1 i
  · push Not at h
    obtain ⟨j, hj⟩ := h
    cases hr : rd j with
    | ok a => exact absurd hr hj
    | error e =>
      refine EndsIn.result (P := fun _ o => o.1 = inDb q db) ((h6 j e hr).mono ?_) hc ho
      intro c hcc i o ho
      exact absurd ho (hcc.2 i o)

/-- Over rings of 64 bits or more every query panics at every party. -/
theorem C41_query_wide (h64 : 64 ≤ K) (hG : G.Lively K) (signed : Bool) (u : Nat) (w : DotCount)
    (st : Party → S3St G K) (hst : S3Ok u 0 w st) (hw : w.size ≤ 12800) (q : IrisCode) (db : List IrisCode) (hne : db ≠ [])
    (hm : ∀ c ∈ db, 8960 ≤ commonBits c q) (a : Party → List (S3Share K)) (ha : Rels S3SharesOf (encode K q.code) a)
    (b : Party → List (List (S3Share K))) (hb : Rels (Rels S3SharesOf) (db.map fun c => encode K c.code) b)
    (cs : Nat) (hcs : cs ≠ 0) (hov : (db.length + cs) * (2 * K) < 2 ^ 64)
    (hu : u + (K * (2 + 2 * ceilLog2 K) + 128) * db.length ≤ 2 ^ 44)
    (hn : 51202 * (w.n + db.length) ≤ 2 ^ 44) (rngMul rngAnd rngDot : Party → G.S) :
    EveryScheduleFails (fun i => Iris.irisInDb
      (Swift3.ops G H K signed (Swift3.verify H i (rngMul i) (rngAnd i) (rngDot i)) i) (a i) (b i) q.mask
      (db.map fun c => c.mask) cs) st .panic := by
  refine (query_wide h64 hG signed hst hw ha hne hm hb hcs hov ?_ hn rngMul rngAnd rngDot).every
  have hlen : db.length ≠ 0 := by simpa using hne
  unfold queryBits orCost
  have : (K * (2 + 2 * ceilLog2 K) + 128) * db.length = K * (2 + 2 * ceilLog2 K) * db.length + 128 * db.length := by ring
  omega

/-! ## Non-vacuity, and an honest run that is rejected -/

/-- A generator that repeats itself: `-(s + 1)` in state `s`. -/
def stuckPrg : Prg where
  S := Fin 1024
  ofSeed _ := 55
  gen K s := (BitVec.ofInt K (-(s.val + 1)), s)
  genSeed s := (List.replicate 32 0, s)
  genRange _ s := (0, s)
  genRange_lt _ _ h := h
  genSeed_length _ := rfl

theorem stuckPrg_random (K d : Nat) (s : stuckPrg.S) :
    Poly.random (G := stuckPrg) K d s = (⟨List.replicate (d + 1) (stuckPrg.gen K s).1⟩, s) := by
  have key : ∀ (l : List Nat) (acc : List (BitVec K)), l.foldl (fun (acc : List (BitVec K) × stuckPrg.S) _ =>
      let x := stuckPrg.gen K acc.2
      (acc.1 ++ [x.1], x.2)) (acc, s) = (acc ++ List.replicate l.length (stuckPrg.gen K s).1, s) := by
    intro l
    induction l with
    | nil => intro acc; simp
    | cons x l ih =>
      intro acc
      rw [List.foldl_cons]
      show l.foldl _ (acc ++ [(stuckPrg.gen K s).1], s) = _
      rw [ih, List.append_assoc, List.length_cons, List.replicate_succ, List.singleton_append]
  unfold Poly.random
  have := key (List.range (d + 1)) []
  rw [List.nil_append, List.length_range] at this
  simp only [this]

/-- It is lively for 16-bit rings. -/
theorem stuckPrg_lively : stuckPrg.Lively 16 := by
  refine ⟨fun s => ⟨0, ?_⟩, fun d s => ⟨0, ?_⟩⟩
  · have : ∀ s : Fin 1024, decide ((stuckPrg.gen 64 s).1.toNat ≤ 2 ^ 23) = false := by decide +kernel
    exact this s
  · have : ∀ s : Fin 1024, (some (stuckPrg.gen 16 s).1 == some 0) = false := by decide +kernel
    rw [Function.iterate_zero, id, stuckPrg_random, mulBad, List.replicate_succ]
    exact this s

/-- Party 0 has multiplied `1 · 1`, the others `0 · 0`. -/
def exMulSt (i : Party) : S3St stuckPrg 16 :=
  let g : ZInput (BitVec 16) := ⟨1, 0, 1, 0, 0, 1⟩
  let o : ZInput (BitVec 16) := ⟨0, 0, 0, 0, 0, 0⟩
  { (Swift3.new (S3Prf.new [] [] []) : S3St stuckPrg 16) with
    prf := setupPrf exSeed (fun i => exSeed i.next) (fun i => exSeed i.prev) i
    mulProof := match i with
      | 0 => ⟨0, 0, [g], [o], [o]⟩
      | 1 => ⟨0, 0, [o], [g], [o]⟩
      | 2 => ⟨0, 0, [o], [o], [o]⟩ }

theorem exMulSt_ok : S3Ok 0 1 ⟨0, 0⟩ exMulSt := by
  have h0 : S3Ok 0 0 ⟨0, 0⟩ (fun i => { (Swift3.new (S3Prf.new [] [] []) : S3St stuckPrg 16) with
    prf := setupPrf exSeed (fun i => exSeed i.next) (fun i => exSeed i.prev) i }) := setup_ok (fun _ => rfl)
  refine ⟨h0.prf, h0.queues, h0.ands, fun i => ?_, h0.dots, h0.sizes⟩
  fin_cases i
  · exact ⟨constPrg_gate, rfl⟩
  · exact ⟨⟨[(⟨0, 0, 0, 0, 0, 0⟩, ⟨0, 0, 0, 0, 0, 0⟩, ⟨0, 0, 0, 0, 0, 0⟩)], by simp [MulGateOk], rfl, rfl, rfl⟩, rfl⟩
  · exact ⟨⟨[(⟨0, 0, 0, 0, 0, 0⟩, ⟨0, 0, 0, 0, 0, 0⟩, ⟨0, 0, 0, 0, 0, 0⟩)], by simp [MulGateOk], rfl, rfl, rfl⟩, rfl⟩

/-- The hypotheses of `C41_verify` and `C41_outcome` hold for a run with one multiplication. -/
example : stuckPrg.Lively 16 ∧ S3Ok 0 1 ⟨0, 0⟩ exMulSt ∧ 1 ≤ 2 ^ 44 ∧ (exMulSt 0).mulProof.proof ≠ [] :=
  ⟨stuckPrg_lively, exMulSt_ok, by norm_num, by simp [exMulSt]⟩

/-- ... and fresh parties can verify and query. -/
def exFreshSt (K : Nat) (i : Party) : S3St stuckPrg K :=
  { (Swift3.new (S3Prf.new [] [] []) : S3St stuckPrg K) with
    prf := setupPrf exSeed (fun i => exSeed i.next) (fun i => exSeed i.prev) i }

theorem exFreshSt_ok (K : Nat) : S3Ok 0 0 ⟨0, 0⟩ (exFreshSt K) := setup_ok (fun _ => rfl)

/-- The hypotheses of `C41_query` and `C41_never_wrong` hold for a query against three enrolled codes. -/
example (c : IrisCodeArray) : let e : IrisCode := ⟨c, IrisCodeArray.ones⟩
    stuckPrg.Lively 16 ∧ S3Ok 0 0 ⟨0, 0⟩ (exFreshSt 16) ∧ [e, e, e] ≠ [] ∧ (∀ d ∈ [e, e, e], 8960 ≤ commonBits d e) ∧
    Rels S3SharesOf (encode 16 e.code) (fun i => (encode 16 e.code).map (exS3Share · i)) ∧
    Rels (Rels S3SharesOf) ([e, e, e].map fun c => encode 16 c.code)
      (fun i => [e, e, e].map fun c => (encode 16 c.code).map (exS3Share · i)) ∧
    ([e, e, e].length + 128) * (2 * 16) < 2 ^ 64 ∧ 0 + 1100 * [e, e, e].length ≤ 2 ^ 44 ∧
    51202 * (0 + [e, e, e].length) ≤ 2 ^ 44 := by
  refine ⟨stuckPrg_lively, exFreshSt_ok 16, by simp, fun d hd => ?_, exS3Shares_ok _, ?_, by simp, by simp, by simp⟩
  · have : d = ⟨c, IrisCodeArray.ones⟩ := by simpa using hd
    rw [this, fullMask_common]; omega
  · exact Rels.cons (exS3Shares_ok _) (Rels.cons (exS3Shares_ok _) (Rels.cons (exS3Shares_ok _) Rels.nil))

end Verif
