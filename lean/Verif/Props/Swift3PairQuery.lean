import Verif.Props.Swift3PairVerify
import Verif.Props.SpdzQuery
import Verif.Proof.Swift3PairQuery
import Verif.Proof.Swift3Finish

/-!
# C81: Swift3 queries with a corrupt party

The corrupt party is `i.prev`; nothing is assumed about it.
-/

namespace Verif

open Swift3

variable {G : Prg} {H : Hash} {K : Nat}

theorem HonestViews.unwrap_bind {σ α β : Type} {p : Party → Proto σ α} {k : Party → α → Proto σ β} {st : Party → σ} {c : Party}
    {r s : Party → Party → List Bytes} {out : Party → β × σ}
    (h : HonestViews (fun l => (Proto.unwrap (p l) >>= k l) (st l)) c r s out) :
    HonestViews (fun l => (p l >>= k l) (st l)) c r s out :=
  ⟨fun l hl => Local.unwrap_bind (h.run l hl), h.chan⟩

/-- A database query over Swift3 with any corrupt party, in three parts: everything up to the verification (`mid`: shares of
the answer and states of the honest parties after it), the verification (`ver`: states after it), the opening. If both
honest parties finish, then all proofs of the corrupt party have passed, and they output the answer of the plaintext search,
unless one of the gates of the corrupt party that they have registered is wrong (although its proof has passed: how
seldom this happens is the subject of `C79_and_caught`, `C79_mul_caught` and `C79_dot_caught`), or one of four named pairs of strings hashed by the honest parties is a
collision. -/
theorem C81_query (hK : 15 ≤ K) (hK2 : K ≤ 128) (sg : Bool) (i : Party) (rg : Party → VerifyRngs G) (st : Party → S3St G K)
    (hI : PairOk (st i) (st i.next)) (q : IrisCode) (db : List IrisCode) (hne : db ≠ [])
    (hm : ∀ c ∈ db, 8960 ≤ commonBits c q) (a : Party → List (S3Share K)) (b : Party → List (List (S3Share K)))
    (ha : Rels S3SharesOf (encode _ q.code) a) (hb : Rels (Rels S3SharesOf) (db.map fun c => encode _ c.code) b)
    (cs : Nat) (hcs : cs ≠ 0) (hov : (db.length + cs) * (2 * K) < 2 ^ 64)
    (ops : Party → MpcOps (S3St G K) (S3Share K) (S3Share 1) K)
    (hops : ops = fun k => Swift3.ops G H K sg (verify H k (rg k).mul (rg k).and (rg k).dot) k)
    (rcvd sent : Party → Party → List Bytes) (out : Party → Bool × S3St G K)
    (hv : HonestViews (fun k => Iris.irisInDb (ops k) (a k) (b k) q.mask (db.map fun c => c.mask) cs (st k))
      i.prev rcvd sent out) :
    ∃ (r1 s1 r2 s2 r3 s3 : Party → Party → List Bytes) (mid : Party → S3Share 1 × S3St G K) (ver : Party → Unit × S3St G K),
      HonestViews (fun k => Iris.queryBody (ops k) (a k) (b k) q.mask (db.map fun c => c.mask) cs (st k)) i.prev r1 s1 mid ∧
      HonestViews (fun k => verify H k (rg k).mul (rg k).and (rg k).dot (mid k).2) i.prev r2 s2 ver ∧
      HonestViews (fun k => openBit H k (mid k).1 (ver k).2) i.prev r3 s3 out ∧
      (∀ k, k ≠ i.prev → rcvd k = fun d => r1 k d ++ (r2 k d ++ r3 k d)) ∧
      PairOk (mid i).2 (mid i.next).2 ∧
      AllPassed H i (mid i).2 (mid i.next).2 (rg i) (rg i.next) (r2 i i.prev) (r2 i.next i.prev) ∧
      (WrongGate (mid i).2 (mid i.next).2 ∨ QueueCollision H (mid i).2 (mid i.next).2 ∨
        OpenCollision H (r3 i i.prev) (r3 i.next i.prev) (toBytes (mid i.next).1.a) (toBytes (mid i).1.b) ∨
        (out i).1 = inDb q db ∧ (out i.next).1 = inDb q db) := by
  subst hops
  have hbne : ∀ k, b k ≠ [] := fun k h => by
    have := hb.length k
    rw [h] at this
    exact hne (by simpa using this.symm)
  have hprog := fun k => MpcLawful.irisInDb_eq (Swift3.ops G H K sg (verify H k (rg k).mul (rg k).and (rg k).dot) k) (a k) (hbne k)
    q.mask (db.map fun c => c.mask) (by rw [hb.length, List.length_map, List.length_map]) cs
  have hbody := queryBody_pws (H := H) (i := i) hK hK2 (sg := sg) (verify := fun k => verify H k (rg k).mul (rg k).and (rg k).dot)
    hne hm ha hb hcs hov hI
  obtain ⟨r1, s1, r0, s0, mid, v1, v0, er1, hok, hclean⟩ := PWS.split hbody (hv.congr fun k _ => by rw [hprog k])
  replace v0 := HonestViews.unwrap_bind (p := fun k => verify H k (rg k).mul (rg k).and (rg k).dot)
    (k := fun k _ => openBit H k (mid k).1) (st := fun k => (mid k).2) v0
  have hver : PWS i (fun k => verify H k (rg k).mul (rg k).and (rg k).dot) (fun k => (mid k).2) (fun _ => False)
      (fun _ _ _ => True) :=
    PW.of_p2 ((verify_p2 (H := H) (by omega) i (rg i) (rg i.next) hok).mono fun _ _ a b _ =>
        ⟨fun k => if k = i then a else b, by simp, by simp [Party.next_ne], trivial⟩)
  obtain ⟨r2, s2, r3, s3, ver, v2, v3, er2, -⟩ := PWS.split hver v0
  obtain ⟨hall, -, hq1, hq2⟩ := C79_verify (H := H) (by omega) i rg (fun k => (mid k).2) hok r2 s2 ver v2
  refine ⟨r1, s1, r2, s2, r3, s3, mid, ver, v1, v2, v3, ?_, hok, hall, ?_⟩
  · intro k hk
    rw [er1 k hk]
    simp only [er2 k hk]
  by_cases hw : WrongGate (mid i).2 (mid i.next).2
  · exact .inl hw
  right
  obtain ⟨p1, p2, u, v, -, -, -, -⟩ := (openWith_p2 (H := H) i (st := fun k => (ver k).2) (s := fun k => (mid k).1)
    (fun k r => bitVal ((mid k).1.c ^^^ (mid k).1.a ^^^ (mid k).1.b ^^^ r))).views v3
  have hcol : QueueCollision H (ver i).2 (ver i.next).2 → QueueCollision H (mid i).2 (mid i.next).2 := by
    unfold QueueCollision
    rw [hq1.1, hq1.3, hq2.2, hq2.4]
    exact id
  have hagr : Agree (ver i).2 (ver i.next).2 → Agree (mid i).2 (mid i.next).2 := by
    unfold Agree
    rw [hq1.1, hq1.3, hq2.2, hq2.4]
    exact id
  rcases queues_or p1 p2 with h | hq
  · exact .inl (hcol h)
  obtain ⟨-, hx⟩ := hclean ⟨hagr hq, hw⟩
  have hbit : ∀ b : Bool, bitVal (bitOf b) = b := by decide
  rcases C77_open_bit i _ (fun k => (mid k).1) hx (fun k => (ver k).2) r3 s3 out v3 with h | h | ⟨-, h, h'⟩
  · exact .inl (hcol h)
  · exact .inr (.inl h)
  · rw [hbit] at h h'
    exact .inr (.inr ⟨h, h'⟩)

/-- The acceptance of all checks that `C41_query` asks for is possible: with the generator `zeroPrg` (proof seeds are
expanded to zeros) queries of honest parties against at most 100 enrolled codes finish, and everybody gets the answer, under
every schedule. -/
theorem C41_query_accepted (hK : 15 ≤ K) (h64 : K < 64) (sg : Bool) (st : Party → S3St zeroPrg K) (hst : S3Ok 0 0 ⟨0, 0⟩ st)
    (q : IrisCode) (db : List IrisCode) (hne : db ≠ []) (hlen : db.length ≤ 100) (hm : ∀ c ∈ db, 8960 ≤ commonBits c q)
    (a : Party → List (S3Share K)) (ha : Rels S3SharesOf (encode K q.code) a)
    (b : Party → List (List (S3Share K))) (hb : Rels (Rels S3SharesOf) (db.map fun c => encode K c.code) b)
    (cs : Nat) (hcs : cs ≠ 0) (hov : (db.length + cs) * (2 * K) < 2 ^ 64) (r1 r2 : Party → zeroPrg.S) (n : Party → Nat) :
    EverySchedule (fun i => Iris.irisInDb
      (Swift3.ops zeroPrg H K sg (Swift3.verify H i (r1 i) (r2 i) ((n i, false) : Nat × Bool)) i)
      (a i) (b i) q.mask (db.map fun c => c.mask) cs) st (fun o _ => ∀ i, o i = inDb q db) :=
  ((query_finishes hK h64 sg hst hne hlen hm ha hb hcs hov r1 r2 n).mono fun _ _ h => h.1).allSchedules

/-- Fresh parties. -/
def exZeroSt (K : Nat) (i : Party) : S3St zeroPrg K :=
  { (Swift3.new (S3Prf.new [] [] []) : S3St zeroPrg K) with
    prf := setupPrf exSeed (fun i => exSeed i.next) (fun i => exSeed i.prev) i }

theorem exZeroSt_ok (K : Nat) : S3Ok 0 0 ⟨0, 0⟩ (exZeroSt K) := setup_ok (fun _ => rfl)

/-- A finished run of a query against three enrolled codes meets the hypotheses of `C81_query` (and of
`C41_query_accepted`). -/
example (i : Party) (c : IrisCodeArray) : let e : IrisCode := ⟨c, IrisCodeArray.ones⟩
    let a : Party → List (S3Share 16) := fun i => (encode 16 e.code).map (exS3Share · i)
    let b : Party → List (List (S3Share 16)) := fun i => [e, e, e].map fun c => (encode 16 c.code).map (exS3Share · i)
    let rg : VerifyRngs zeroPrg := ⟨(0, false), (0, false), (0, false)⟩
    PairOk (exZeroSt 16 i) (exZeroSt 16 i.next) ∧ (∀ d ∈ [e, e, e], 8960 ≤ commonBits d e) ∧
    Rels S3SharesOf (encode 16 e.code) a ∧ Rels (Rels S3SharesOf) ([e, e, e].map fun c => encode 16 c.code) b ∧
    ([e, e, e].length + 128) * (2 * 16) < 2 ^ 64 ∧
    ∃ rcvd sent out, HonestViews (fun k => Iris.irisInDb (Swift3.ops zeroPrg exHash 16 false
      (verify exHash k rg.mul rg.and rg.dot) k) (a k) (b k) e.mask ([e, e, e].map fun c => c.mask) 128 (exZeroSt 16 k))
      i.prev rcvd sent out := by
  intro e a b rg
  have hm : ∀ d ∈ [e, e, e], 8960 ≤ commonBits d e := fun d hd => by
    have : d = ⟨c, IrisCodeArray.ones⟩ := by simpa using hd
    rw [this, fullMask_common]; omega
  have ha : Rels S3SharesOf (encode 16 e.code) a := exS3Shares_ok _
  have hb : Rels (Rels S3SharesOf) ([e, e, e].map fun c => encode 16 c.code) b :=
    Rels.cons (exS3Shares_ok _) (Rels.cons (exS3Shares_ok _) (Rels.cons (exS3Shares_ok _) Rels.nil))
  refine ⟨((exZeroSt_ok 16).pair i).1, hm, ha, hb, by simp, ?_⟩
  obtain ⟨r, s, o, -, -, h⟩ := honest_views (query_finishes (H := exHash) (by norm_num) (by norm_num) false (exZeroSt_ok 16)
    (by simp) (by simp) hm ha hb (cs := 128) (by norm_num) (by simp) (fun _ => (0, false)) (fun _ => (0, false)) (fun _ => 0))
  exact ⟨r, s, o, h i.prev⟩

end Verif
