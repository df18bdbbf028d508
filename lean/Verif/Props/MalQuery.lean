import Verif.Proof.PairErase
import Verif.Props.MalRuns
import Verif.Props.Iris

namespace Verif

open Jmp

variable {G : Prg} {H : Hash} {K : Nat}

/-- The list of calls is bookkeeping: without it, the query with the list is the query of the backend. -/
theorem C74_log_is_passive (sg : Bool) (me : Party) (a : List (AShare K)) (b : List (List (AShare K))) (mask : IrisCodeArray)
    (masks : List IrisCodeArray) (cs : Nat) (s : JmpSt G) (calls : List (MalAby3.Call G K)) :
    (Iris.irisInDb (MalAby3.logOps G H K sg me) a b mask masks cs (s, calls) >>= fun o => Prog.ret (o.1, o.2.1)) =
      Iris.irisInDb (MalAby3.ops G H K sg me) a b mask masks cs s :=
  (MalAby3.Erases.irisInDb a b mask masks cs).erase s calls

/-- The calls in the list account for every message received: in their order they are the messages of the query. -/
theorem C74_log_complete (sg : Bool) (me : Party) (a : List (AShare K)) (b : List (List (AShare K))) (mask : IrisCodeArray)
    (masks : List IrisCodeArray) (cs : Nat) (s s' : JmpSt G) (calls : List (MalAby3.Call G K)) (rcvd sent : Party → List Bytes)
    (r : Bool)
    (h : Local (Iris.irisInDb (MalAby3.logOps G H K sg me) a b mask masks cs (s, [])) rcvd sent (.ret (r, s', calls)))
    (d : Party) : rcvd d = calls.flatMap fun c => c.rcvd d := by
  obtain ⟨new, e, h⟩ := (MalAby3.Erases.irisInDb a b mask masks cs).account h
  rw [show calls = new by simpa using e]
  exact h d

/-- A query over the malicious ABY3 backend with any corrupt party: honest parties that finish both output whether the
database contains a match, unless the corrupt party has forged one of the calls of the query: found two strings with the
same digest, named by that call, or errors that the coin of that call does not reveal. -/
theorem C74_run_query (hK : 15 ≤ K) (hK2 : K ≤ 128) (hV : 40 ≤ verifWidth K - K) (sg : Bool) (i : Party)
    (st : Party → JmpSt G) (hP : PrfOk fun k => (st k).prf)
    (hq : (st i).rcvQueueNext.length = (st i.next).sendQueuePrev.length)
    (q : IrisCode) (db : List IrisCode) (hne : db ≠ []) (hm : ∀ c ∈ db, 8960 ≤ commonBits c q)
    (a : Party → List (AShare K)) (b : Party → List (List (AShare K)))
    (ha : Rels SharesOf (encode _ q.code) a) (hb : Rels (Rels SharesOf) (db.map fun c => encode _ c.code) b)
    (cs : Nat) (hcs : cs ≠ 0) (hcs' : cs * 128 < 2 ^ 64) (hov : (db.length + cs) * (2 * K) < 2 ^ 64)
    (rcvd sent : Party → Party → List Bytes) (out : Party → Bool × JmpSt G)
    (hv : HonestViews (fun k => Iris.irisInDb (MalAby3.ops G H K sg k) (a k) (b k) q.mask (db.map fun c => c.mask) cs (st k))
      i.prev rcvd sent out) :
    ∃ calls : Party → List (MalAby3.Call G K),
      HonestViews (fun k => Iris.irisInDb (MalAby3.logOps G H K sg k) (a k) (b k) q.mask (db.map fun c => c.mask) cs
        (st k, [])) i.prev rcvd sent (fun k => ((out k).1, (out k).2, calls k)) ∧
      (MalAby3.SomeForged H i (calls i) (calls i.next) ∨ (out i).1 = inDb q db ∧ (out i.next).1 = inDb q db) := by
  have hrun : ∀ k, k ≠ i.prev → ∃ cl, Local (Iris.irisInDb (MalAby3.logOps G H K sg k) (a k) (b k) q.mask
      (db.map fun c => c.mask) cs (st k, [])) (rcvd k) (sent k) (.ret ((out k).1, (out k).2, cl)) := by
    intro k hk
    have h := hv.run k hk
    rw [← C74_log_is_passive sg k (a k) (b k) q.mask (db.map fun c => c.mask) cs (st k) []] at h
    obtain ⟨⟨o, s, cl⟩, r1, s1, r2, s2, h1, h2, er, es⟩ := Local.bind_ret h
    obtain ⟨rfl, rfl, e⟩ := Local.ret_inv h2
    have e' : out k = (o, s) := by injection e
    refine ⟨cl, ?_⟩
    rw [e', er, es]
    simpa using h1
  have n2 := Party.prev_ne i
  have n3 := Party.next_ne_prev i
  obtain ⟨c1, h1⟩ := hrun i n2.symm
  obtain ⟨c2, h2⟩ := hrun i.next n3
  have e1 : i.next ≠ i := Party.next_ne i
  have hv' : HonestViews (fun k => Iris.irisInDb (MalAby3.logOps G H K sg k) (a k) (b k) q.mask (db.map fun c => c.mask) cs
        (st k, [])) i.prev rcvd sent (fun k => ((out k).1, (out k).2, if k = i then c1 else c2)) := by
    refine ⟨fun k hk => ?_, hv.chan⟩
    rcases (by decide : ∀ i l : Party, l ≠ i.prev → l = i ∨ l = i.next) i k hk with rfl | rfl
    · simpa using h1
    · simpa [e1] using h2
  refine ⟨fun k => if k = i then c1 else c2, hv', ?_⟩
  have hI : MalAby3.InvL H i True (fun k => ((st k, []) : MalAby3.LogSt G K)) := ⟨hP, hq, rfl, fun _ => trivial⟩
  rcases (MalAby3.irisInDb_pws (sg := sg) hK hK2 hV hne hm ha hb hcs hcs' hov hI).views hv' with h | ⟨o, o1, o2, h⟩
  · exact h.elim
  · beta_reduce at o1 o2 h
    rw [o1, o2] at h
    exact h

/-- If the coin has no influence on the errors, at most `2^(K-1)` of its `2^V` values do not reveal them. -/
theorem C74_unnoticed_rare {V : Nat} (hKV : K ≤ V) (n : Nat) (es : List (BitVec V)) :
    ∃ bad : Finset Nat, bad.card ≤ 2 ^ (K - 1) ∧ ∀ r : BitVec V, r.toNat ∉ bad → ¬ MalAby3.Unnoticed K n r es := by
  classical
  by_cases h : ∃ e ∈ es.take n, e.setWidth K ≠ 0
  · refine ⟨_, card_solutions_many hKV (es.take n) (es.drop n) h, fun r hr hu => hr ?_⟩
    rw [Finset.mem_filter, Finset.mem_range, BitVec.ofNat_toNat, BitVec.setWidth_eq]
    exact ⟨r.isLt, hu.2⟩
  · exact ⟨∅, by simp, fun r _ hu => h hu.1⟩

/-! ## The hypotheses can be met -/

/-- All hypotheses of `C74_run_query` about the execution hold of an honest one. -/
theorem mal_query_hyps (hK : 15 ≤ K) (hV : 40 ≤ verifWidth K - K) (sg : Bool) (i : Party) {st : Party → JmpSt G} (hst : JmpOk st)
    {q : IrisCode} {db : List IrisCode} (hne : db ≠ []) (hm : ∀ c ∈ db, 8960 ≤ commonBits c q)
    {a : Party → List (AShare K)} {b : Party → List (List (AShare K))}
    (ha : Rels SharesOf (encode _ q.code) a) (hb : Rels (Rels SharesOf) (db.map fun c => encode _ c.code) b)
    {cs : Nat} (hcs : cs ≠ 0) (hcs' : cs * 128 < 2 ^ 64) (hov : (db.length + cs) * (2 * K) < 2 ^ 64) :
    (PrfOk fun k => (st k).prf) ∧ (st i).rcvQueueNext.length = (st i.next).sendQueuePrev.length ∧
    ∃ (rcvd sent : Party → Party → List Bytes) (out : Party → Bool × JmpSt G),
      HonestViews (fun k => Iris.irisInDb (MalAby3.ops G H K sg k) (a k) (b k) q.mask (db.map fun c => c.mask) cs (st k))
        i.prev rcvd sent out := by
  obtain ⟨r, s, o, hl, hp1, hv⟩ := honest_views
    ((MalAby3.mpcLawful G H hV (by omega) sg).irisInDb_wp hK le_rfl ha hne hm hb hcs hcs' hov trivial hst)
  exact ⟨hst.1, by rw [hst.2 i], r, s, o, hv _⟩

example (c : IrisCodeArray) (e : IrisCode) (he : e = ⟨c, IrisCodeArray.ones⟩) :
    15 ≤ 16 ∧ 40 ≤ verifWidth 16 - 16 ∧ [e, e, e] ≠ [] ∧ (∀ d ∈ [e, e, e], 8960 ≤ commonBits d e) ∧
    (Rels SharesOf (encode 16 e.code) fun k => (encode 16 e.code).map (exShare · k)) ∧
    (Rels (Rels SharesOf) ([e, e, e].map fun c => encode 16 c.code) fun k =>
      [(encode 16 e.code).map (exShare · k), (encode 16 e.code).map (exShare · k), (encode 16 e.code).map (exShare · k)]) ∧
    128 * 128 < 2 ^ 64 ∧ ([e, e, e].length + 128) * (2 * 16) < 2 ^ 64 ∧ JmpOk exJmpSt := by
  refine ⟨by omega, by decide, by simp, fun d hd => ?_, exShares_ok _, ?_, by norm_num, by simp, exJmpSt_ok⟩
  · have : d = e := by simpa using hd
    rw [this, he, fullMask_common]; omega
  · exact Rels.cons (b := fun k => (encode 16 e.code).map (exShare · k)) (exShares_ok _)
      (Rels.cons (b := fun k => (encode 16 e.code).map (exShare · k)) (exShares_ok _)
        (Rels.cons (b := fun k => (encode 16 e.code).map (exShare · k)) (exShares_ok _) Rels.nil))

/-- `Unnoticed` holds of some errors and coins and not of others. -/
example : MalAby3.Unnoticed 16 2 (5#64) [1, 0, 5, 0] ∧ ¬ MalAby3.Unnoticed 16 2 (6#64) [1, 0, 5, 0] ∧
    ¬ MalAby3.Unnoticed 16 2 (5#64) [65536, 0, 327680, 0] := by
  refine ⟨⟨⟨1, by simp, by decide⟩, by decide⟩, fun h => absurd h.2 (by decide), fun h => ?_⟩
  obtain ⟨e, he, hz⟩ := h.1
  have : e = 65536#64 ∨ e = 0#64 := by simpa using he
  rcases this with rfl | rfl <;> exact hz (by decide)

end Verif
