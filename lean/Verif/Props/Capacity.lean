import Verif.Props.Schedule
import Verif.Props.MalAby3
import Verif.Props.SpdzIris
import Verif.Props.Swift3Verify

/-! # C69: channels of limited capacity (back pressure)

`EverySchedule`, in which the results about complete runs are stated, covers unlimited channels and all capacities from two
messages on. Here: the general facts, the four queries in explicit form, and that capacity 1 does not suffice. -/

namespace Verif

open Jmp

attribute [local irreducible] hammingDistance commonBits encode

variable {α : Type} {G : Prg} {H : Hash} {K : Nat}

/-- For all programs and all capacities: there is one final state, possibly a deadlock, in which every execution ends. -/
theorem C69_schedule_independent (cap : Party → Party → Nat) (p : Party → Prog α) :
    ∃ (N : Nat) (t : Config α), (∀ i c', ¬ BStep cap i t c') ∧ (∀ n c, BStepsN cap n (Config.init p) c → n ≤ N) ∧
      ∀ n c, BStepsN cap n (Config.init p) c → (∀ i c', ¬ BStep cap i c c') → c = t ∧ n = N := by
  obtain ⟨t0, -, ⟨N0, hN0⟩, -⟩ := C01_schedule_independent p
  have ex : ∀ (m n : Nat) (c : Config α), BStepsN cap n (Config.init p) c → N0 - n = m →
      ∃ n' t, BStepsN cap n' (Config.init p) t ∧ ∀ i c', ¬ BStep cap i t c' := by
    intro m
    induction m with
    | zero =>
      intro n c hc hm
      refine ⟨n, c, hc, fun i c' hs => ?_⟩
      have := hN0 _ _ (hc.trans (.succ i hs (.zero _))).toSteps
      omega
    | succ m ih =>
      intro n c hc hm
      by_cases h : ∃ i c', BStep cap i c c'
      · obtain ⟨i, c', hs⟩ := h
        exact ih (n + 1) c' (hc.trans (.succ i hs (.zero _))) (by omega)
      · push Not at h
        exact ⟨n, c, hc, h⟩
  obtain ⟨n, t, hn, ht⟩ := ex _ 0 _ (.zero _) rfl
  refine ⟨n, t, ht, fun k c hk => ?_, fun k c hk hc => ?_⟩
  · obtain ⟨m, rfl, -⟩ := hn.confluent ht hk; omega
  · obtain ⟨m, rfl, hm⟩ := hn.confluent ht hk
    cases hm with
    | zero => exact ⟨rfl, rfl⟩
    | succ i hs _ => exact absurd hs (hc _ _)

/-- For all programs: if one execution completes with the capacities `cap`, then with these and all larger capacities
every execution completes, with the same results. -/
theorem C69_more_room (cap cap' : Party → Party → Nat) (hc : ∀ s d, cap s d ≤ cap' s d) (p : Party → Prog α) (r : Party → α)
    (n : Nat) (h : BStepsN cap n (Config.init p) ⟨fun i => .ret (r i), fun _ _ => []⟩) :
    AllSchedulesWithin cap' p r ∧ AllSchedules p r :=
  ⟨BStepsN.allSchedulesWithin (n := n) (h.mono hc), C01_one_run_suffices p r n h.toSteps⟩

/-- The query over ABY3. -/
theorem C69_aby3_query (hK : 15 ≤ K) (signed : Bool) (q : IrisCode) (db : List IrisCode) (hne : db ≠ [])
    (hm : ∀ c ∈ db, 8960 ≤ commonBits c q) (a : Party → List (AShare K)) (b : Party → List (List (AShare K)))
    (ha : Rels SharesOf (encode K q.code) a) (hb : Rels (Rels SharesOf) (db.map fun c => encode K c.code) b)
    (cs : Nat) (hcs : cs ≠ 0) (hov : (db.length + cs) * (2 * K) < 2 ^ 64) (st : Party → Aby3St G)
    (hst : Aby3Ready st) :
    ∃ st' : Party → Aby3St G, ∀ cap : Party → Party → Nat, (∀ s d, 2 ≤ cap s d) → AllSchedulesWithin cap
      (fun i => Iris.irisInDb (Aby3.ops G K signed i) (a i) (b i) q.mask (db.map fun c => c.mask) cs (st i))
      (fun i => (inDb q db, st' i)) := by
  obtain ⟨r, st', h, hr, -⟩ := C14_iris_in_db hK signed q db hne hm a b ha hb cs hcs hov st hst
  obtain rfl : r = fun _ => inDb q db := funext hr
  exact ⟨st', h.2⟩

/-- The query over malicious ABY3. -/
theorem C69_mal_query (hK : 15 ≤ K) (hV : 40 ≤ verifWidth K - K) (signed : Bool) (q : IrisCode) (db : List IrisCode)
    (hne : db ≠ []) (hm : ∀ c ∈ db, 8960 ≤ commonBits c q) (a : Party → List (AShare K))
    (b : Party → List (List (AShare K))) (ha : Rels SharesOf (encode K q.code) a)
    (hb : Rels (Rels SharesOf) (db.map fun c => encode K c.code) b)
    (cs : Nat) (hcs : cs ≠ 0) (hcs' : cs * 128 < 2 ^ 64) (hov : (db.length + cs) * (2 * K) < 2 ^ 64)
    (st : Party → JmpSt G) (hst : JmpOk st) :
    ∃ st' : Party → JmpSt G, ∀ cap : Party → Party → Nat, (∀ s d, 2 ≤ cap s d) → AllSchedulesWithin cap
      (fun i => Iris.irisInDb (MalAby3.ops G H K signed i) (a i) (b i) q.mask (db.map fun c => c.mask) cs (st i))
      (fun i => (inDb q db, st' i)) := by
  obtain ⟨r, st', h, hr, -⟩ := C36_iris_in_db (H := H) hK hV signed q db hne hm a b ha hb cs hcs hcs' hov st hst
  obtain rfl : r = fun _ => inDb q db := funext hr
  exact ⟨st', h.2⟩

/-- The query over SPDZ-wise, if the triples suffice. -/
theorem C69_spdz_query (hK : 15 ≤ K) (hK2 : K ≤ 128) (signed : Bool) (q : IrisCode) (db : List IrisCode) (hne : db ≠ [])
    (hm : ∀ c ∈ db, 8960 ≤ commonBits c q) (key : BitVec (verifWidth K)) (a : Party → List (SShare (verifWidth K)))
    (b : Party → List (List (SShare (verifWidth K)))) (ha : Rels (MacSharesOf key) (encode (verifWidth K) q.code) a)
    (hb : Rels (Rels (MacSharesOf key)) (db.map fun c => encode (verifWidth K) c.code) b)
    (cs : Nat) (hcs : cs ≠ 0) (hov : (db.length + cs) * (2 * K) < 2 ^ 64) (p : Nat)
    (st : Party → SpdzSt G (verifWidth K)) (hst : SpdzOk key p 0 st) (hp : EnoughTriples K db.length cs p) :
    ∃ st' : Party → SpdzSt G (verifWidth K), ∀ cap : Party → Party → Nat, (∀ s d, 2 ≤ cap s d) → AllSchedulesWithin cap
      (fun i => Iris.irisInDb (Spdz.ops G H K signed i) (a i) (b i) q.mask (db.map fun c => c.mask) cs (st i))
      (fun i => (inDb q db, st' i)) := by
  obtain ⟨r, st', h, hr, -⟩ := (C29_exact (H := H) hK hK2 signed q db hne hm key a b ha hb cs hcs hov p st hst).1 hp
  obtain rfl : r = fun _ => inDb q db := funext hr
  exact ⟨st', h.2⟩

/-- The query over Swift3 up to its check, and the whole of it if the check accepts (`res` as in C41_query). -/
theorem C69_swift3_query (hK : 15 ≤ K) (h64 : K < 64) (hG : G.Lively K) (signed : Bool) (u : Nat) (w : DotCount)
    (st : Party → S3St G K) (hst : S3Ok u 0 w st) (hw : w.size ≤ 12800) (q : IrisCode) (db : List IrisCode) (hne : db ≠ [])
    (hm : ∀ c ∈ db, 8960 ≤ commonBits c q) (a : Party → List (S3Share K)) (ha : Rels S3SharesOf (encode K q.code) a)
    (b : Party → List (List (S3Share K))) (hb : Rels (Rels S3SharesOf) (db.map fun c => encode K c.code) b)
    (cs : Nat) (hcs : cs ≠ 0) (hov : (db.length + cs) * (2 * K) < 2 ^ 64) (hu : u + 1100 * db.length ≤ 2 ^ 44)
    (hn : 51202 * (w.n + db.length) ≤ 2 ^ 44) (rngMul rngAnd rngDot : Party → G.S) :
    let ops := fun i => Swift3.ops G H K signed (Swift3.verify H i (rngMul i) (rngAnd i) (rngDot i)) i
    ∃ (c : Party → S3Share 1) (st1 : Party → S3St G K) (w1 : DotCount) (res : Party → Except Err Unit),
      (∀ cap : Party → Party → Nat, (∀ s d, 2 ≤ cap s d) → AllSchedulesWithin cap
        (fun i => Iris.queryBody (ops i) (a i) (b i) q.mask (db.map fun c => c.mask) cs (st i)) (fun i => (c i, st1 i))) ∧
      DotOutcome w1 (G.genSeed (st1 0).prf.pp).2 rngDot (fun i => (st1 i).dotProof) res ∧
      ((∀ i, res i = .ok ()) → ∃ st' : Party → S3St G K, ∀ cap : Party → Party → Nat, (∀ s d, 2 ≤ cap s d) →
        AllSchedulesWithin cap (fun i => Iris.irisInDb (ops i) (a i) (b i) q.mask (db.map fun c => c.mask) cs (st i))
          (fun i => (inDb q db, st' i))) := by
  obtain ⟨st1, u1, w1, res, ⟨c, st2, h1, -, rfl⟩, -, -, h3, h4, -⟩ := C41_query (H := H) hK h64 hG signed u w st hst hw q db hne hm a
    ha b hb cs hcs hov hu hn rngMul rngAnd rngDot
  refine ⟨c, st2, w1, res, h1.2, h3, fun h => ?_⟩
  obtain ⟨r, st', h, hr, -⟩ := h4 h
  obtain rfl : r = fun _ => inDb q db := funext hr
  exact ⟨st', h.2⟩

/-- Room for one message is not enough: when the three parties exchange two vectors (`send_slices_and_receive_iters`, used by
the SPDZ-wise multiplications), everybody waits for room for its second message. -/
theorem C69_one_message_deadlocks (x y : Party → List (BitVec K)) :
    ∃ (n : Nat) (c : Config (List (BitVec K) × List (BitVec K))),
      BStepsN (fun _ _ => 1) n (Config.init fun i => sendSlicesAndReceiveIters i (x i) (y i)) c ∧
      (∀ i c', ¬ BStep (fun _ _ => 1) i c c') ∧ ∀ i, ∃ k, c.prog i = .send i.next (ringSliceToBytes (y i)) k := by
  let k : (i : Party) → Prog (List (BitVec K) × List (BitVec K)) := fun i => .recv i.prev fun r1 => .recv i.prev fun r2 => do
    let a ← Prog.ofExcept (ringIterFromBytes K r1 (x i).length)
    let b ← Prog.ofExcept (ringIterFromBytes K r2 (y i).length)
    pure (a, b)
  have e : (fun i => sendSlicesAndReceiveIters i (x i) (y i)) = fun i => Prog.send i.next (ringSliceToBytes (x i))
      (.send i.next (ringSliceToBytes (y i)) (k i)) := rfl
  rw [e]
  let c : Config (List (BitVec K) × List (BitVec K)) :=
    ⟨fun i => .send i.next (ringSliceToBytes (y i)) (k i), fun s d => if d = s.next then [ringSliceToBytes (x s)] else []⟩
  refine ⟨3, c, ?_, ?_, fun i => ⟨k i, rfl⟩⟩
  · refine .succ 0 (.send (d := 1) rfl Nat.one_pos) (.succ 1 (.send (d := 2) (m := ringSliceToBytes (x 1))
      (k := .send 2 (ringSliceToBytes (y 1)) (k 1)) rfl Nat.one_pos) (.succ 2 (.send (d := 0) (m := ringSliceToBytes (x 2))
      (k := .send 0 (ringSliceToBytes (y 2)) (k 2)) rfl Nat.one_pos) ?_))
    convert BStepsN.zero _ using 1
    apply Config.ext
    · funext i; fin_cases i <;> rfl
    · funext s d; fin_cases s <;> fin_cases d <;> rfl
  · intro i c' hs
    cases hs with
    | @send d m p h hr =>
      have h' : Prog.send i.next (ringSliceToBytes (y i)) (k i) = Prog.send d m p := h
      rw [Prog.send.injEq] at h'
      obtain ⟨rfl, -, -⟩ := h'
      simp [c] at hr
    | recv h hc => cases h

/-- Non-vacuity of the hypothesis of `C69_more_room`: an exchange around the ring, with room for one message. -/
example : ∃ n, BStepsN (fun _ _ => 1) n (Config.init fun i : Party => sendAndReceive i [BitVec.ofNat 8 i.val])
    ⟨fun i => .ret [BitVec.ofNat 8 i.prev.val], fun _ _ => []⟩ := by
  refine ⟨6, .succ 0 (.send (d := 1) (m := [0]) (k := .recv 2 .ret) rfl Nat.one_pos)
    (.succ 1 (.send (d := 2) (m := [1]) (k := .recv 0 .ret) rfl Nat.one_pos)
    (.succ 2 (.send (d := 0) (m := [2]) (k := .recv 1 .ret) rfl Nat.one_pos)
    (.succ 0 (.recv (s := 2) (k := .ret) (m := [2]) (rest := []) rfl rfl)
    (.succ 1 (.recv (s := 0) (k := .ret) (m := [0]) (rest := []) rfl rfl)
    (.succ 2 (.recv (s := 1) (k := .ret) (m := [1]) (rest := []) rfl rfl) ?_)))))⟩
  convert BStepsN.zero _ using 1
  apply Config.ext
  · funext i; fin_cases i <;> rfl
  · funext s d; fin_cases s <;> fin_cases d <;> rfl

end Verif
