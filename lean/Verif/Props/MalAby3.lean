import Verif.Proof.MalAby3Iris
import Verif.Props.Iris
import Verif.Props.Codec
import Verif.Proof.Local

/-! # C30, C31, C33, C34, C36: the maliciously secure ABY3 backend, honest runs -/

namespace Verif

open Jmp MalAby3

attribute [local irreducible] hammingDistance commonBits encode

variable {G : Prg} {H : Hash} {K : Nat}

/-- States of the malicious backend with non-empty matching queues, for the examples. -/
def exJmpSt (i : Party) : JmpSt exPrg :=
  ⟨(exSt i).prf, [BitVec.ofNat 8 i.val], [BitVec.ofNat 8 i.next.val]⟩

theorem exJmpSt_ok : JmpOk exJmpSt := ⟨fun _ => rfl, fun _ => rfl⟩

/-- A hash function. -/
def exHash : Hash := ⟨fun m => List.replicate 64 (BitVec.ofNat 8 m.sum.toNat), fun _ => by simp⟩

/-! ## C31: commitments -/

/-- Whatever the values and the randomness, the opening of a commitment is accepted for it. -/
theorem C31_complete (values : List (BitVec K)) (rand : Bytes) :
    (Commitment.commit H values rand).opening.verify H (Commitment.commit H values rand).comm = true ∧
    (Commitment.commit H values rand).comm.length = Commitment.commSize ∧
    (Commitment.commit H values rand).opening = ⟨values, rand⟩ := by
  refine ⟨?_, H.len _, rfl⟩
  simp [Commitment.opening, CommitOpening.verify, Commitment.commit]

theorem ringSliceToBytes_inj {xs ys : List (BitVec K)} (hl : xs.length = ys.length)
    (h : ringSliceToBytes xs = ringSliceToBytes ys) : xs = ys := by
  have h1 := (C03_roundtrip K xs).1
  have h2 := (C03_roundtrip K ys).1
  rw [h, hl, h2] at h1
  exact (Except.ok.inj h1).symm

/-- Binding: two different accepted openings of one commitment, of the sizes the protocols insist on (`n` values of
`K` bits and randomness of one length), are two different byte strings with the same hash. -/
theorem C31_binding (comm : Bytes) (o o' : CommitOpening K) (hv : o.verify H comm = true) (hv' : o'.verify H comm = true)
    (hn : o.values.length = o'.values.length) (hr : o.rand.length = o'.rand.length) (hne : o ≠ o') :
    ringSliceToBytes o.values ++ o.rand ≠ ringSliceToBytes o'.values ++ o'.rand ∧
    H.h (ringSliceToBytes o.values ++ o.rand) = H.h (ringSliceToBytes o'.values ++ o'.rand) := by
  simp only [CommitOpening.verify, beq_iff_eq] at hv hv'
  refine ⟨fun h => hne ?_, hv ▸ hv'⟩
  have h2 := List.append_inj_right' h hr
  have h1 := List.append_inj_left' h hr
  cases o; cases o'
  simp only at h1 h2 hn
  rw [ringSliceToBytes_inj hn h1, h2]

/-- An opening is accepted only for the commitment it determines. -/
theorem C31_reject (comm : Bytes) (o : CommitOpening K) :
    o.verify H comm = true ↔ comm = (Commitment.commit H o.values o.rand).comm := by
  simp [CommitOpening.verify, Commitment.commit]

example : (⟨[3, 7], [1, 2]⟩ : CommitOpening 8).verify exHash (exHash.h [3, 7, 1, 2]) = true ∧
    (⟨[2, 8], [1, 2]⟩ : CommitOpening 8).verify exHash (exHash.h [3, 7, 1, 2]) = true := by
  constructor <;> decide +kernel

/-! ## C30: the common coin -/

/-- `coin` (the same code in MalAby3 and SpdzWise) gives the same 32-byte seed to all parties: the exclusive or of
one contribution per party, which is the next seed of the generator that this party shares with its successor. -/
theorem C30_coin (st : Party → JmpSt G) (hst : JmpOk st) :
    EverySchedule (fun i => coin i) st (fun s st' =>
      (∀ i, s i = coinOf (fun j => (G.genSeed (st j).prf.my).1)) ∧ (∀ i, (s i).length = 32) ∧ JmpOk st') := by
  refine ((coin_wp' hst).mono ?_).allSchedules
  rintro s st' ⟨h, hI⟩
  refine ⟨h, fun i => ?_, hI⟩
  rw [h i]
  simp [coinOf, G.genSeed_length]

example : JmpOk exJmpSt := exJmpSt_ok
example : coinOf (fun j => (exPrg.genSeed (exJmpSt j).prf.my).1) =
    List.replicate 32 (7#8 ^^^ 8#8 ^^^ 9#8) := by decide +kernel

/-! ## C33: set-up -/

/-- With honest parties the set-up succeeds under every schedule for all seeds and all commitment randomness, and
each party's first generator equals its successor's second one, seeded with the exclusive or of one seed of each. -/
theorem C33_setup (seed1 seed2 rand1 rand2 : Party → Bytes) (h1 : ∀ i, (seed1 i).length = 32)
    (h2 : ∀ i, (seed2 i).length = 32) (h3 : ∀ i, (rand1 i).length = 32) (h4 : ∀ i, (rand2 i).length = 32)
    (st : Party → JmpSt G) (hq : ∀ i, (st i).rcvQueueNext = (st i.next).sendQueuePrev) :
    EverySchedule (fun i => setupPrfFromSeed H i (seed1 i) (seed2 i) (rand1 i) (rand2 i)) st
      (fun _ st' => JmpOk st' ∧ ∀ i,
        (st' i).prf.my = G.ofSeed (List.zipWith (· ^^^ ·) (seed1 i) (seed2 i.next)) ∧
        (st' i).prf.my = (st' i.next).prf.next) := by
  refine ((setup_wp seed1 seed2 rand1 rand2 h1 h2 h3 h4 st).mono ?_).allSchedules
  intro _ st' h
  have hok := setup_ok hq h
  refine ⟨hok, fun i => ⟨?_, ?_⟩⟩
  · rw [h i]
    simp only [setupKeys, Prf.new, BitVec.xor_comm]
  · have := hok.1 i.next
    simp only [Party.prev_next] at this
    exact this.symm

example : (∀ i, (exSeed i).length = 32) ∧ (∀ i, (exJmpSt i).rcvQueueNext = (exJmpSt i.next).sendQueuePrev) :=
  ⟨fun i => by simp [exSeed], fun _ => rfl⟩

theorem ringSliceToBytes_bytes (l : Bytes) : ringSliceToBytes (K := 8) l = l := by
  induction l with
  | nil => rfl
  | cons x l ih =>
    have : toBytes x = [x] := by simp [toBytes, byteLen, beBytes]
    rw [ringSliceToBytes, List.flatMap_cons, this, ← ringSliceToBytes, ih]; rfl

/-- Seen from one party, whatever the other two send: it finishes the set-up only after receiving from each
neighbour a commitment and then an opening (a seed followed by 32 bytes of randomness) that hashes to this commitment, and its
generators are seeded with its own seeds combined with the seeds of these openings. -/
theorem C33_only_valid_openings (me : Party) (seed1 seed2 rand1 rand2 : Bytes)
    (s s' : JmpSt G) (rcvd sent : Party → List Bytes)
    (h : Local (setupPrfFromSeed H me seed1 seed2 rand1 rand2 s) rcvd sent (.ret ((), s'))) :
    ∃ seedN randN seedP randP : Bytes,
      rcvd me.next = [H.h (seedN ++ randN), seedN ++ randN] ∧ rcvd me.prev = [H.h (seedP ++ randP), seedP ++ randP] ∧
      seedN.length = seed1.length ∧ seedP.length = seed1.length ∧ randN.length = 32 ∧ randP.length = 32 ∧
      s' = { s with prf := Prf.new (List.zipWith (· ^^^ ·) seed1 seedN) (List.zipWith (· ^^^ ·) seed2 seedP) } := by
  have hnp : me.next ≠ me.prev := by match me with | 0 => decide | 1 => decide | 2 => decide
  unfold setupPrfFromSeed at h
  obtain ⟨s1, rfl, h_1⟩ := Local.send_ret h
  obtain ⟨s2, rfl, h_2⟩ := Local.send_ret h_1
  obtain ⟨c1, r1, rfl, h_3⟩ := Local.recv_ret h_2
  obtain ⟨c2, r2, rfl, h_4⟩ := Local.recv_ret h_3
  change Local ((if _ then _ else _ : Proto (JmpSt G) Unit) s) _ _ _ at h_4
  by_cases hlen : c1.length ≠ Commitment.commSize ∨ c2.length ≠ Commitment.commSize
  · rw [if_pos hlen] at h_4; cases h_4
  rw [if_neg hlen] at h_4
  obtain ⟨s3, rfl, h_5⟩ := Local.send_ret h_4
  obtain ⟨s4, rfl, h_6⟩ := Local.send_ret h_5
  obtain ⟨m1, r3, rfl, h_7⟩ := Local.recv_ret h_6
  obtain ⟨m2, r4, rfl, h_8⟩ := Local.recv_ret h_7
  change Local ((if _ then _ else _ : Proto (JmpSt G) Unit) s) _ _ _ at h_8
  by_cases hl2 : m1.length ≠ seed1.length + Commitment.randSize ∨ m2.length ≠ seed1.length + Commitment.randSize
  · rw [if_pos hl2] at h_8; cases h_8
  rw [if_neg hl2] at h_8
  by_cases hv1 : verifyCommitment H (m1.take seed1.length) (m1.drop seed1.length) c1 = false
  · rw [if_pos hv1] at h_8; cases h_8
  rw [if_neg hv1] at h_8
  by_cases hv2 : verifyCommitment H (m2.take seed1.length) (m2.drop seed1.length) c2 = false
  · rw [if_pos hv2] at h_8; cases h_8
  rw [if_neg hv2] at h_8
  obtain ⟨rfl, rfl, hfin⟩ := Local.ret_inv h_8
  injection hfin with hfin
  injection hfin with _ hfin
  push Not at hl2
  simp only [Bool.not_eq_false, verifyCommitment, CommitOpening.verify, ringSliceToBytes_bytes,
    List.take_append_drop, beq_iff_eq] at hv1 hv2
  refine ⟨m1.take seed1.length, m1.drop seed1.length, m2.take seed1.length, m2.drop seed1.length, ?_, ?_,
    ?_, ?_, ?_, ?_, ?_⟩
  · rw [push_same, push_ne hnp, push_same, push_ne hnp, List.take_append_drop, hv1]
  · rw [push_ne hnp.symm, push_same, push_ne hnp.symm, push_same, List.take_append_drop, hv2]
  · rw [List.length_take, hl2.1]; omega
  · rw [List.length_take, hl2.2]; omega
  · rw [List.length_drop, hl2.1]; simp [Commitment.randSize]
  · rw [List.length_drop, hl2.2]; simp [Commitment.randSize]
  · rw [hfin]; simp only [BitVec.xor_comm]

/-- Once a party has received both messages of both neighbours, of the right sizes, and the opening of its successor
(or else of its predecessor) does not hash to the commitment, it has returned `InvalidCommitment` naming this neighbour. -/
theorem C33_bad_opening_rejected (me : Party) (seed1 seed2 rand1 rand2 : Bytes)
    (s : JmpSt G) (rcvd sent : Party → List Bytes) (q : Prog (Unit × JmpSt G))
    (h : Local (setupPrfFromSeed H me seed1 seed2 rand1 rand2 s) rcvd sent q)
    (cN oN cP oP : Bytes) (hN : rcvd me.next = [cN, oN]) (hP : rcvd me.prev = [cP, oP])
    (lcN : cN.length = 64) (lcP : cP.length = 64)
    (loN : oN.length = seed1.length + 32) (loP : oP.length = seed1.length + 32) :
    (cN ≠ H.h oN → q = .fail (.invalidCommitment me.next.val)) ∧
    (cN = H.h oN → cP ≠ H.h oP → q = .fail (.invalidCommitment me.prev.val)) := by
  have hnp : me.next ≠ me.prev := by match me with | 0 => decide | 1 => decide | 2 => decide
  have in1 : (me.val + 1) % 3 = me.next.val := by match me with | 0 => rfl | 1 => rfl | 2 => rfl
  have in2 : (me.val + 2) % 3 = me.prev.val := by match me with | 0 => rfl | 1 => rfl | 2 => rfl
  unfold setupPrfFromSeed at h
  obtain ⟨rfl, -, -⟩ | ⟨s1, rfl, h_1⟩ := Local.send_inv h
  · simp at hN
  obtain ⟨rfl, -, -⟩ | ⟨s2, rfl, h_2⟩ := Local.send_inv h_1
  · simp at hN
  obtain ⟨rfl, -, -⟩ | ⟨c1, r1, rfl, h_3⟩ := Local.recv_inv h_2
  · simp at hN
  obtain ⟨rfl, -, -⟩ | ⟨c2, r2, rfl, h_4⟩ := Local.recv_inv h_3
  · simp [push] at hN
  rw [push_same, push_ne hnp] at hN
  rw [push_ne hnp.symm, push_same] at hP
  simp only [List.cons.injEq] at hN hP
  obtain ⟨rfl, hN⟩ := hN
  obtain ⟨rfl, hP⟩ := hP
  change Local ((if _ then _ else _ : Proto (JmpSt G) Unit) s) _ _ _ at h_4
  rw [if_neg (by simp [Commitment.commSize, lcN, lcP])] at h_4
  obtain ⟨rfl, -, -⟩ | ⟨s3, rfl, h_5⟩ := Local.send_inv h_4
  · simp at hN
  obtain ⟨rfl, -, -⟩ | ⟨s4, rfl, h_6⟩ := Local.send_inv h_5
  · simp at hN
  obtain ⟨rfl, -, -⟩ | ⟨m1, r3, rfl, h_7⟩ := Local.recv_inv h_6
  · simp at hN
  obtain ⟨rfl, -, -⟩ | ⟨m2, r4, rfl, h_8⟩ := Local.recv_inv h_7
  · simp [push, hnp.symm] at hP
  rw [push_same, push_ne hnp] at hN
  rw [push_ne hnp.symm, push_same] at hP
  simp only [List.cons.injEq] at hN hP
  obtain ⟨rfl, hN⟩ := hN
  obtain ⟨rfl, hP⟩ := hP
  change Local ((if _ then _ else _ : Proto (JmpSt G) Unit) s) _ _ _ at h_8
  rw [if_neg (by simp [Commitment.randSize, loN, loP])] at h_8
  have e : ∀ m c : Bytes, verifyCommitment H (m.take seed1.length) (m.drop seed1.length) c = false ↔ c ≠ H.h m := by
    intro m c
    simp [verifyCommitment, CommitOpening.verify, ringSliceToBytes_bytes, List.take_append_drop]
  simp only [e, in1, in2] at h_8
  constructor
  · intro hbad
    rw [if_pos hbad] at h_8
    exact (Local.fail_inv h_8).2.2
  · intro hgood hbad
    rw [if_neg (by simpa using hgood), if_pos hbad] at h_8
    exact (Local.fail_inv h_8).2.2

example : (exHash.h [1]).length = 64 ∧ exHash.h [1] ≠ exHash.h [2] := by constructor <;> decide +kernel

/-! ## C34: multiplication and AND

The multiplications need the verification ring to be at least 40 bits wider (`Bit` and the types of 8, 16 and 64
bits). -/

/-- The ring types for which the multiplication code does not panic. -/
theorem C34_widths : (∀ K ∈ [1, 8, 16, 64], 40 ≤ verifWidth K - K) ∧ (∀ K ∈ [32, 128], verifWidth K - K < 40) := by
  decide

theorem C34_mul (hV : 40 ≤ verifWidth K - K) (x y : BitVec K) (a b : Party → AShare K) (ha : SharesOf x a)
    (hb : SharesOf y b) (st : Party → JmpSt G) (hst : JmpOk st) :
    EverySchedule (fun i => mul H i (a i) (b i)) st (fun c st' => SharesOf (x * y) c ∧ JmpOk st') :=
  (mul_wp hV hst ha hb).allSchedules

theorem C34_dot (hV : 40 ≤ verifWidth K - K) (xs ys : List (BitVec K)) (hl : xs.length = ys.length)
    (a b : Party → List (AShare K)) (ha : Rels SharesOf xs a) (hb : Rels SharesOf ys b)
    (st : Party → JmpSt G) (hst : JmpOk st) :
    EverySchedule (fun i => dot H i (a i) (b i)) st
      (fun c st' => SharesOf (List.zipWith (· * ·) xs ys).sum c ∧ JmpOk st') :=
  (dot_wp hV hst ha hb hl).allSchedules

theorem C34_dot_many (hV : 40 ≤ verifWidth K - K) (xss yss : List (List (BitVec K)))
    (hl : List.Forall₂ (fun xs ys => xs.length = ys.length) xss yss)
    (a b : Party → List (List (AShare K))) (ha : Rels (Rels SharesOf) xss a) (hb : Rels (Rels SharesOf) yss b)
    (st : Party → JmpSt G) (hst : JmpOk st) :
    EverySchedule (fun i => dotMany H i (a i) (b i)) st
      (fun c st' => Rels SharesOf (List.zipWith (fun xs ys => (List.zipWith (· * ·) xs ys).sum) xss yss) c ∧
        JmpOk st') :=
  (dotMany_wp hV hst ha hb hl).allSchedules

theorem C34_and (x y : BitVec K) (a b : Party → AShare K) (ha : BinSharesOf x a)
    (hb : BinSharesOf y b) (st : Party → JmpSt G) (hst : JmpOk st) :
    EverySchedule (fun i => MalAby3.and H i (a i) (b i)) st (fun c st' => BinSharesOf (x &&& y) c ∧ JmpOk st') :=
  (and_wp hst ha hb).allSchedules

theorem C34_and_many (hK : K ≠ 0) (xs ys : List (BitVec K)) (hl : xs.length = ys.length)
    (a b : Party → List (AShare K)) (ha : Rels BinSharesOf xs a) (hb : Rels BinSharesOf ys b)
    (st : Party → JmpSt G) (hst : JmpOk st) :
    EverySchedule (fun i => andMany H i (a i) (b i)) st
      (fun c st' => Rels BinSharesOf (List.zipWith (· &&& ·) xs ys) c ∧ JmpOk st') :=
  (andMany_wp hK hst ha hb hl).allSchedules

/-- The conversion of arithmetic to binary shares, the sign bits and the OR of many bits. -/
theorem C34_a2b (hK : K ≠ 0) (xs : List (BitVec K)) (a : Party → List (AShare K)) (ha : Rels SharesOf xs a)
    (st : Party → JmpSt G) (hst : JmpOk st) :
    EverySchedule (fun i => a2bMany H i (a i)) st (fun r st' => Rels BinSharesOf xs r ∧ JmpOk st') :=
  (a2bMany_wp hK hst ha).allSchedules

theorem C34_get_msb_many (hK : K ≠ 0) (xs : List (BitVec K)) (a : Party → List (AShare K)) (ha : Rels SharesOf xs a)
    (st : Party → JmpSt G) (hst : JmpOk st) :
    EverySchedule (fun i => getMsbMany H i (a i)) st
      (fun r st' => Rels BinSharesOf (xs.map fun x => bitOf x.msb) r ∧ JmpOk st') :=
  (getMsbMany_wp hK hst ha).allSchedules

theorem C34_reduce_binary_or (bits : List (BitVec 1)) (hne : bits ≠ []) (a : Party → List (AShare 1))
    (ha : Rels BinSharesOf bits a) (cs : Nat) (hcs : cs ≠ 0) (hlt : cs * 128 < 2 ^ 64)
    (st : Party → JmpSt G) (hst : JmpOk st) :
    EverySchedule (fun i => reduceBinaryOr H i (a i) cs) st
      (fun c st' => BinSharesOf (bitOf (bits.any bitVal)) c ∧ JmpOk st') :=
  (reduceBinaryOr_wp hcs hlt hne hst ha).allSchedules

/-- For the other widths (32 and 128 bits) the assertion of the code fires: these methods panic at once, on all
inputs. -/
theorem C34_panics (hV : verifWidth K - K < 40) (me : Party) :
    (∀ a b, FailsAtOnce (mul (G := G) (K := K) H me a b) .panic) ∧
    (∀ a b, a.length = b.length → FailsAtOnce (dot (G := G) (K := K) H me a b) .panic) ∧
    (∀ a b, a.length = b.length → FailsAtOnce (dotMany (G := G) (K := K) H me a b) .panic) := by
  refine ⟨fun a b => ?_, fun a b hl => ?_, fun a b hl => ?_⟩
  · refine FailsAtOnce.bind_left ?_
    unfold getMulTriple
    rw [if_pos hV]; exact .throw _
  · unfold dot dotSacrifice
    rw [if_neg (by simp [hl]), if_pos hV]; exact .throw _
  · unfold dotMany dotSacrificeMany
    rw [if_neg (by simp [hl]), if_pos hV]; exact .throw _

/-- Vectors of different lengths are refused before anything is sent. -/
theorem C34_size (me : Party) :
    (∀ a b, a.length ≠ b.length → FailsAtOnce (dot (G := G) (K := K) H me a b) .invalidSize) ∧
    (∀ a b, a.length ≠ b.length → FailsAtOnce (dotMany (G := G) (K := K) H me a b) .invalidSize) ∧
    (∀ a b, a.length ≠ b.length → FailsAtOnce (andMany (G := G) (K := K) H me a b) .invalidSize) := by
  refine ⟨fun a b hl => ?_, fun a b hl => ?_, fun a b hl => ?_⟩
  · unfold dot; rw [if_pos hl]; exact .throw _
  · unfold dotMany; rw [if_pos hl]; exact .throw _
  · unfold andMany; rw [if_pos hl]; exact .throw _

example : 40 ≤ verifWidth 16 - 16 ∧ SharesOf 1234#16 (exShare 1234#16) ∧ SharesOf 0xffff#16 (exShare 0xffff#16) ∧
    BinSharesOf 0xbeef#16 (exBinShare 0xbeef#16) ∧ JmpOk exJmpSt :=
  ⟨by decide, exShare_ok _, exShare_ok _, exBinShare_ok _, exJmpSt_ok⟩
example : Rels SharesOf [1#16, 2, 3] (fun i => [1#16, 2, 3].map (exShare · i)) := exShares_ok _

/-! ## C36: the query -/

/-- `iris_in_db` over the malicious backend with honest parties: all embedded checks pass and every party gets the
answer, under every schedule. -/
theorem C36_iris_in_db (hK : 15 ≤ K) (hV : 40 ≤ verifWidth K - K) (signed : Bool) (q : IrisCode) (db : List IrisCode)
    (hne : db ≠ []) (hm : ∀ c ∈ db, 8960 ≤ commonBits c q) (a : Party → List (AShare K))
    (b : Party → List (List (AShare K))) (ha : Rels SharesOf (encode K q.code) a)
    (hb : Rels (Rels SharesOf) (db.map fun c => encode K c.code) b)
    (cs : Nat) (hcs : cs ≠ 0) (hcs' : cs * 128 < 2 ^ 64) (hov : (db.length + cs) * (2 * K) < 2 ^ 64)
    (st : Party → JmpSt G) (hst : JmpOk st) :
    EverySchedule
      (fun i => Iris.irisInDb (MalAby3.ops G H K signed i) (a i) (b i) q.mask (db.map fun c => c.mask) cs) st
      (fun r st' => (∀ i, r i = inDb q db) ∧ JmpOk st') :=
  ((MalAby3.mpcLawful G H hV (by omega) signed).irisInDb_wp hK le_rfl ha hne hm hb hcs hcs' hov trivial hst).allSchedules

/-- End to end: set-up with any seeds, then the query on freshly dealt shares; the answer is that of the plaintext
matching program. -/
theorem C36_end_to_end (hK : 15 ≤ K) (hV : 40 ≤ verifWidth K - K) (signed : Bool) (q : IrisCode) (db : List IrisCode)
    (hne : db ≠ []) (hm : ∀ c ∈ db, 8960 ≤ commonBits c q)
    (rnd : List (BitVec K × BitVec K)) (hr : rnd.length = 12800)
    (rnds : List (List (BitVec K × BitVec K))) (hrs : rnds.length = db.length) (hrl : ∀ r ∈ rnds, r.length = 12800)
    (seed1 seed2 rand1 rand2 : Party → Bytes) (h1 : ∀ i, (seed1 i).length = 32)
    (h2 : ∀ i, (seed2 i).length = 32) (h3 : ∀ i, (rand1 i).length = 32) (h4 : ∀ i, (rand2 i).length = 32)
    (prf₀ : Prf G) (cs : Nat) (hcs : cs ≠ 0) (hcs' : cs * 128 < 2 ^ 64) (hov : (db.length + cs) * (2 * K) < 2 ^ 64) :
    EverySchedule (fun i => do
        setupPrfFromSeed H i (seed1 i) (seed2 i) (rand1 i) (rand2 i)
        Iris.irisInDb (MalAby3.ops G H K signed i) (dealt (encode K q.code) rnd i)
          (List.zipWith (fun c r => dealt (encode K c.code) r i) db rnds) q.mask (db.map fun c => c.mask) cs)
      (fun _ => ⟨prf₀, [], []⟩)
      (fun r _ => ∀ i, findMatch q db false = .ok (r i)) := by
  have hb : Rels (Rels SharesOf) (db.map fun c => encode K c.code)
      (fun i => List.zipWith (fun c r => dealt (encode K c.code) r i) db rnds) := by
    have := dealts_ok (db.map fun c => encode K c.code) rnds (by
      rw [List.forall₂_map_left_iff]
      refine List.forall₂_iff_zip.2 ⟨hrs.symm, fun {c r} h => ?_⟩
      rw [hrl r (List.of_mem_zip h).2, MpcLawful.encode_length]; rfl)
    simpa only [List.zipWith_map_left] using this
  refine WPS.allSchedules (WPS.bind ((setup_wp seed1 seed2 rand1 rand2 h1 h2 h3 h4 _).mono ?_))
  intro _ st' h
  refine ((MalAby3.mpcLawful G H hV (by omega) signed).irisInDb_wp hK le_rfl
    (dealt_ok _ rnd (by rw [hr, MpcLawful.encode_length]; rfl)) hne hm hb hcs hcs' hov trivial
    (setup_ok (fun _ => rfl) h)).mono ?_
  rintro r st'' ⟨h, -⟩ i
  rw [C19_find_match q db hm, h i, inDb]

/-- A comparison over a ring of 32 or 128 bits panics at every party before anything is sent, for all inputs that
pass the validation. -/
theorem C36_panics (hV : verifWidth K - K < 40) (signed : Bool) (q c : IrisCode) (hm : 8960 ≤ commonBits q c)
    (me : Party) (a b : List (AShare K)) (ha : a.length = 12800) (hb : b.length = 12800) :
    FailsAtOnce (Iris.compareIris (MalAby3.ops G H K signed me) a b q.mask c.mask) .panic := by
  have hc : Iris.combineAll q.mask [c.mask] = .ok [q.mask.and c.mask] := by
    have h1 : Iris.combineMasks q.mask c.mask = .ok (q.mask.and c.mask) := by
      unfold Iris.combineMasks
      show (if _ then _ else _) = _
      rw [countOnes_masks, C18_mask_threshold.1, if_neg (by omega)]
    simp only [Iris.combineAll, h1]
    rfl
  have hv : maskedVecs (AShare.zero K) a ([b].zip [q.mask.and c.mask]) = .ok
      ([zeroUnmasked (AShare.zero K) a (q.mask.and c.mask).bits], [zeroUnmasked (AShare.zero K) b (q.mask.and c.mask).bits]) := by
    show (if _ then _ else _) = _
    rw [if_neg (by simp only [ha, hb, irisCodeSize]; simp)]
    rfl
  refine FailsAtOnce.bind_left ?_
  unfold Iris.compareIrisMany
  rw [if_neg (by simp)]
  refine FailsAtOnce.bind_lift hc (FailsAtOnce.bind_left ?_)
  refine FailsAtOnce.bind_left ?_
  show FailsAtOnce (defaultMaskedDotMany _ _ _ _ _) _
  exact FailsAtOnce.bind_lift hv ((C34_panics hV me).2.2 _ _ rfl)

example (c : IrisCodeArray) : let e : IrisCode := ⟨c, IrisCodeArray.ones⟩
    15 ≤ 16 ∧ 40 ≤ verifWidth 16 - 16 ∧ [e, e, e] ≠ [] ∧ (∀ d ∈ [e, e, e], 8960 ≤ commonBits d e) ∧
    Rels SharesOf (encode 16 e.code) (fun i => (encode 16 e.code).map (exShare · i)) ∧ 128 * 128 < 2 ^ 64 ∧
    ([e, e, e].length + 128) * (2 * 16) < 2 ^ 64 ∧ JmpOk exJmpSt := by
  refine ⟨by omega, by decide, by simp, fun d hd => ?_, exShares_ok _, by norm_num, by simp, exJmpSt_ok⟩
  have : d = ⟨c, IrisCodeArray.ones⟩ := by simpa using hd
  rw [this, fullMask_common]; omega

end Verif
