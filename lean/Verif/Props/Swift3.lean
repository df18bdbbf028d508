import Verif.Proof.Swift3Iris
import Verif.Props.MalAby3

/-! # C37–C42: the Swift3 backend, honest runs -/

namespace Verif

open Swift3

attribute [local irreducible] hammingDistance commonBits encode

variable {G : Prg} {H : Hash} {K : Nat}

/-- A Swift3 sharing of `x`, for the examples. -/
def exS3Share (x : BitVec K) (i : Party) : S3Share K :=
  match i with
  | 0 => ⟨3, 7, x + 21⟩
  | 1 => ⟨11, 3, x + 21⟩
  | 2 => ⟨7, 11, x + 21⟩

theorem exS3Share_ok (x : BitVec K) : S3SharesOf x (exS3Share x) := by
  have e : (21 : BitVec K) = 3 + 11 + 7 := by
    rw [show (3 : BitVec K) = BitVec.ofNat K 3 from rfl, show (11 : BitVec K) = BitVec.ofNat K 11 from rfl,
      show (7 : BitVec K) = BitVec.ofNat K 7 from rfl, ← BitVec.ofNat_add, ← BitVec.ofNat_add]; rfl
  refine .mk' ?_ ?_ ?_ ?_ ?_ ?_ <;> simp only [exS3Share, e, BitVec.add_assoc]

/-- A binary Swift3 sharing of `x`. -/
def exS3Bin (x : BitVec K) (i : Party) : S3Share K :=
  match i with
  | 0 => ⟨1, 6, x ^^^ 1 ^^^ 2 ^^^ 6⟩
  | 1 => ⟨2, 1, x ^^^ 1 ^^^ 2 ^^^ 6⟩
  | 2 => ⟨6, 2, x ^^^ 1 ^^^ 2 ^^^ 6⟩

theorem exS3Bin_ok (x : BitVec K) : S3BinSharesOf x (exS3Bin x) := by
  refine .mk' ?_ ?_ ?_ ?_ ?_ ?_ <;> simp only [exS3Bin]

theorem exS3Shares_ok (xs : List (BitVec K)) : Rels S3SharesOf xs (fun i => xs.map (exS3Share · i)) := by
  induction xs with
  | nil => exact Rels.nil
  | cons x xs ih => exact Rels.cons (b := exS3Share x) (exS3Share_ok x) ih

theorem exS3Bins_ok (xs : List (BitVec K)) : Rels S3BinSharesOf xs (fun i => xs.map (exS3Bin · i)) := by
  induction xs with
  | nil => exact Rels.nil
  | cons x xs ih => exact Rels.cons (b := exS3Bin x) (exS3Bin_ok x) ih

/-- The states of new instances after the set-up, with three different pairwise seeds. -/
def exS3St (K : Nat) (i : Party) : S3St exPrg K :=
  { (Swift3.new (S3Prf.new [] [] []) : S3St exPrg K) with
    prf := setupPrf exSeed (fun i => exSeed i.next) (fun i => exSeed i.prev) i }

theorem exS3St_ok (K : Nat) : S3Ok 0 0 ⟨0, 0⟩ (exS3St K) := setup_ok (fun _ => rfl)

/-! ## C37: set-up -/

/-- Exclusive or of two byte strings, for the specification. -/
def xorSpec (a b : Bytes) : Bytes := List.zipWith (· ^^^ ·) a b

/-- With honest parties the set-up of new instances succeeds under every schedule, for all seeds and all commitment
randomness. Afterwards the state is consistent: each party has one generator in common with its successor and all three
have one in common. The first is seeded with the exclusive or of the seeds that the two parties made for each other
(each party uses its first seed for the lower-numbered of the other two, its second one for the other), the common one
with the exclusive or of the three third seeds. -/
theorem C37_setup (s0 s1 s2 r0 r1 r2 : Party → Bytes) (h0 : ∀ i, (s0 i).length = 32) (h1 : ∀ i, (s1 i).length = 32)
    (h2 : ∀ i, (s2 i).length = 32) (k0 : ∀ i, (r0 i).length = 32) (k1 : ∀ i, (r1 i).length = 32)
    (k2 : ∀ i, (r2 i).length = 32) (p : Party → S3Prf G) :
    EverySchedule (fun i => setupPrfFromSeed H i (s0 i) (s1 i) (s2 i) (r0 i) (r1 i) (r2 i))
      (fun i => (Swift3.new (p i) : S3St G K))
      (fun _ st' => S3Ok 0 0 ⟨0, 0⟩ st' ∧
        (∀ i, (st' i).prf.p1 = (st' i.next).prf.p2) ∧
        (st' 0).prf.p1 = G.ofSeed (xorSpec (s0 0) (s0 1)) ∧
        (st' 1).prf.p1 = G.ofSeed (xorSpec (s1 1) (s1 2)) ∧
        (st' 2).prf.p1 = G.ofSeed (xorSpec (s0 2) (s1 0)) ∧
        (∀ i, (st' i).prf.pp = G.ofSeed (xorSpec (xorSpec (s2 0) (s2 1)) (s2 2)))) := by
  refine ((setup_wp s0 s1 s2 r0 r1 r2 h0 h1 h2 k0 k1 k2 _).mono ?_).allSchedules
  intro _ st' h
  have hok := setup_ok h
  have e : ∀ a b, xorB a b = xorSpec a b := fun a b => by simp only [xorB, xorSpec, BitVec.xor_comm]
  have e3 : ∀ a b c : Bytes, List.zipWith (fun a (p : Byte × Byte) => p.1 ^^^ a ^^^ p.2) a (b.zip c) =
      xorSpec (xorSpec a b) c := by
    intro a
    induction a with
    | nil => intros; rfl
    | cons x a ih =>
      intro b c
      cases b with
      | nil => cases c <;> rfl
      | cons y b => cases c with
        | nil => rfl
        | cons z c => simp only [List.zip_cons_cons, List.zipWith_cons_cons, ih, xorSpec, BitVec.xor_comm x y]
  have hp : (st' 0).prf.pp = G.ofSeed (xorSpec (xorSpec (s2 0) (s2 1)) (s2 2)) := by
    rw [h 0]; simp only [setupPrf, S3Prf.new, e3]
  refine ⟨hok, hok.prf.1, ?_, ?_, ?_, fun i => ?_⟩
  · rw [h 0]; simp only [setupPrf, S3Prf.new, e]
  · rw [h 1]; simp only [setupPrf, S3Prf.new, e]
  · rw [h 2]; simp only [setupPrf, S3Prf.new, e]
  · rw [← hp]; exact hok.prf.2 i 0

example : (∀ i, (exSeed i).length = 32) ∧ (∀ i : Party, (exSeed i.next).length = 32) :=
  ⟨fun i => by simp [exSeed], fun i => by simp [exSeed]⟩
example : (exS3St 16 0).prf.p1 ≠ (exS3St 16 0).prf.p2 := by
  show ofBe _ ≠ ofBe _
  decide +kernel

/-- The lower-numbered and the higher-numbered of the other two parties. -/
def lowerOf : Party → Party
  | 0 => 1
  | 1 => 0
  | 2 => 0

def upperOf : Party → Party
  | 0 => 2
  | 1 => 2
  | 2 => 1

/-- Seen from one party, whatever the other two send: it finishes the set-up only after receiving from each of the other
two a pair of commitments and then openings of both (seed, 32 bytes of randomness, seed, 32 bytes of randomness) that
hash to these commitments, and its generators are seeded with its own seeds combined with the opened ones. -/
theorem C37_only_valid_openings (me : Party) (s0 s1 s2 r0 r1 r2 : Bytes) (s s' : S3St G K)
    (rcvd sent : Party → List Bytes)
    (h : Local (setupPrfFromSeed H me s0 s1 s2 r0 r1 r2 s) rcvd sent (.ret ((), s'))) :
    ∃ a ra a' ra' b rb b' rb' : Bytes,
      rcvd (lowerOf me) = [H.h (a ++ ra) ++ H.h (a' ++ ra'), a ++ ra ++ a' ++ ra'] ∧
      rcvd (upperOf me) = [H.h (b ++ rb) ++ H.h (b' ++ rb'), b ++ rb ++ b' ++ rb'] ∧
      (∀ x ∈ [a, a', b, b'], x.length = s0.length) ∧ (∀ x ∈ [ra, ra', rb, rb'], x.length = 32) ∧
      (s'.prf.pp = G.ofSeed (List.zipWith (fun x (p : Byte × Byte) => p.1 ^^^ x ^^^ p.2) s2 (a'.zip b'))) ∧
      (s'.prf.p1 = G.ofSeed (if me = 1 then xorSpec s1 b else xorSpec s0 a)) ∧
      (s'.prf.p2 = G.ofSeed (if me = 1 then xorSpec s0 a else xorSpec s1 b)) := by
  have hnp : lowerOf me ≠ upperOf me := by match me with | 0 => decide | 1 => decide | 2 => decide
  have e1 : ∀ (σ α : Type) (m : Bytes) (k : Unit → Proto σ α) (t : σ), (Proto.net (netSend me (otherIds me).1 m) >>= k) t = .send (lowerOf me) m (k () t) := by
    intro σ α m k t; match me with | 0 => rfl | 1 => rfl | 2 => rfl
  have e2 : ∀ (σ α : Type) (m : Bytes) (k : Unit → Proto σ α) (t : σ), (Proto.net (netSend me (otherIds me).2 m) >>= k) t = .send (upperOf me) m (k () t) := by
    intro σ α m k t; match me with | 0 => rfl | 1 => rfl | 2 => rfl
  have e3 : ∀ (σ α : Type) (k : Bytes → Proto σ α) (t : σ), (Proto.net (netRecv me (otherIds me).1) >>= k) t = .recv (lowerOf me) fun m => k m t := by
    intro σ α k t; match me with | 0 => rfl | 1 => rfl | 2 => rfl
  have e4 : ∀ (σ α : Type) (k : Bytes → Proto σ α) (t : σ), (Proto.net (netRecv me (otherIds me).2) >>= k) t = .recv (upperOf me) fun m => k m t := by
    intro σ α k t; match me with | 0 => rfl | 1 => rfl | 2 => rfl
  unfold setupPrfFromSeed at h
  simp only [e1, e2, e3, e4] at h
  obtain ⟨t1, rfl, h_1⟩ := Local.send_ret h
  obtain ⟨t2, rfl, h_2⟩ := Local.send_ret h_1
  obtain ⟨c1, q1, rfl, h_3⟩ := Local.recv_ret h_2
  obtain ⟨c2, q2, rfl, h_4⟩ := Local.recv_ret h_3
  change Local ((if _ then _ else _ : Proto (S3St G K) Unit) s) _ _ _ at h_4
  by_cases hlen : c1.length ≠ 2 * Commitment.commSize ∨ c2.length ≠ 2 * Commitment.commSize
  · rw [if_pos hlen] at h_4; cases h_4
  rw [if_neg hlen] at h_4
  simp only [e1, e2, e3, e4] at h_4
  obtain ⟨t3, rfl, h_5⟩ := Local.send_ret h_4
  obtain ⟨t4, rfl, h_6⟩ := Local.send_ret h_5
  obtain ⟨m1, q3, rfl, h_7⟩ := Local.recv_ret h_6
  obtain ⟨m2, q4, rfl, h_8⟩ := Local.recv_ret h_7
  change Local ((if _ then _ else _ : Proto (S3St G K) Unit) s) _ _ _ at h_8
  by_cases hl2 : m1.length ≠ 2 * (s0.length + Commitment.randSize) ∨ m2.length ≠ 2 * (s0.length + Commitment.randSize)
  · rw [if_pos hl2] at h_8; cases h_8
  rw [if_neg hl2] at h_8
  change Local ((if _ then _ else _ : Proto (S3St G K) Unit) s) _ _ _ at h_8
  split at h_8
  · cases h_8
  rename_i hv1
  change Local ((if _ then _ else _ : Proto (S3St G K) Unit) s) _ _ _ at h_8
  split at h_8
  · cases h_8
  rename_i hv2
  obtain ⟨rfl, rfl, hfin⟩ := Local.ret_inv h_8
  injection hfin with hfin
  injection hfin with _ hfin
  push Not at hl2 hlen hv1 hv2
  simp only [ne_eq, Bool.not_eq_false, MalAby3.verifyCommitment, CommitOpening.verify, ringSliceToBytes_bytes,
    beq_iff_eq] at hv1 hv2
  set n := s0.length with hn
  have hcut : ∀ m : Bytes, m.take n ++ (m.drop n).take 32 ++ (m.drop (n + 32)).take n ++ m.drop (2 * n + 32) = m := by
    intro m
    conv_rhs => rw [← List.take_append_drop n m, ← List.take_append_drop 32 (m.drop n), ← List.take_append_drop n ((m.drop n).drop 32)]
    rw [show 2 * n + 32 = n + 32 + n by omega]
    simp only [List.drop_drop, List.append_assoc]
  refine ⟨m1.take n, (m1.drop n).take 32, (m1.drop (n + 32)).take n, m1.drop (2 * n + 32),
    m2.take n, (m2.drop n).take 32, (m2.drop (n + 32)).take n, m2.drop (2 * n + 32), ?_, ?_, ?_, ?_, ?_, ?_, ?_⟩
  · rw [push_same, push_ne hnp, push_same, push_ne hnp, hcut]
    have := hv1
    simp only [Commitment.randSize] at this
    rw [← this.1, ← this.2, List.take_append_drop]
  · rw [push_ne hnp.symm, push_same, push_ne hnp.symm, push_same, hcut]
    have := hv2
    simp only [Commitment.randSize] at this
    rw [← this.1, ← this.2, List.take_append_drop]
  · simp [Commitment.randSize] at hl2 ⊢
    omega
  · simp [Commitment.randSize] at hl2 ⊢
    omega
  · rw [hfin]
    by_cases hm : me.val = 1 <;> simp [hm, S3Prf.new, Commitment.randSize]
  · rw [hfin]
    match me with
    | 0 => simp [S3Prf.new, xorSpec, BitVec.xor_comm]
    | 1 => simp [S3Prf.new, xorSpec, BitVec.xor_comm]
    | 2 => simp [S3Prf.new, xorSpec, BitVec.xor_comm]
  · rw [hfin]
    match me with
    | 0 => simp [S3Prf.new, xorSpec, BitVec.xor_comm]
    | 1 => simp [S3Prf.new, xorSpec, BitVec.xor_comm]
    | 2 => simp [S3Prf.new, xorSpec, BitVec.xor_comm]

/-! ## C38: share, input, open -/

/-- The three outputs of `share`, handed to parties 0, 1, 2, are a consistent sharing, for all random values. -/
theorem C38_share (x a1 a2 a3 : BitVec K) :
    ∃ s : Party → S3Share K, (∀ i, (share x a1 a2 a3)[i.val]? = some (s i)) ∧ (share x a1 a2 a3).length = 3 ∧
      S3SharesOf x s := by
  have e : ∃ s : Party → S3Share K, ∀ i, (share x a1 a2 a3)[i.val]? = some (s i) :=
    ⟨fun i => (share x a1 a2 a3)[i.val]'(by simp [share]), fun i => by simp⟩
  obtain ⟨s, h⟩ := e
  exact ⟨s, h, rfl, share_ok x a1 a2 a3 s h⟩

/-- `input` by any dealer: the three parties get a consistent sharing of the dealer's value, whatever the other two
pass. -/
theorem C38_input (id : Party) (x : BitVec K) (inp : Party → Option (BitVec K)) (hx : inp id = some x)
    (u v : Nat) (w : DotCount) (st : Party → S3St G K) (hst : S3Ok u v w st) :
    EverySchedule (fun i => input i (inp i) id.val) st (fun s st' => S3SharesOf x s ∧ S3Ok u v w st') :=
  (input_wp hx hst).allSchedules

/-- A dealer without a value gets `ValueError`, before anything is sent. -/
theorem C38_input_none (me : Party) : FailsAtOnce (input (G := G) (K := K) me none me.val) .value := by
  unfold input
  rw [if_pos ⟨rfl, rfl⟩]
  exact .throw _

/-- `open`, `open_many`, `open_bit`, `open_bit_many`: all parties get the shared value, and both embedded checks of
the queues pass. -/
theorem C38_open (x : BitVec K) (s : Party → S3Share K) (hs : S3SharesOf x s) (u v : Nat) (w : DotCount) (st : Party → S3St G K)
    (hst : S3Ok u v w st) :
    EverySchedule (fun i => openShare H i (s i)) st (fun r st' => (∀ i, r i = x) ∧ S3Ok u v w st') :=
  (openShare_wp hs hst).allSchedules

theorem C38_open_many (xs : List (BitVec K)) (s : Party → List (S3Share K)) (hs : Rels S3SharesOf xs s)
    (u v : Nat) (w : DotCount) (st : Party → S3St G K) (hst : S3Ok u v w st) :
    EverySchedule (fun i => openMany H i (s i)) st (fun r st' => (∀ i, r i = xs) ∧ S3Ok u v w st') :=
  (openMany_wp hs hst).allSchedules

theorem C38_open_bit (x : BitVec 1) (s : Party → S3Share 1) (hs : S3BinSharesOf x s) (u v : Nat) (w : DotCount)
    (st : Party → S3St G K) (hst : S3Ok u v w st) :
    EverySchedule (fun i => openBit H i (s i)) st (fun r st' => (∀ i, r i = bitVal x) ∧ S3Ok u v w st') :=
  (openBit_wp hs hst).allSchedules

theorem C38_open_bit_many (xs : List (BitVec 1)) (s : Party → List (S3Share 1)) (hs : Rels S3BinSharesOf xs s)
    (u v : Nat) (w : DotCount) (st : Party → S3St G K) (hst : S3Ok u v w st) :
    EverySchedule (fun i => openBitMany H i (s i)) st (fun r st' => (∀ i, r i = xs.map bitVal) ∧ S3Ok u v w st') :=
  (openBitMany_wp hs hst).allSchedules

/-- Input followed by open. -/
theorem C38_roundtrip (id : Party) (x : BitVec K) (inp : Party → Option (BitVec K)) (hx : inp id = some x)
    (u v : Nat) (w : DotCount) (st : Party → S3St G K) (hst : S3Ok u v w st) :
    EverySchedule (fun i => do let s ← input i (inp i) id.val; openShare H i s) st
      (fun r st' => (∀ i, r i = x) ∧ S3Ok u v w st') :=
  (WPS.bind ((input_wp hx hst).mono fun _ _ h => openShare_wp h.1 h.2)).allSchedules

example : S3SharesOf 4711#16 (exS3Share 4711) ∧ S3Ok 0 0 ⟨0, 0⟩ (exS3St 16) ∧
    Rels S3BinSharesOf [1#1, 0#1] (fun i => [1#1, 0#1].map (exS3Bin · i)) :=
  ⟨exS3Share_ok _, exS3St_ok _, exS3Bins_ok _⟩

/-! ## C39: linear operations, conversion -/

/-- The linear operations are local (functions of the own shares) and give consistent sharings of the ring
operations. -/
theorem C39_linear (x y c : BitVec K) (s t : Party → S3Share K) (hs : S3SharesOf x s) (ht : S3SharesOf y t) :
    S3SharesOf (x + y) (fun i => (s i).add (t i)) ∧
    S3SharesOf (x - y) (fun i => (s i).sub (t i)) ∧
    S3SharesOf (x + c) (fun i => (s i).addConst c) ∧
    S3SharesOf (x - c) (fun i => (s i).subConst c) ∧
    S3SharesOf (x * c) (fun i => (s i).mulConst c) ∧
    S3SharesOf (-x) (fun i => (s i).neg) :=
  ⟨hs.add ht, hs.sub ht, hs.addConst c, hs.subConst c, hs.mulConst c, hs.neg⟩

/-- The local operations on binary sharings. -/
theorem C39_binary_local (x y c : BitVec K) (s t : Party → S3Share K) (hs : S3BinSharesOf x s) (ht : S3BinSharesOf y t)
    (n : Nat) :
    S3BinSharesOf (x ^^^ y) (fun i => (s i).xor (t i)) ∧
    S3BinSharesOf (x &&& c) (fun i => (s i).andConst c) ∧
    S3BinSharesOf (ringShl x n) (fun i => (s i).shl n) ∧
    (0 < K → S3BinSharesOf (bitOf x.msb) (fun i => (s i).getMsb)) :=
  ⟨hs.xor ht, hs.andConst c, hs.shl n, fun h => hs.getMsb h⟩

/-- The splitting for the conversion: local, three binary sharings whose secrets add up to the value. -/
theorem C39_a2b_pre (x : BitVec K) (s : Party → S3Share K) (hs : S3SharesOf x s) :
    ∃ x1 x2 x3 : BitVec K, x1 + x2 + x3 = x ∧
      S3BinSharesOf x1 (fun i => (a2bPre i (s i)).1) ∧ S3BinSharesOf x2 (fun i => (a2bPre i (s i)).2.1) ∧
      S3BinSharesOf x3 (fun i => (a2bPre i (s i)).2.2) :=
  ⟨_, _, _, a2bPre_sum hs, (a2bPre_rel hs).1, (a2bPre_rel hs).2.1, (a2bPre_rel hs).2.2⟩

theorem C39_a2b (hK : 0 < K) (x : BitVec K) (s : Party → S3Share K) (hs : S3SharesOf x s) (u v : Nat) (w : DotCount)
    (st : Party → S3St G K) (hst : S3Ok u v w st) :
    EverySchedule (fun i => a2b i (s i)) st (fun r st' => S3BinSharesOf x r ∧ ∃ u', S3Ok u' v w st') :=
  ((a2b_wp hK hst hs).mono fun _ _ h => ⟨h.1, _, h.2⟩).allSchedules

theorem C39_a2b_many (hK : 0 < K) (xs : List (BitVec K)) (s : Party → List (S3Share K)) (hs : Rels S3SharesOf xs s)
    (u v : Nat) (w : DotCount) (st : Party → S3St G K) (hst : S3Ok u v w st) :
    EverySchedule (fun i => a2bMany i (s i)) st (fun r st' => Rels S3BinSharesOf xs r ∧ ∃ u', S3Ok u' v w st') :=
  ((a2bMany_wp hK hst hs).mono fun _ _ h => ⟨h.1, _, h.2⟩).allSchedules

/-- The sign bits. -/
theorem C39_get_msb_many (hK : 0 < K) (xs : List (BitVec K)) (s : Party → List (S3Share K)) (hs : Rels S3SharesOf xs s)
    (u v : Nat) (w : DotCount) (st : Party → S3St G K) (hst : S3Ok u v w st) :
    EverySchedule (fun i => getMsbMany i (s i)) st
      (fun r st' => Rels S3BinSharesOf (xs.map fun x => bitOf x.msb) r ∧ ∃ u', S3Ok u' v w st') :=
  ((getMsbMany_wp hK hst hs).mono fun _ _ h => ⟨h.1, _, h.2⟩).allSchedules

/-- The secret of a sharing is determined. -/
theorem C39_unique (x y : BitVec K) (s : Party → S3Share K) :
    (S3SharesOf x s → S3SharesOf y s → x = y) ∧ (S3BinSharesOf x s → S3BinSharesOf y s → x = y) := by
  refine ⟨fun hx hy => ?_, fun hx hy => hx.unique hy⟩
  have h := (hx.1 0).symm.trans (hy.1 0)
  calc x = x + (s 0).a + (s 1).a + (s 2).a - ((s 0).a + (s 1).a + (s 2).a) := by ring
    _ = y := by rw [h]; ring

example : S3SharesOf 200#8 (exS3Share 200) ∧ S3SharesOf 100#8 (exS3Share 100) ∧ S3Ok 0 0 ⟨0, 0⟩ (exS3St 8) ∧
    S3BinSharesOf 0xa5#8 (exS3Bin 0xa5) := ⟨exS3Share_ok _, exS3Share_ok _, exS3St_ok _, exS3Bin_ok _⟩

/-! ## C40: multiplication, dot product, AND

`S3Ok u v w` in the conclusions says: the generators stay correlated, the queues match between the parties, and the
gates registered for the later verification are correct and consistent, and how many they are. -/

theorem C40_mul (x y : BitVec K) (a b : Party → S3Share K) (ha : S3SharesOf x a) (hb : S3SharesOf y b)
    (u v : Nat) (w : DotCount) (st : Party → S3St G K) (hst : S3Ok u v w st) :
    EverySchedule (fun i => Swift3.mul i (a i) (b i)) st (fun c st' => S3SharesOf (x * y) c ∧ S3Ok u (v + 1) w st') :=
  (mul_wp hst ha hb).allSchedules

theorem C40_dot (xs ys : List (BitVec K)) (hl : xs.length = ys.length) (a b : Party → List (S3Share K))
    (ha : Rels S3SharesOf xs a) (hb : Rels S3SharesOf ys b) (u v : Nat) (w : DotCount) (st : Party → S3St G K) (hst : S3Ok u v w st) :
    EverySchedule (fun i => dot i (a i) (b i)) st
      (fun c st' => S3SharesOf (List.zipWith (· * ·) xs ys).sum c ∧ S3Ok u v (w.add xs.length) st') :=
  (dot_wp hst ha hb hl).allSchedules

/-- Only the outer lengths are compared. Vectors of different inner lengths are not refused: the longer one is cut
(`zipWith` stops with the shorter list). -/
theorem C40_dot_many (xss yss : List (List (BitVec K))) (hl : xss.length = yss.length)
    (a b : Party → List (List (S3Share K))) (ha : Rels (Rels S3SharesOf) xss a) (hb : Rels (Rels S3SharesOf) yss b)
    (u v : Nat) (w : DotCount) (st : Party → S3St G K) (hst : S3Ok u v w st) :
    EverySchedule (fun i => dotMany i (a i) (b i)) st
      (fun c st' => Rels S3SharesOf (List.zipWith (fun xs ys => (List.zipWith (· * ·) xs ys).sum) xss yss) c ∧
        S3Ok u v (w.addMany (List.zipWith (fun xs ys => min xs.length ys.length) xss yss)) st') :=
  (dotMany_wp hst ha hb hl).allSchedules

theorem C40_and (hK : 0 < K) {L : Nat} (x y : BitVec K) (a b : Party → S3Share K) (ha : S3BinSharesOf x a)
    (hb : S3BinSharesOf y b) (u v : Nat) (w : DotCount) (st : Party → S3St G L) (hst : S3Ok u v w st) :
    EverySchedule (fun i => Swift3.and i (a i) (b i)) st
      (fun c st' => S3BinSharesOf (x &&& y) c ∧ S3Ok (u + K) v w st') :=
  (and_wp hK hst ha hb).allSchedules

theorem C40_and_many (hK : 0 < K) {L : Nat} (xs ys : List (BitVec K)) (hl : xs.length = ys.length)
    (a b : Party → List (S3Share K)) (ha : Rels S3BinSharesOf xs a) (hb : Rels S3BinSharesOf ys b)
    (u v : Nat) (w : DotCount) (st : Party → S3St G L) (hst : S3Ok u v w st) :
    EverySchedule (fun i => andMany i (a i) (b i)) st
      (fun c st' => Rels S3BinSharesOf (List.zipWith (· &&& ·) xs ys) c ∧ S3Ok (u + K * xs.length) v w st') :=
  (andMany_wp hK hst ha hb hl).allSchedules

/-- The OR of two bits, and of a list of bits. -/
theorem C40_or (x y : BitVec 1) (a b : Party → S3Share 1) (ha : S3BinSharesOf x a)
    (hb : S3BinSharesOf y b) (u v : Nat) (w : DotCount) (st : Party → S3St G K) (hst : S3Ok u v w st) :
    EverySchedule (fun i => binaryOr i (a i) (b i)) st
      (fun c st' => S3BinSharesOf (x ||| y) c ∧ S3Ok (u + 1) v w st') :=
  (binaryOr_wp hst ha hb).allSchedules

theorem C40_reduce_binary_or (bits : List (BitVec 1)) (hne : bits ≠ []) (a : Party → List (S3Share 1))
    (ha : Rels S3BinSharesOf bits a) (cs : Nat) (hcs : cs ≠ 0) (u v : Nat) (w : DotCount) (st : Party → S3St G K)
    (hst : S3Ok u v w st) :
    EverySchedule (fun i => reduceBinaryOr i (a i) cs) st
      (fun c st' => S3BinSharesOf (bitOf (bits.any bitVal)) c ∧ ∃ u', S3Ok u' v w st') :=
  ((reduceBinaryOr_wp hcs hne hst ha).mono fun _ _ h => ⟨h.1, _, h.2⟩).allSchedules

/-- Vectors of different (outer) lengths are refused before anything is sent. -/
theorem C40_size (me : Party) :
    (∀ a b, a.length ≠ b.length → FailsAtOnce (Swift3.dot (G := G) (K := K) me a b) .invalidSize) ∧
    (∀ a b, a.length ≠ b.length → FailsAtOnce (Swift3.dotMany (G := G) (K := K) me a b) .invalidSize) ∧
    (∀ (L : Nat) (a b : List (S3Share L)), a.length ≠ b.length →
      FailsAtOnce (Swift3.andMany (G := G) (K := K) me a b) .invalidSize) := by
  refine ⟨fun a b hl => ?_, fun a b hl => ?_, fun L a b hl => ?_⟩
  · unfold Swift3.dot; rw [if_pos hl]; exact .throw _
  · unfold Swift3.dotMany; rw [if_pos hl]; exact .throw _
  · unfold Swift3.andMany; rw [if_pos hl]; exact .throw _

/-- Operations in sequence: a multiplication, an opening of the product; the queues filled by the first are checked by
the second, successfully. -/
theorem C40_mul_open (x y : BitVec K) (a b : Party → S3Share K) (ha : S3SharesOf x a) (hb : S3SharesOf y b)
    (u v : Nat) (w : DotCount) (st : Party → S3St G K) (hst : S3Ok u v w st) :
    EverySchedule (fun i => do let c ← Swift3.mul i (a i) (b i); openShare H i c) st
      (fun r st' => (∀ i, r i = x * y) ∧ S3Ok u (v + 1) w st') :=
  (WPS.bind ((mul_wp hst ha hb).mono fun _ _ h => openShare_wp h.1 h.2)).allSchedules

example : S3SharesOf 1234#16 (exS3Share 1234#16) ∧ S3SharesOf 0xffff#16 (exS3Share 0xffff#16) ∧
    S3BinSharesOf 0xbeef#16 (exS3Bin 0xbeef#16) ∧ S3Ok 0 0 ⟨0, 0⟩ (exS3St 16) :=
  ⟨exS3Share_ok _, exS3Share_ok _, exS3Bin_ok _, exS3St_ok _⟩
example : Rels S3SharesOf [1#16, 2, 3] (fun i => [1#16, 2, 3].map (exS3Share · i)) := exS3Shares_ok _

/-! ## C42: the complement -/

/-- `!` on binary sharings of the ABY3 scheme complements the secret. -/
theorem C42_aby3 (x : BitVec K) (s : Party → AShare K) (hs : BinSharesOf x s) :
    BinSharesOf (~~~x) (fun i => (s i).not) := hs.not

/-- `!` on binary sharings of the Swift3 scheme does NOT complement the secret: the result is a sharing of the old
secret (four complements cancel), and of no other value. -/
theorem C42_swift3_not_complement (hK : 0 < K) (x : BitVec K) (s : Party → S3Share K) (hs : S3BinSharesOf x s) :
    S3BinSharesOf x (fun i => (s i).not) ∧ ¬ S3BinSharesOf (~~~x) (fun i => (s i).not) := by
  refine ⟨hs.not, fun h => ?_⟩
  have e : x = ~~~x := hs.not.unique h
  have := congrArg (fun y : BitVec K => y.getLsbD 0) e
  simp [hK] at this

example : BinSharesOf 0xbeef#16 (exBinShare 0xbeef#16) ∧ S3BinSharesOf 0xbeef#16 (exS3Bin 0xbeef#16) :=
  ⟨exBinShare_ok _, exS3Bin_ok _⟩

end Verif
