import Verif.Spec.Swift3Setup
import Verif.Proof.Swift3Coins

/-! # Set-up of the Swift3 generators with a corrupt party -/

namespace Verif
namespace Swift3
variable {G : Prg} {K : Nat} {H : Hash}

/-- `setup_prf_from_seed`, with the messages spelled out. -/
def setupProg (H : Hash) (p q : Party) (f : Bytes → Bytes → Bytes → S3Prf G) (x : SetupIn) (s : S3St G K) : Prog (Unit × S3St G K) :=
  .send p (H.h (x.s0 ++ x.r0) ++ H.h (x.s2 ++ x.r2)) (.send q (H.h (x.s1 ++ x.r1) ++ H.h (x.s2 ++ x.r2))
    (.recv p fun c => .recv q fun d =>
    if c.length ≠ 128 ∨ d.length ≠ 128 then .fail .invalidMessageSize
    else .send p (x.s0 ++ x.r0 ++ x.s2 ++ x.r2) (.send q (x.s1 ++ x.r1 ++ x.s2 ++ x.r2) (.recv p fun a => .recv q fun b =>
      if a.length ≠ 128 ∨ b.length ≠ 128 then .fail .invalidMessageSize
      else if c.take 64 ≠ H.h (a.take 64) ∨ c.drop 64 ≠ H.h (a.drop 64) then .fail (.invalidCommitment p)
      else if d.take 64 ≠ H.h (b.take 64) ∨ d.drop 64 ≠ H.h (b.drop 64) then .fail (.invalidCommitment q)
      else .ret ((), { s with
        prf := f (xor2 x.s0 (a.take 32)) (xor2 x.s1 (b.take 32)) (xor3 x.s2 (commonSeed a) (commonSeed b)) })))))

theorem verifyComm_fst (a c : Bytes) :
    (MalAby3.verifyCommitment H (a.take 32) ((a.drop 32).take 32) c = false) = (c ≠ H.h (a.take 64)) := by
  have : a.take 32 ++ (a.drop 32).take 32 = a.take 64 := (List.take_add (i := 32) (j := 32)).symm
  simp [MalAby3.verifyCommitment, CommitOpening.verify, bytes8, this]

theorem verifyComm_snd (a c : Bytes) :
    (MalAby3.verifyCommitment H ((a.drop 64).take 32) (a.drop 96) c = false) = (c ≠ H.h (a.drop 64)) := by
  have : (a.drop 64).take 32 ++ a.drop 96 = a.drop 64 := by
    rw [show a.drop 96 = (a.drop 64).drop 32 by rw [List.drop_drop], List.take_append_drop]
  simp [MalAby3.verifyCommitment, CommitOpening.verify, bytes8, this]

theorem zip_xor2 (a b : Bytes) : List.zipWith (fun a b => b ^^^ a) a b = xor2 a b := by
  unfold xor2; simp only [BitVec.xor_comm]

theorem zip_xor3 (a b c : Bytes) : List.zipWith (fun a (p : Byte × Byte) => p.1 ^^^ a ^^^ p.2) a (b.zip c) = xor3 a b c := by
  rw [← xor3_eq]
  congr 1
  funext x p
  rw [BitVec.xor_comm p.1, BitVec.xor_assoc]

theorem setup0 (x : SetupIn) (hx : x.Sized) (s : S3St G K) : setupPrfFromSeed H 0 x.s0 x.s1 x.s2 x.r0 x.r1 x.r2 s =
    setupProg H 1 2 .new x s := by
  unfold setupPrfFromSeed setupProg
  have hs : x.s0.length = 32 := hx.1
  have hc : Commitment.commSize = 64 := rfl
  have hr : Commitment.randSize = 32 := rfl
  have n1 : 2 * 64 = 128 := rfl
  have n2 : 32 + 32 = 64 := rfl
  have n3 : 2 * 32 + 64 = 128 := rfl
  have n4 : 2 * 32 + 32 = 96 := rfl
  s3_norm [otherIds, hs, hc, hr, n1, n2, n3, n4, verifyComm_fst, verifyComm_snd, Commitment.commit, Commitment.opening, bytes8, ite_apply', zip_xor2, zip_xor3]
  rfl

theorem setup1 (x : SetupIn) (hx : x.Sized) (s : S3St G K) : setupPrfFromSeed H 1 x.s0 x.s1 x.s2 x.r0 x.r1 x.r2 s =
    setupProg H 0 2 (fun a b c => .new b a c) x s := by
  unfold setupPrfFromSeed setupProg
  have hs : x.s0.length = 32 := hx.1
  have hc : Commitment.commSize = 64 := rfl
  have hr : Commitment.randSize = 32 := rfl
  have n1 : 2 * 64 = 128 := rfl
  have n2 : 32 + 32 = 64 := rfl
  have n3 : 2 * 32 + 64 = 128 := rfl
  have n4 : 2 * 32 + 32 = 96 := rfl
  s3_norm [otherIds, hs, hc, hr, n1, n2, n3, n4, verifyComm_fst, verifyComm_snd, Commitment.commit, Commitment.opening, bytes8, ite_apply', zip_xor2, zip_xor3]
  rfl

theorem setup2 (x : SetupIn) (hx : x.Sized) (s : S3St G K) : setupPrfFromSeed H 2 x.s0 x.s1 x.s2 x.r0 x.r1 x.r2 s =
    setupProg H 0 1 .new x s := by
  unfold setupPrfFromSeed setupProg
  have hs : x.s0.length = 32 := hx.1
  have hc : Commitment.commSize = 64 := rfl
  have hr : Commitment.randSize = 32 := rfl
  have n1 : 2 * 64 = 128 := rfl
  have n2 : 32 + 32 = 64 := rfl
  have n3 : 2 * 32 + 64 = 128 := rfl
  have n4 : 2 * 32 + 32 = 96 := rfl
  s3_norm [otherIds, hs, hc, hr, n1, n2, n3, n4, verifyComm_fst, verifyComm_snd, Commitment.commit, Commitment.opening, bytes8, ite_apply', zip_xor2, zip_xor3]
  rfl

theorem split128 {a b c d : Bytes} (ha : a.length = 32) (hb : b.length = 32) (hc : c.length = 32) :
    (a ++ b ++ c ++ d).take 32 = a ∧ (a ++ b ++ c ++ d).take 64 = a ++ b ∧ (a ++ b ++ c ++ d).drop 64 = c ++ d ∧
      commonSeed (a ++ b ++ c ++ d) = c := by
  have e : (a ++ b ++ c ++ d).drop 64 = c ++ d := by
    rw [List.append_assoc, List.drop_left' (by simp [ha, hb])]
  refine ⟨(split4 (m := 32) ha hb hc).1, ?_, e, ?_⟩
  · rw [List.append_assoc, List.take_left' (by simp [ha, hb])]
  · unfold commonSeed
    rw [e, List.take_left' hc]

theorem xor2_comm (a b : Bytes) : xor2 a b = xor2 b a := by
  unfold xor2; rw [List.zipWith_comm]; simp only [BitVec.xor_comm]

theorem setup_p2 (i : Party) (x x' : SetupIn) (hx : x.Sized) (hx' : x'.Sized) (s s' : S3St G K) :
    P2 i (setupPrfFromSeed H i x.s0 x.s1 x.s2 x.r0 x.r1 x.r2 s)
      (setupPrfFromSeed H i.next x'.s0 x'.s1 x'.s2 x'.r0 x'.r1 x'.r2 s') [] [] fun r r' a b => ∃ cm op cm' op',
      r i.prev = [cm, op] ∧ r' i.prev = [cm', op'] ∧ SetupOpens H cm op ∧ SetupOpens H cm' op' ∧
      a.2 = { s with
        prf := .new (xor2 (x.to i i.next) (x'.to i.next i)) (xor2 (x.to i i.prev) (op.take 32)) (xor3 x.s2 x'.s2 (commonSeed op)) } ∧
      b.2 = { s' with
        prf := .new (xor2 (x'.to i.next i.prev) (op'.take 32)) (xor2 (x.to i i.next) (x'.to i.next i)) (xor3 x.s2 x'.s2 (commonSeed op')) } := by
  obtain ⟨a0, a1, a2, b0, b1, b2⟩ := hx
  obtain ⟨a0', a1', a2', b0', b1', b2'⟩ := hx'
  have key : ∀ {cm op : Bytes}, cm.length = 128 → op.length = 128 → cm.take 64 = H.h (op.take 64) → cm.drop 64 = H.h (op.drop 64) →
      SetupOpens H cm op := fun {cm op} h1 h2 h3 h4 => ⟨h1, h2, by rw [← h3, ← h4, List.take_append_drop]⟩
  rcases (by decide : ∀ i : Party, i = 0 ∨ i = 1 ∨ i = 2) i with rfl | rfl | rfl
  · simp only [Party.next_zero, setup0 x ⟨a0, a1, a2, b0, b1, b2⟩, setup1 x' ⟨a0', a1', a2', b0', b1', b2'⟩, setupProg]
    run2
    rename_i cm cm' g1 g2 op op' g3 g4 g5 g6 g7 g8
    simp only [not_or, ne_eq, not_not] at g1 g2 g3 g5 g6 g8
    obtain ⟨t1, -, -, t4⟩ := split128 (d := x.r2) a0 b0 a2
    obtain ⟨u1, -, -, u4⟩ := split128 (d := x'.r2) a0' b0' a2'
    rw [t1, t4, u1, u4, xor3_swap x'.s2, xor2_comm x'.s0]
    exact P2.done ⟨cm, op, cm', op', rfl, rfl, key g1.2 g3.2 g5.1 g5.2, key g2.2 g6.2 g8.1 g8.2, rfl, rfl⟩
  · simp only [Party.next_one, setup1 x ⟨a0, a1, a2, b0, b1, b2⟩, setup2 x' ⟨a0', a1', a2', b0', b1', b2'⟩, setupProg]
    run2
    rename_i cm cm' g1 op g2 op' g3 g4 g5 g6 g7 g8
    simp only [not_or, ne_eq, not_not] at g1 g2 g3 g4 g6 g7
    obtain ⟨t1, -, -, t4⟩ := split128 (d := x.r2) a1 b1 a2
    obtain ⟨u1, -, -, u4⟩ := split128 (d := x'.r2) a1' b1' a2'
    rw [t1, t4, u1, u4, xor3_rot x.s2 (commonSeed op), xor3_swap x'.s2 x.s2, xor3_rot x'.s2 (commonSeed op'), xor2_comm x'.s1]
    exact P2.done ⟨cm, op, cm', op', rfl, rfl, key g1.1 g3.1 g4.1 g4.2, key g2.1 g6.1 g7.1 g7.2, rfl, rfl⟩
  · simp only [Party.next_two, setup2 x ⟨a0, a1, a2, b0, b1, b2⟩, setup0 x' ⟨a0', a1', a2', b0', b1', b2'⟩, setupProg]
    run2
    rename_i cm cm' g1 g2 op op' g3 g4 g5 g6 g7 g8
    simp only [not_or, ne_eq, not_not] at g1 g2 g3 g5 g6 g7
    obtain ⟨t1, -, -, t4⟩ := split128 (d := x.r2) a0 b0 a2
    obtain ⟨u1, -, -, u4⟩ := split128 (d := x'.r2) a1' b1' a2'
    rw [t1, t4, u1, u4, xor3_rot x'.s2, xor2_comm x'.s1]
    exact P2.done ⟨cm, op, cm', op', rfl, rfl, key g1.2 g3.2 g5.1 g5.2, key g2.1 g6.1 g7.1 g7.2, rfl, rfl⟩

/-- Every party `k ≠ i.prev` runs the set-up, `i.prev` runs `twoSeeds`. -/
def twoSetup (H : Hash) (i : Party) (x : Party → SetupIn) (o o' e : Bytes) (k : Party) : Proto (S3St G K) Unit :=
  if k = i.prev then twoSeeds H i o o' e
  else setupPrfFromSeed H k (x k).s0 (x k).s1 (x k).s2 (x k).r0 (x k).r1 (x k).r2

theorem twoSetup_wp (i : Party) (x : Party → SetupIn) (hx : ∀ k, (x k).Sized) (o o' e : Bytes) (ho : o.length = 128)
    (ho' : o'.length = 128) (st : Party → S3St G K) :
    WPS (twoSetup H i x o o' e) st fun _ st' =>
      st' i = { st i with
        prf := .new (xor2 ((x i).to i i.next) ((x i.next).to i.next i)) (xor2 ((x i).to i i.prev) (o.take 32))
          (xor3 (x i).s2 (x i.next).s2 (commonSeed o)) } ∧
      st' i.next = { st i.next with
        prf := .new (xor2 ((x i.next).to i.next i.prev) (o'.take 32)) (xor2 ((x i).to i i.next) ((x i.next).to i.next i))
          (xor3 (x i).s2 (x i.next).s2 (commonSeed o')) } ∧
      st' i.prev = { st i.prev with
        prf := .new (xor2 ((x i).to i i.prev) (o.take 32)) (xor2 ((x i.next).to i.next i.prev) (o'.take 32))
          (xor3 (x i).s2 (x i.next).s2 e) } := by
  have H64 : ∀ a b, (H.h a ++ H.h b).length = 128 := fun a b => by simp [H.len]
  have Ht : ∀ a b, (H.h a ++ H.h b).take 64 = H.h a := fun a b => List.take_left' (H.len _)
  have Hd : ∀ a b, (H.h a ++ H.h b).drop 64 = H.h b := fun a b => List.drop_left' (H.len _)
  have L : ∀ {a b c d : Bytes}, a.length = 32 → b.length = 32 → c.length = 32 → d.length = 32 → (a ++ b ++ c ++ d).length = 128 :=
    fun h1 h2 h3 h4 => by simp [h1, h2, h3, h4]
  apply WPS.of3
  rcases (by decide : ∀ i : Party, i = 0 ∨ i = 1 ∨ i = 2) i with rfl | rfl | rfl
  · have c0 : twoSetup (G := G) (K := K) H 0 x o o' e 0 = setupPrfFromSeed H 0 (x 0).s0 (x 0).s1 (x 0).s2 (x 0).r0 (x 0).r1 (x 0).r2 := rfl
    have c1 : twoSetup (G := G) (K := K) H 0 x o o' e 1 = setupPrfFromSeed H 1 (x 1).s0 (x 1).s1 (x 1).s2 (x 1).r0 (x 1).r1 (x 1).r2 := rfl
    have c2 : twoSetup (G := G) (K := K) H 0 x o o' e 2 = twoSeeds H 0 o o' e := rfl
    obtain ⟨a0, a1, a2, b0, b1, b2⟩ := hx 0
    obtain ⟨a0', a1', a2', b0', b1', b2'⟩ := hx 1
    rw [c0, c1, c2, setup0 (x 0) (hx 0), setup1 (x 1) (hx 1)]
    simp only [Party.next_zero, Party.prev_zero, setupProg, twoSeeds]
    run3
    simp only [H64, Ht, Hd, ne_eq, not_true_eq_false, or_self, if_false]
    run3
    have l1 := L a0 b0 a2 b2
    have l2 := L a0' b0' a2' b2'
    obtain ⟨t1, t2, t3, t4⟩ := split128 (d := (x 0).r2) a0 b0 a2
    obtain ⟨u1, u2, u3, u4⟩ := split128 (d := (x 1).r2) a0' b0' a2'
    obtain ⟨v1, -, -, v4⟩ := split128 (d := (x 0).r2) a1 b1 a2
    obtain ⟨w1, -, -, w4⟩ := split128 (d := (x 1).r2) a1' b1' a2'
    simp only [ho, ho', l1, l2, t1, t2, t3, t4, u1, u2, u3, u4, v1, v4, w1, w4, Ht, Hd, ne_eq, not_true_eq_false, or_self, if_false]
    apply R3.done
    intro r h0 h1 h2
    simp only [h0, h1, h2]
    rw [xor3_swap (x 1).s2, xor2_comm (x 1).s0]
    exact ⟨rfl, rfl, rfl⟩
  · have c0 : twoSetup (G := G) (K := K) H 1 x o o' e 0 = twoSeeds H 1 o o' e := rfl
    have c1 : twoSetup (G := G) (K := K) H 1 x o o' e 1 = setupPrfFromSeed H 1 (x 1).s0 (x 1).s1 (x 1).s2 (x 1).r0 (x 1).r1 (x 1).r2 := rfl
    have c2 : twoSetup (G := G) (K := K) H 1 x o o' e 2 = setupPrfFromSeed H 2 (x 2).s0 (x 2).s1 (x 2).s2 (x 2).r0 (x 2).r1 (x 2).r2 := rfl
    obtain ⟨a0, a1, a2, b0, b1, b2⟩ := hx 1
    obtain ⟨a0', a1', a2', b0', b1', b2'⟩ := hx 2
    rw [c0, c1, c2, setup1 (x 1) (hx 1), setup2 (x 2) (hx 2)]
    simp only [Party.next_one, Party.prev_one, setupProg, twoSeeds]
    run3
    simp only [H64, Ht, Hd, ne_eq, not_true_eq_false, or_self, if_false]
    run3
    have l1 := L a1 b1 a2 b2
    have l2 := L a1' b1' a2' b2'
    obtain ⟨t1, t2, t3, t4⟩ := split128 (d := (x 1).r2) a1 b1 a2
    obtain ⟨u1, u2, u3, u4⟩ := split128 (d := (x 2).r2) a1' b1' a2'
    obtain ⟨v1, -, -, v4⟩ := split128 (d := (x 1).r2) a0 b0 a2
    obtain ⟨w1, -, -, w4⟩ := split128 (d := (x 2).r2) a0' b0' a2'
    simp only [ho, ho', l1, l2, t1, t2, t3, t4, u1, u2, u3, u4, v1, v4, w1, w4, Ht, Hd, ne_eq, not_true_eq_false, or_self, if_false]
    apply R3.done
    intro r h0 h1 h2
    simp only [h0, h1, h2]
    rw [xor3_rot (x 1).s2 (commonSeed o), xor3_swap (x 2).s2 (x 1).s2, xor3_rot (x 2).s2 (commonSeed o'), xor2_comm (x 2).s1]
    exact ⟨rfl, rfl, rfl⟩
  · have c0 : twoSetup (G := G) (K := K) H 2 x o o' e 0 = setupPrfFromSeed H 0 (x 0).s0 (x 0).s1 (x 0).s2 (x 0).r0 (x 0).r1 (x 0).r2 := rfl
    have c1 : twoSetup (G := G) (K := K) H 2 x o o' e 1 = twoSeeds H 2 o o' e := rfl
    have c2 : twoSetup (G := G) (K := K) H 2 x o o' e 2 = setupPrfFromSeed H 2 (x 2).s0 (x 2).s1 (x 2).s2 (x 2).r0 (x 2).r1 (x 2).r2 := rfl
    obtain ⟨a0, a1, a2, b0, b1, b2⟩ := hx 2
    obtain ⟨a0', a1', a2', b0', b1', b2'⟩ := hx 0
    rw [c0, c1, c2, setup0 (x 0) (hx 0), setup2 (x 2) (hx 2)]
    simp only [Party.next_two, Party.prev_two, setupProg, twoSeeds]
    run3
    simp only [H64, Ht, Hd, ne_eq, not_true_eq_false, or_self, if_false]
    run3
    have l1 := L a0 b0 a2 b2
    have l2 := L a1' b1' a2' b2'
    obtain ⟨t1, t2, t3, t4⟩ := split128 (d := (x 2).r2) a0 b0 a2
    obtain ⟨u1, u2, u3, u4⟩ := split128 (d := (x 0).r2) a1' b1' a2'
    obtain ⟨v1, -, -, v4⟩ := split128 (d := (x 2).r2) a1 b1 a2
    obtain ⟨w1, -, -, w4⟩ := split128 (d := (x 0).r2) a0' b0' a2'
    simp only [ho, ho', l1, l2, t1, t2, t3, t4, u1, u2, u3, u4, v1, v4, w1, w4, Ht, Hd, ne_eq, not_true_eq_false, or_self, if_false]
    apply R3.done
    intro r h0 h1 h2
    simp only [h0, h1, h2]
    rw [xor3_rot (x 0).s2 (commonSeed o'), xor2_comm (x 0).s1]
    exact ⟨rfl, rfl, rfl⟩

/-! ## Input and opening when the common generators differ -/

theorem jmpVerify_queues {st : Party → S3St G K} (hI : S3QueuesOk st) :
    WPS (fun i => jmpVerify H i) st (fun _ st' => S3QueuesOk st') := by
  obtain ⟨q1, q2, q3, q4, q5, q6⟩ := queues hI
  have e0 : ∀ (s : S3St G K), jmpVerify H 0 s = (.send 1 (H.h s.sendQNext) (.send 2 (H.h s.sendQPrev)
      (.recv 2 fun rp => .recv 1 fun rn => (if rp ≠ H.h s.rcvQPrev ∨ rn ≠ H.h s.rcvQNext then Proto.throw .jmpVerify
        else pure () : Proto (S3St G K) Unit) { s with sendQNext := [], sendQPrev := [], rcvQNext := [], rcvQPrev := [] }))) :=
    fun s => rfl
  have e1 : ∀ (s : S3St G K), jmpVerify H 1 s = (.send 2 (H.h s.sendQNext) (.send 0 (H.h s.sendQPrev)
      (.recv 0 fun rp => .recv 2 fun rn => (if rp ≠ H.h s.rcvQPrev ∨ rn ≠ H.h s.rcvQNext then Proto.throw .jmpVerify
        else pure () : Proto (S3St G K) Unit) { s with sendQNext := [], sendQPrev := [], rcvQNext := [], rcvQPrev := [] }))) :=
    fun s => rfl
  have e2 : ∀ (s : S3St G K), jmpVerify H 2 s = (.send 0 (H.h s.sendQNext) (.send 1 (H.h s.sendQPrev)
      (.recv 1 fun rp => .recv 0 fun rn => (if rp ≠ H.h s.rcvQPrev ∨ rn ≠ H.h s.rcvQNext then Proto.throw .jmpVerify
        else pure () : Proto (S3St G K) Unit) { s with sendQNext := [], sendQPrev := [], rcvQNext := [], rcvQPrev := [] }))) :=
    fun s => rfl
  apply WPS.of3
  simp only [e0, e1, e2]
  run3
  simp only [q1, q2, q3, q4, q5, q6, ne_eq, not_true, or_self, if_false, Proto.pure_apply]
  refine R3.done fun r k0 k1 k2 => ?_
  exact queues_mk (by simp [k0, k2]) (by simp [k0, k1]) (by simp [k1, k2]) (by simp [k0, k1]) (by simp [k1, k2])
      (by simp [k0, k2])

theorem openExchange_queues {L : Nat} {st : Party → S3St G K} {s : Party → S3Share L} (hs : ∀ i, (s i).b = (s (Party.prev i)).a)
    (hI : S3QueuesOk st) :
    WPS (fun i => openExchange i (s i)) st (fun r st' => (∀ i, r i = (s (Party.next i)).a) ∧ S3QueuesOk st') := by
  obtain ⟨q1, q2, q3, q4, q5, q6⟩ := queues hI
  have b0 := hs 0; have b1 := hs 1; have b2 := hs 2
  simp only [Party.prev_zero, Party.prev_one, Party.prev_two] at b0 b1 b2
  unfold openExchange
  apply WPS.of3
  simp only
  s3_norm []
  run3
  s3_norm []
  refine R3.done fun r k0 k1 k2 => ⟨?_, ?_⟩
  · exact forall_party.2 ⟨by simp [k0], by simp [k1, b0], by simp [k2]⟩
  · exact queues_mk (by simp [k0, k2, q1, b2]) (by simp [k0, k1, q2]) (by simp [k1, k2, q3, b1]) (by simp [k0, k1, q4])
      (by simp [k1, k2, q5, b0]) (by simp [k0, k2, q6])

/-- `open` does not use the generators. -/
theorem openShare_queues {x : BitVec K} {s : Party → S3Share K} {st : Party → S3St G K} (hs : S3SharesOf x s) (hI : S3QueuesOk st) :
    WPS (fun i => openShare H i (s i)) st (fun r st' => (∀ i, r i = x) ∧ S3QueuesOk st') := by
  unfold openShare
  refine WPS.bind ((jmpVerify_queues hI).mono ?_)
  rintro _ st1 hI
  refine WPS.bind ((openExchange_queues hs.2 hI).mono ?_)
  rintro r st2 ⟨hr, hI⟩
  refine WPS.bind ((jmpVerify_queues hI).mono ?_)
  rintro _ st3 hI
  refine WPS.pure ⟨?_, hI⟩
  refine forall_party.2 ⟨?_, ?_, ?_⟩ <;> simp only [hs.1, hs.2, hr, Party.prev_zero, Party.prev_one, Party.prev_two,
    Party.next_zero, Party.next_one, Party.next_two] <;> ring

/-- `input` when the other two parties have a common generator different from that of the dealer. -/
theorem input_shifted {id : Party} {x : BitVec K} {inp : Party → Option (BitVec K)} {st : Party → S3St G K} (hx : inp id = some x)
    (hq : S3QueuesOk st) (hp : ∀ i, (st i).prf.p1 = (st i.next).prf.p2) (hpp : (st id.prev).prf.pp = (st id.next).prf.pp) :
    WPS (fun i => input i (inp i) id.val) st
      (fun s st' => S3SharesOf (x + (G.gen K (st id).prf.pp).1 - (G.gen K (st id.next).prf.pp).1) s ∧ S3QueuesOk st') := by
  obtain ⟨q1, q2, q3, q4, q5, q6⟩ := queues hq
  have p01 : (st 1).prf.p2 = (st 0).prf.p1 := (hp 0).symm
  have p12 : (st 2).prf.p2 = (st 1).prf.p1 := (hp 1).symm
  have p20 : (st 0).prf.p2 = (st 2).prf.p1 := (hp 2).symm
  apply WPS.of3
  match id with
  | 0 =>
    simp only [Party.prev_zero, Party.next_zero] at hpp ⊢
    have e0 : ∀ (s : S3St G K), input 0 (some x) 0 s = (do
        let alpha1 ← gen1 K
        let alpha2 ← genP K
        let alpha3 ← gen2 K
        let beta := x + (alpha2 + alpha1 + alpha3)
        Proto.net (sendValue 0 beta 1)
        jmpSend 0 beta 2
        pure ⟨alpha1, alpha3, beta⟩ : Proto (S3St G K) (S3Share K)) s := fun s => rfl
    have e1 : ∀ (s : S3St G K) o, input 1 o 0 s = (do
        let alpha1 ← gen2 K
        let alpha2 ← genP K
        let beta ← Proto.net (receiveValue K 1 0)
        jmpQueue 1 beta 2
        pure ⟨alpha2, alpha1, beta⟩ : Proto (S3St G K) (S3Share K)) s := fun s _ => rfl
    have e2 : ∀ (s : S3St G K) o, input 2 o 0 s = (do
        let alpha2 ← genP K
        let alpha3 ← gen1 K
        let beta ← jmpReceive K 2 0
        pure ⟨alpha3, alpha2, beta⟩ : Proto (S3St G K) (S3Share K)) s := fun s _ => rfl
    simp only [Fin.val_zero, hx, e0, e1, e2]
    s3_norm [gen1, gen2, genP]
    run3
    s3_norm []
    refine R3.done fun r k0 k1 k2 => ⟨?_, ?_⟩
    · refine .mk' ?_ ?_ ?_ ?_ ?_ ?_ <;> simp only [k0, k1, k2, p01, p12, p20, hpp] <;> ring
    · exact queues_mk (by simp [k0, k2, q1]) (by simp [k0, k1, q2]) (by simp [k1, k2, q3]) (by simp [k0, k1, q4])
        (by simp [k1, k2, q5]) (by simp [k0, k2, q6])
  | 1 =>
    simp only [Party.prev_one, Party.next_one] at hpp ⊢
    have e1 : ∀ (s : S3St G K), input 1 (some x) 1 s = (do
        let alpha1 ← gen2 K
        let alpha2 ← gen1 K
        let alpha3 ← genP K
        let beta := x + (alpha3 + alpha1 + alpha2)
        Proto.net (sendValue 1 beta 2)
        jmpSend 1 beta 0
        pure ⟨alpha2, alpha1, beta⟩ : Proto (S3St G K) (S3Share K)) s := fun s => rfl
    have e2 : ∀ (s : S3St G K) o, input 2 o 1 s = (do
        let alpha2 ← gen2 K
        let alpha3 ← genP K
        let beta ← Proto.net (receiveValue K 2 1)
        jmpQueue 2 beta 0
        pure ⟨alpha3, alpha2, beta⟩ : Proto (S3St G K) (S3Share K)) s := fun s _ => rfl
    have e0 : ∀ (s : S3St G K) o, input 0 o 1 s = (do
        let alpha1 ← gen1 K
        let alpha3 ← genP K
        let beta ← jmpReceive K 0 1
        pure ⟨alpha1, alpha3, beta⟩ : Proto (S3St G K) (S3Share K)) s := fun s _ => rfl
    simp only [Fin.val_one, hx, e0, e1, e2]
    s3_norm [gen1, gen2, genP]
    run3
    s3_norm []
    refine R3.done fun r k0 k1 k2 => ⟨?_, ?_⟩
    · refine .mk' ?_ ?_ ?_ ?_ ?_ ?_ <;> simp only [k0, k1, k2, p01, p12, p20, hpp] <;> ring
    · exact queues_mk (by simp [k0, k2, q1]) (by simp [k0, k1, q2]) (by simp [k1, k2, q3]) (by simp [k0, k1, q4])
        (by simp [k1, k2, q5]) (by simp [k0, k2, q6])
  | 2 =>
    simp only [Party.prev_two, Party.next_two] at hpp ⊢
    have e2 : ∀ (s : S3St G K), input 2 (some x) 2 s = (do
        let alpha1 ← genP K
        let alpha2 ← gen2 K
        let alpha3 ← gen1 K
        let beta := x + (alpha1 + alpha2 + alpha3)
        Proto.net (sendValue 2 beta 1)
        jmpSend 2 beta 0
        pure ⟨alpha3, alpha2, beta⟩ : Proto (S3St G K) (S3Share K)) s := fun s => rfl
    have e1 : ∀ (s : S3St G K) o, input 1 o 2 s = (do
        let alpha1 ← genP K
        let alpha2 ← gen1 K
        let beta ← Proto.net (receiveValue K 1 2)
        jmpQueue 1 beta 0
        pure ⟨alpha2, alpha1, beta⟩ : Proto (S3St G K) (S3Share K)) s := fun s _ => rfl
    have e0 : ∀ (s : S3St G K) o, input 0 o 2 s = (do
        let alpha1 ← genP K
        let alpha3 ← gen2 K
        let beta ← jmpReceive K 0 2
        pure ⟨alpha1, alpha3, beta⟩ : Proto (S3St G K) (S3Share K)) s := fun s _ => rfl
    simp only [Fin.val_two, hx, e0, e1, e2]
    s3_norm [gen1, gen2, genP]
    run3
    s3_norm []
    refine R3.done fun r k0 k1 k2 => ⟨?_, ?_⟩
    · refine .mk' ?_ ?_ ?_ ?_ ?_ ?_ <;> simp only [k0, k1, k2, p01, p12, p20, hpp] <;> ring
    · exact queues_mk (by simp [k0, k2, q1]) (by simp [k0, k1, q2]) (by simp [k1, k2, q3]) (by simp [k0, k1, q4])
        (by simp [k1, k2, q5]) (by simp [k0, k2, q6])

end Swift3
end Verif
