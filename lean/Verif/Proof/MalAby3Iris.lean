import Verif.Proof.MalAby3
import Verif.Proof.IrisInst

/-! # Input, set-up and the iris protocol over the malicious backend, honest parties -/
namespace Verif
variable {G : Prg} {K V : Nat}
namespace MalAby3
open Jmp
variable {st : Party → JmpSt G} {H : Hash}

set_option linter.unusedSimpArgs false in
theorem input_wp {id : Party} {x : BitVec K} {inp : Party → Option (BitVec K)} (hx : inp id = some x) (hI : JmpOk st) :
    WPS (fun i => input i (inp i) id.val) st (fun s st' => SharesOf x s ∧ JmpOk st') := by
  unfold input
  refine WPS.ite_neg (fun i => by omega) ?_
  refine WPS.bind ((genRand_wp hI).mono ?_)
  rintro s st1 ⟨hs, hI⟩
  have hs0 := hs 0
  have hs1 := hs 1
  have hs2 := hs 2
  have q0 := hI.2 0
  have q1 := hI.2 1
  have q2 := hI.2 2
  simp only [Party.prev_zero, Party.prev_one, Party.prev_two, Party.next_zero, Party.next_one, Party.next_two] at hs0 hs1 hs2 q0 q1 q2
  have fin : ∀ (j : Party) {s' : Party → AShare K} {st' : Party → JmpSt G} (v : BitVec K)
      (_ : v = x - ((s j).a + (s j).b + (s j.prev).b))
      (_ : s' j = ⟨(s j).a + v, (s j).b⟩) (_ : s' j.next = ⟨(s j.next).a, (s j.next).b + v⟩) (_ : s' j.prev = s j.prev)
      (_ : st' j = { st1 j with rcvQueueNext := (st1 j).rcvQueueNext ++ toBytes (s j.prev).b })
      (_ : st' j.next = { st1 j.next with sendQueuePrev := (st1 j.next).sendQueuePrev ++ toBytes (s j.next).a })
      (_ : st' j.prev = st1 j.prev), SharesOf x s' ∧ JmpOk st' := by
    intro j s' st' v hv h1 h2 h3 h4 h5 h6
    match j with
    | 0 =>
      simp only [Party.prev_zero, Party.next_zero] at h1 h2 h3 h4 h5 h6 hv
      refine ⟨.mk' ?_ ?_ ?_ ?_, ?_, ?_⟩
      · rw [h1, h2, h3, hv, hs0, hs2]; ring
      · rw [h1, h3]; exact hs0
      · rw [h1, h2, hs1]
      · rw [h2, h3]; exact hs2
      · have := hI.1; intro i; have := this i; match i with
        | 0 => simpa [h4, h6] using this
        | 1 => simpa [h4, h5] using this
        | 2 => simpa [h5, h6] using this
      · intro i; match i with
        | 0 => simp [h4, h5, q0, hs2]
        | 1 => simp [h5, h6, q1]
        | 2 => simp [h4, h6, q2]
    | 1 =>
      simp only [Party.prev_one, Party.next_one] at h1 h2 h3 h4 h5 h6 hv
      refine ⟨.mk' ?_ ?_ ?_ ?_, ?_, ?_⟩
      · rw [h1, h2, h3, hv, hs0, hs1]; ring
      · rw [h2, h3]; exact hs0
      · rw [h1, h3]; exact hs1
      · rw [h1, h2, hs2]
      · have := hI.1; intro i; have := this i; match i with
        | 0 => simpa [h5, h6] using this
        | 1 => simpa [h4, h6] using this
        | 2 => simpa [h4, h5] using this
      · intro i; match i with
        | 0 => simp [h4, h6, q0]
        | 1 => simp [h4, h5, q1, hs0]
        | 2 => simp [h5, h6, q2]
    | 2 =>
      simp only [Party.prev_two, Party.next_two] at h1 h2 h3 h4 h5 h6 hv
      refine ⟨.mk' ?_ ?_ ?_ ?_, ?_, ?_⟩
      · rw [h1, h2, h3, hv, hs1, hs2]; ring
      · rw [h1, h2, hs0]
      · rw [h2, h3]; exact hs1
      · rw [h1, h3]; exact hs2
      · have := hI.1; intro i; have := this i; match i with
        | 0 => simpa [h4, h5] using this
        | 1 => simpa [h5, h6] using this
        | 2 => simpa [h4, h6] using this
      · intro i; match i with
        | 0 => simp [h5, h6, q0]
        | 1 => simp [h4, h6, q1]
        | 2 => simp [h4, h5, q2, hs1]
  apply WPS.of3
  match id with
  | 0 =>
    simp only [reconstructId, jmpReceive, jmpSend, jmpBuffer, sendValueNext, sendValuePrev, receiveValueNext, receiveValuePrev]
    proto_norm [hx]
    norm_num
    proto_norm [hx]
    repeat (run3; proto_norm [fromBytes_toBytes, Prog.bind, if_true])
    exact R3.done fun r h0 h1 h2 => fin 0 _ rfl (by simp [h0, h1, h2]) (by simp [h0, h1, h2]) (by simp [h0, h1, h2]) (by simp [h0, h1, h2]) (by simp [h0, h1, h2]) (by simp [h0, h1, h2])
  | 1 =>
    simp only [reconstructId, jmpReceive, jmpSend, jmpBuffer, sendValueNext, sendValuePrev, receiveValueNext, receiveValuePrev]
    proto_norm [hx]
    norm_num
    proto_norm [hx]
    repeat (run3; proto_norm [fromBytes_toBytes, Prog.bind, if_true])
    exact R3.done fun r h0 h1 h2 => fin 1 _ rfl (by simp [h0, h1, h2]) (by simp [h0, h1, h2]) (by simp [h0, h1, h2]) (by simp [h0, h1, h2]) (by simp [h0, h1, h2]) (by simp [h0, h1, h2])
  | 2 =>
    simp only [reconstructId, jmpReceive, jmpSend, jmpBuffer, sendValueNext, sendValuePrev, receiveValueNext, receiveValuePrev]
    proto_norm [hx]
    norm_num
    proto_norm [hx]
    repeat (run3; proto_norm [fromBytes_toBytes, Prog.bind, if_true])
    exact R3.done fun r h0 h1 h2 => fin 2 _ rfl (by simp [h0, h1, h2]) (by simp [h0, h1, h2]) (by simp [h0, h1, h2]) (by simp [h0, h1, h2]) (by simp [h0, h1, h2]) (by simp [h0, h1, h2])

theorem inputAll_wp (x : Party → BitVec K) (hI : JmpOk st) :
    WPS (fun i => inputAll i (x i)) st (fun s st' => Rels SharesOf [x 0, x 1, x 2] s ∧ JmpOk st') := by
  unfold inputAll
  refine WPS.bind ((input_wp (id := 0) (x := x 0) (inp := fun i => if i = 0 then some (x i) else none) (by simp) hI).mono ?_)
  rintro s0 st1 ⟨h0, hI⟩
  refine WPS.bind ((input_wp (id := 1) (x := x 1) (inp := fun i => if i = 1 then some (x i) else none) (by simp) hI).mono ?_)
  rintro s1 st2 ⟨h1, hI⟩
  refine WPS.bind ((input_wp (id := 2) (x := x 2) (inp := fun i => if i = 2 then some (x i) else none) (by simp) hI).mono ?_)
  rintro s2 st3 ⟨h2, hI⟩
  exact WPS.pure (a := fun i => [s0 i, s1 i, s2 i]) ⟨.cons h0 (.cons h1 (.singleton h2)), hI⟩

/-! ## Set-up -/

/-- Everybody sends to its successor, then to its predecessor, and receives from the successor, then from the
predecessor. -/
theorem WP.bothWays {α : Type} {x y : Party → Bytes} {k : Party → Bytes → Bytes → Prog α} {Q : (Party → α) → Prop}
    (h : WP (fun i => k i (y i.next) (x i.prev)) Q) :
    WP (fun i => .send i.next (x i) (.send i.prev (y i) (.recv i.next fun a => .recv i.prev fun b => k i a b))) Q := by
  apply WP.of3
  show R3 (.send 1 (x 0) (.send 2 (y 0) (.recv 1 fun a => .recv 2 fun b => k 0 a b)))
    (.send 2 (x 1) (.send 0 (y 1) (.recv 2 fun a => .recv 0 fun b => k 1 a b)))
    (.send 0 (x 2) (.send 1 (y 2) (.recv 0 fun a => .recv 1 fun b => k 2 a b))) [] [] [] [] [] [] Q
  run3
  exact R3.joint rfl rfl rfl h

theorem WPS.bothWays {σ α : Type} {x y : Party → Bytes} {k : Party → Bytes → Bytes → Proto σ α} {st : Party → σ}
    {Q : (Party → α) → (Party → σ) → Prop} (h : WPS (fun i => k i (y i.next) (x i.prev)) st Q) :
    WPS (fun i => (do
      Proto.net (sendNext i (x i))
      Proto.net (sendPrev i (y i))
      let a ← Proto.net (recvNext i)
      let b ← Proto.net (recvPrev i)
      k i a b)) st Q :=
  WP.bothWays (k := fun i a b => k i a b (st i)) h

/-- The generators a party ends up with. -/
def setupKeys {G : Prg} (seed1 seed2 : Party → Bytes) (i : Party) : Prf G :=
  Prf.new (List.zipWith (fun a b => b ^^^ a) (seed1 i) (seed2 i.next))
    (List.zipWith (fun a b => b ^^^ a) (seed2 i) (seed1 i.prev))

theorem setup_wp (seed1 seed2 rand1 rand2 : Party → Bytes) (h1 : ∀ i, (seed1 i).length = 32)
    (h2 : ∀ i, (seed2 i).length = 32) (h3 : ∀ i, (rand1 i).length = 32) (h4 : ∀ i, (rand2 i).length = 32)
    (st : Party → JmpSt G) :
    WPS (fun i => setupPrfFromSeed H i (seed1 i) (seed2 i) (rand1 i) (rand2 i)) st
      (fun _ st' => ∀ i, st' i = { st i with prf := setupKeys seed1 seed2 i }) := by
  have e8 : ∀ l : Bytes, ringSliceToBytes (K := 8) l = l := by
    intro l
    induction l with
    | nil => rfl
    | cons x l ih =>
      have : toBytes x = [x] := by
        simp [toBytes, byteLen, beBytes]
      rw [ringSliceToBytes, List.flatMap_cons, this, ← ringSliceToBytes, ih]; rfl
  unfold setupPrfFromSeed
  refine WPS.bothWays (x := fun i => (Commitment.commit H (K := 8) (seed1 i) (rand1 i)).comm)
    (y := fun i => (Commitment.commit H (K := 8) (seed2 i) (rand2 i)).comm) ?_
  refine WPS.ite_neg (fun i => by simp [Commitment.commit, H.len, Commitment.commSize]) ?_
  refine WPS.bothWays (x := fun i => ringSliceToBytes (K := 8) (seed1 i) ++ rand1 i)
    (y := fun i => ringSliceToBytes (K := 8) (seed2 i) ++ rand2 i) ?_
  simp only [e8]
  refine WPS.ite_neg (fun i => by simp [h1, h2, h3, h4, Commitment.randSize]) ?_
  have t1 : ∀ i j, (seed2 i ++ rand2 i).take (seed1 j).length = seed2 i := fun i j => List.take_left' (by rw [h1, h2])
  have d1 : ∀ i j, (seed2 i ++ rand2 i).drop (seed1 j).length = rand2 i := fun i j => List.drop_left' (by rw [h1, h2])
  have t2 : ∀ i j, (seed1 i ++ rand1 i).take (seed1 j).length = seed1 i := fun i j => List.take_left' (by rw [h1, h1])
  have d2 : ∀ i j, (seed1 i ++ rand1 i).drop (seed1 j).length = rand1 i := fun i j => List.drop_left' (by rw [h1, h1])
  simp only [t1, d1, t2, d2]
  refine WPS.ite_neg (fun i => by simp [verifyCommitment, CommitOpening.verify, Commitment.commit]) ?_
  refine WPS.ite_neg (fun i => by simp [verifyCommitment, CommitOpening.verify, Commitment.commit]) ?_
  exact WPS.step fun i => rfl

theorem setup_ok {seed1 seed2 : Party → Bytes} {st st' : Party → JmpSt G}
    (hq : ∀ i, (st i).rcvQueueNext = (st i.next).sendQueuePrev)
    (h : ∀ i, st' i = { st i with prf := setupKeys seed1 seed2 i }) : JmpOk st' := by
  refine ⟨fun i => ?_, fun i => ?_⟩
  · simp only [h, setupKeys, Prf.new, Party.next_prev]
    congr 1
    rw [List.zipWith_comm]
    simp only [BitVec.xor_comm]
  · simp only [h, hq]

/-! ## The iris protocol -/

theorem mpcLawful (G : Prg) (H : Hash) (hV : 40 ≤ verifWidth K - K) (hK : K ≠ 0) (s : Bool) :
    MpcLawful (MalAby3.ops G H K s) (SharesOf (K := K)) BinSharesOf JmpOk JmpOk
      (fun _ _ st => JmpOk st) (fun _ _ => True) (fun _ => 0) (fun _ => 0) (fun cs => cs * 128 < 2 ^ 64) where
  maskedDotMany := by
    intro n u st xs a yss masks b hI hx ha hb hl hm _
    exact defaultMaskedDotMany_wp (P := JmpOk) (R := SharesOf) (zero := AShare.zero K)
      (dotMany := fun i => dotMany H i) SharesOf.zero (fun ha hb hl => dotMany_wp hV hI ha hb hl) ha hx hb hl hm
  filter := by
    intro p q m a b ha hb
    exact AShare.filterReduce_rel m ha hb (MpcLawful.encode_length p) (MpcLawful.encode_length q)
  add := fun ha hb => ha.add hb
  sub := fun ha hb => ha.sub hb
  mulConst := fun c _ ha => by
    have := ha.mulConst c
    rw [BitVec.ofNat_toNat, BitVec.setWidth_eq]; exact this
  subConst := fun c _ _ ha => by
    have := ha.subConst c
    rw [BitVec.ofNat_toNat, BitVec.setWidth_eq]; exact this
  getMsb := fun {n u st x a} hI ha => (getMsb_wp hK hI ha).mono fun r st' ⟨h, hI'⟩ =>
    ⟨by rw [BitVec.setWidth_eq]; exact h, 0, hI'⟩
  getMsbMany := fun {n u st xs a} hne hI ha => (getMsbMany_wp hK hI ha).mono fun r st' ⟨h, hI'⟩ =>
    ⟨by simp only [BitVec.setWidth_eq]; exact h, hI'⟩
  reduceBinaryOr := fun hcs hok hne hI ha => reduceBinaryOr_wp hcs hok hne hI ha
  precompute := fun hI => WPS.pure (a := fun _ => ()) hI
  verify := fun hI _ => WPS.pure (a := fun _ => ()) hI
  openBit := fun hI hs => openBit_wp H hs hI

end MalAby3
end Verif
