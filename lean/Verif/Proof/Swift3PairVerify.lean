import Verif.Proof.Swift3PairOpen
import Verif.Proof.Swift3Full
import Verif.Spec.Swift3PairVerify

/-! # Swift3: `verify` with a corrupt party -/

namespace Verif
namespace Swift3
variable {G : Prg} {K : Nat} {H : Hash}

/-- `coin`, with the messages spelled out. -/
def coinProg (H : Hash) (p q : Party) (sd rd : Bytes) (s : S3St G K) : Prog (Bytes × S3St G K) :=
  .send p (H.h (sd ++ rd)) (.send q (H.h (sd ++ rd)) (.recv p fun x => .recv q fun y =>
    if x.length ≠ 64 ∨ y.length ≠ 64 then .fail .invalidMessageSize
    else .send p (sd ++ rd) (.send q (sd ++ rd) (.recv p fun a => .recv q fun b =>
      if a.length ≠ 64 ∨ b.length ≠ 64 then .fail .invalidMessageSize
      else if x ≠ H.h a then .fail (.invalidCommitment p)
      else if y ≠ H.h b then .fail (.invalidCommitment q)
      else .ret (xor3 sd (a.take 32) (b.take 32), s)))))

theorem bcast0 (m : Bytes) : broadcast 0 m = .send 1 m (.send 2 m (.recv 1 fun x => .recv 2 fun y => .ret [m, x, y])) := rfl
theorem bcast1 (m : Bytes) : broadcast 1 m = .send 0 m (.send 2 m (.recv 0 fun x => .recv 2 fun y => .ret [x, m, y])) := rfl
theorem bcast2 (m : Bytes) : broadcast 2 m = .send 0 m (.send 1 m (.recv 0 fun x => .recv 1 fun y => .ret [x, y, m])) := rfl

theorem verifyComm_iff (a x : Bytes) (n : Nat) : (MalAby3.verifyCommitment H (a.take n) (a.drop n) x = false) = (x ≠ H.h a) := by
  simp [MalAby3.verifyCommitment, CommitOpening.verify, bytes8]

theorem ite_apply' {α : Type} {c : Prop} [Decidable c] (p q : Proto (S3St G K) α) (s : S3St G K) :
    (if c then p else q : Proto (S3St G K) α) s = if c then p s else q s := by split <;> rfl

theorem coin0 (rng : G.S) (s : S3St G K) : coin H 0 rng s = coinProg H 1 2
    (G.genSeed rng).1 (G.genSeed (G.genSeed rng).2).1 s := by
  unfold coin coinProg
  have hl : (G.genSeed rng).1.length = 32 := G.genSeed_length _
  s3_norm [bcast0, otherIds, verifyComm_iff, hl, xor3_eq, Commitment.commit, bytes8, ite_apply']
  rfl

theorem coin1 (rng : G.S) (s : S3St G K) : coin H 1 rng s = coinProg H 0 2
    (G.genSeed rng).1 (G.genSeed (G.genSeed rng).2).1 s := by
  unfold coin coinProg
  have hl : (G.genSeed rng).1.length = 32 := G.genSeed_length _
  s3_norm [bcast1, otherIds, verifyComm_iff, hl, xor3_eq, Commitment.commit, bytes8, ite_apply']
  rfl

theorem coin2 (rng : G.S) (s : S3St G K) : coin H 2 rng s = coinProg H 0 1
    (G.genSeed rng).1 (G.genSeed (G.genSeed rng).2).1 s := by
  unfold coin coinProg
  have hl : (G.genSeed rng).1.length = 32 := G.genSeed_length _
  s3_norm [bcast2, otherIds, verifyComm_iff, hl, xor3_eq, Commitment.commit, bytes8, ite_apply']
  rfl

theorem coin_p2 (i : Party) (rng rng' : G.S) (s s' : S3St G K) :
    P2 i (coin H i rng s) (coin H i.next rng' s') [] [] fun r r' a b => ∃ cm op cm' op',
      r i.prev = [cm, op] ∧ r' i.prev = [cm', op'] ∧ Opens H cm op ∧ Opens H cm' op' ∧
      a = (xor3 (G.genSeed rng).1 (G.genSeed rng').1 (op.take 32), s) ∧
      b = (xor3 (G.genSeed rng).1 (G.genSeed rng').1 (op'.take 32), s') := by
  have hl : (G.genSeed rng).1.length = 32 := G.genSeed_length _
  have hl' : (G.genSeed rng').1.length = 32 := G.genSeed_length _
  have t : ∀ x : Bytes, (((G.genSeed rng).1 ++ x).take 32) = (G.genSeed rng).1 := fun x => List.take_left' hl
  have t' : ∀ x : Bytes, (((G.genSeed rng').1 ++ x).take 32) = (G.genSeed rng').1 := fun x => List.take_left' hl'
  rcases (by decide : ∀ i : Party, i = 0 ∨ i = 1 ∨ i = 2) i with rfl | rfl | rfl
  · simp only [Party.next_zero, coin0, coin1, coinProg]
    run2
    rename_i cm cm' g1 g2 op op' g3 g4 g5 g6 g7 g8
    simp only [t, t', not_or, ne_eq, not_not] at g3 g5 g6 g8 ⊢
    exact P2.done ⟨cm, op, cm', op', rfl, rfl, ⟨g3.2, g5⟩, ⟨g6.2, g8⟩, rfl, by rw [xor3_swap]⟩
  · simp only [Party.next_one, coin1, coin2, coinProg]
    run2
    rename_i cm cm' g1 op g2 op' g3 g4 g5 g6 g7 g8
    simp only [t, t', not_or, ne_eq, not_not] at g3 g4 g6 g7 ⊢
    exact P2.done ⟨cm, op, cm', op', rfl, rfl, ⟨g3.1, g4⟩, ⟨g6.1, g7⟩, by rw [xor3_rot, xor3_swap], by rw [xor3_rot]⟩
  · simp only [Party.next_two, coin2, coin0, coinProg]
    run2
    rename_i cm cm' g1 g2 op op' g3 g4 g5 g6 g7 g8
    simp only [t, t', not_or, ne_eq, not_not] at g3 g5 g6 g7 ⊢
    exact P2.done ⟨cm, op, cm', op', rfl, rfl, ⟨g3.2, g5⟩, ⟨g6.1, g7⟩, rfl, by rw [xor3_rot]⟩

variable {T I : Type} [PolyT T] [Bincode T]

omit [PolyT T] in
/-- The exchange of the proofs: `i` gets the bytes of a proof from the corrupt party, `i.next` a seed. -/
theorem sendReceive_p2 (E : ZkEnv G T I) (i : Party) (pf pf' : ZkPf T) (sd sd' : Bytes) (l m : Nat) (hs' : sd'.length = 32) (s s' : S3St G K) :
    P2 i (sendReceiveDzkp E i pf sd l m s) (sendReceiveDzkp E i.next pf' sd' l m s') [] [] fun r r' a b => ∃ pb sb,
      r i.prev = [pb] ∧ r' i.prev = [sb] ∧ sb.length = 32 ∧ Bincode.deserialize (ZkPf T) pb = .ok a.1.1 ∧
      a.2 = s ∧ b.1.2 = E.fromSeed sb l m ∧ b.2 = s' := by
  unfold sendReceiveDzkp
  generalize Bincode.deserialize (ZkPf T) = des
  generalize Bincode.enc pf = e
  generalize Bincode.enc pf' = e'
  generalize E.fromSeed = fs
  rcases (by decide : ∀ i : Party, i = 0 ∨ i = 1 ∨ i = 2) i with rfl | rfl | rfl
  · simp only [Party.next_zero]
    s3_norm [Proto.lift, ite_apply']
    run2
    rename_i pb pf1 h1 pf2 h2 sb g1 g2
    exact P2.done ⟨pb, sb, rfl, rfl, by omega, h1, rfl, rfl, rfl⟩
  · simp only [Party.next_one]
    s3_norm [Proto.lift, ite_apply']
    run2
    rename_i pb pf1 h1 pf2 h2 sb g1 g2
    exact P2.done ⟨pb, sb, rfl, rfl, by omega, h1, rfl, rfl, rfl⟩
  · simp only [Party.next_two]
    s3_norm [Proto.lift, ite_apply']
    run2
    rename_i pb pf1 h1 pf2 h2 sb g1 g2
    exact P2.done ⟨pb, sb, rfl, rfl, by omega, h1, rfl, rfl, rfl⟩

/-- The exchange of the verifications. -/
theorem sendRecv_p2 {α β : Type} (i : Party) (e e' : Bytes) (des : Bytes → Except Err α) {k k' : α → Proto (S3St G K) β}
    (s s' : S3St G K) {Q : (Party → List Bytes) → (Party → List Bytes) → β × S3St G K → β × S3St G K → Prop}
    (h : ∀ vb x y, des vb = .ok x → des e = .ok y →
      P2 i (k x s) (k' y s') [] [] fun r r' => Q (push i.prev vb r) (push i e r')) :
    P2 i ((do
      Proto.net (sendNext i e)
      let bytes ← Proto.net (recvPrev i)
      let rcv ← Proto.lift (des bytes)
      k rcv : Proto (S3St G K) β) s) ((do
      Proto.net (sendNext i.next e')
      let bytes ← Proto.net (recvPrev i.next)
      let rcv ← Proto.lift (des bytes)
      k' rcv : Proto (S3St G K) β) s') [] [] Q := by
  rcases (by decide : ∀ i : Party, i = 0 ∨ i = 1 ∨ i = 2) i with rfl | rfl | rfl
  · simp only [Party.next_zero]
    s3_norm [Proto.lift, ite_apply']
    run2
    rename_i vb x h1 y h2
    exact h vb x y h1 h2
  · simp only [Party.next_one]
    s3_norm [Proto.lift, ite_apply']
    run2
    rename_i vb x h1 y h2
    exact h vb x y h1 h2
  · simp only [Party.next_two]
    s3_norm [Proto.lift, ite_apply']
    run2
    rename_i vb x h1 y h2
    exact h vb x y h1 h2

theorem hangL {β : Type} {i me : Party} {e : Err} {q : Prog β} {u v : List Bytes}
    {Q : (Party → List Bytes) → (Party → List Bytes) → β → β → Prop} : P2 i (.recv me fun _ => .fail e) q u v Q := by
  intro r t r' t' a b h1 _ _ _
  obtain ⟨m, r1, rfl, g1⟩ := Local.recv_ret h1
  exact absurd (Local.fail_inv g1).2.2 (by simp)

theorem hangR {β : Type} {i me : Party} {e : Err} {p : Prog β} {u v : List Bytes}
    {Q : (Party → List Bytes) → (Party → List Bytes) → β → β → Prop} : P2 i p (.recv me fun _ => .fail e) u v Q := by
  intro r t r' t' a b _ h1 _ _
  obtain ⟨m, r1, rfl, g1⟩ := Local.recv_ret h1
  exact absurd (Local.fail_inv g1).2.2 (by simp)

theorem zkVerify_p2 [LawfulBincode T] [DecidableEq T] {S : T → Prop} {E : ZkEnv G T I} (hS : E.Small S) (hfit : ∀ x, S x → LawfulBincode.Fits x)
    (bad : T → Bool) (i : Party) (l m : Nat) (hl : E.circ.wires * l < 2 ^ 64) (coords : List T)
    (Ls : List (Poly T)) (z zPrev zNext z' zPrev' zNext' : List I) (rng rng' : G.S) (s s' : S3St G K)
    (hpp : s.prf.pp = s'.prf.pp) :
    P2 i (zkVerify H E bad i l m coords Ls z zPrev zNext rng s) (zkVerify H E bad i.next l m coords Ls z' zPrev' zNext' rng' s')
      [] [] fun r r' a b => a.2 = afterSeed s ∧ b.2 = afterSeed s' ∧
        ∃ c : CorruptMsgs, r i.prev = c.toFirst ∧ r' i.prev = c.toSecond ∧
          Passed H E bad l m coords Ls i s.prf.pp rng rng' zPrev zNext' c := by
  unfold zkVerify zkExchange genPSeed
  proto_norm [Proto.lift, Prog.bind_assoc']
  refine P2.exceptL fun x hx => P2.exceptR fun x' hx' => ?_
  obtain ⟨sd, pf, rng1⟩ := x
  obtain ⟨sd', pf', rng1'⟩ := x'
  have inv := ZkEnv.prove_inv hS hx
  have inv' := ZkEnv.prove_inv hS hx'
  dsimp only
  refine P2.bind (sendReceive_p2 E i pf pf' sd sd' l m (by rw [inv'.1]; exact G.genSeed_length _) _ _) ?_
  rintro r0 r0' ⟨⟨prf, pfn⟩, s1⟩ ⟨⟨pfp', pfn'⟩, s1'⟩ ⟨pb, sb, e1, e2, hsb, hdes, rfl, f1, rfl⟩
  dsimp only at f1 hdes ⊢
  subst f1
  refine P2.bind (coin_p2 (H := H) i rng1 rng1' _ _) ?_
  rintro r1 r1' a b ⟨cm, op, cm', op', e3, e4, ho, ho', rfl, rfl⟩
  dsimp only
  rw [show (G.genSeed rng1).1 = ownSeed E l rng by rw [inv.2.1]; rfl,
    show (G.genSeed rng1').1 = ownSeed E l rng' by rw [inv'.2.1]; rfl]
  have nn : i.next.next = i.prev := (by decide : ∀ i : Party, i.next.next = i.prev) i
  have np : i.next.prev = i := (by decide : ∀ i : Party, i.next.prev = i) i
  simp only [nn, np]
  rw [show xor3 (ownSeed E l rng) (ownSeed E l rng') (op.take 32) = coinOf E l rng rng' op from rfl,
    show xor3 (ownSeed E l rng) (ownSeed E l rng') (op'.take 32) = coinOf E l rng rng' op' from rfl]
  rcases h1 : redraw3 E.rnd bad (E.rands3 m (G.ofSeed (coinOf E l rng rng' op))).2 with _ | R
  · simp only [orHang, hang]
    proto_norm []
    exact hangL
  rcases h2 : redraw3 E.rnd bad (E.rands3 m (G.ofSeed (coinOf E l rng rng' op'))).2 with _ | R'
  · simp only [orHang, hang]
    proto_norm []
    exact hangR
  simp only [orHang]
  proto_norm []
  refine P2.exceptL fun v1 hv1 => P2.exceptR fun w1 hw1 => ?_
  refine P2.exceptL fun w2 _ => P2.exceptR fun v2 hv2 => ?_
  refine P2.sendL rfl (P2.sendR' rfl (P2.recvL' rfl fun vb => P2.recvR rfl ?_))
  have inv1 := ZkEnv.verifyPi_inv hS hv1
  have fv : LawfulBincode.Fits v1 :=
    ⟨⟨by rw [inv1.1]; exact hl, fun x hx => hfit x (inv1.2.1 x hx)⟩, hfit _ inv1.2.2.1, hfit _ inv1.2.2.2⟩
  rw [LawfulBincode.deserialize_enc v1 fv]
  refine P2.exceptL fun _ _ => ?_
  refine P2.exceptL fun _ _ => ?_
  proto_norm []
  refine P2.exceptR fun u hc => P2.done ⟨rfl, rfl, ⟨pb, cm, op, vb, sb, cm', op'⟩, ?_, ?_, ho, ho', hsb, prf, R i.prev, R' i.prev, v1, v2,
    hdes, ?_, ?_, hv1, hv2, ?_⟩
  · rw [e1, e3, push_same]; rfl
  · rw [e2, e4, push_ne (Party.prev_ne i)]; rfl
  · unfold coinPoint; dsimp only; rw [h1]; rfl
  · unfold coinPoint; dsimp only; rw [h2]; rfl
  · rw [hpp]; exact hc

theorem params_le {n : Nat} (h0 : n ≠ 0) : n ≤ ceilSqrt n * ceilDiv n (ceilSqrt n) ∧ ceilSqrt n ≤ ceilDiv n (ceilSqrt n) + 1 := by
  obtain ⟨hc1, hc2⟩ := ceilSqrt_spec n
  have hl : 0 < ceilSqrt n := by
    rcases Nat.eq_zero_or_pos (ceilSqrt n) with h | h
    · rw [h] at hc1; omega
    · exact h
  obtain ⟨hd1, hd2⟩ := ceilDiv_spec n (ceilSqrt n) hl
  refine ⟨hd1, ?_⟩
  by_contra h
  have := hc2 (ceilDiv n (ceilSqrt n) + 1) (by
    generalize ceilDiv n (ceilSqrt n) = m at *
    generalize ceilSqrt n = l at *
    by_contra h2
    have h3 : ¬ n ≤ (l - 1) * (l - 1) := fun h4 => by have := hc2 _ h4; omega
    have h5 : l * m ≤ (l - 1) * (l - 1) := by
      obtain ⟨k, rfl⟩ : ∃ k, l = m + 2 + k := ⟨l - m - 2, by omega⟩
      have : m + 2 + k - 1 = m + 1 + k := by omega
      rw [this]
      nlinarith
    omega)
  omega

theorem mulModulus_small {K m : Nat} {md : Poly (BitVec K)} (h : mulModulus K m = .ok md) : m ≤ 2 ^ 22 := by
  unfold mulModulus irreduciblePoly at h
  by_contra hm
  have hd : 64 ≤ ceilLog2 (2 * m) + 40 := by
    obtain ⟨-, h2, -⟩ := ceilLog2Loop_spec (2 * m - 1) 0
    rw [Nat.sub_zero] at h2
    change 2 * m - 1 < 2 ^ ceilLog2 (2 * m) at h2
    by_contra hc
    have : 2 ^ ceilLog2 (2 * m) ≤ 2 ^ 23 := Nat.pow_le_pow_right (by norm_num) (by omega)
    omega
  have : irreducibleInner (ceilLog2 (2 * m) + 40) = .error .panic := by
    unfold irreducibleInner
    have hlen : irreducibleTable.length = 24 := rfl
    rw [List.getElem?_eq_none (by omega)]
    split <;> rfl
  rw [this] at h
  cases h
theorem dot_params_le {n size : Nat} (h0 : n ≠ 0) :
    n ≤ ceilDiv n (ceilSqrt ((4 * size + 2) * n)) * ceilSqrt ((4 * size + 2) * n) ∧
      (4 * size + 2) * ceilDiv n (ceilSqrt ((4 * size + 2) * n)) ≤
        ceilSqrt ((4 * size + 2) * n) * ceilSqrt ((4 * size + 2) * n) := by
  obtain ⟨hc1, -⟩ := ceilSqrt_spec ((4 * size + 2) * n)
  have hpos : 0 < (4 * size + 2) * n := Nat.mul_pos (by omega) (by omega)
  have hl : 0 < ceilSqrt ((4 * size + 2) * n) := by
    rcases Nat.eq_zero_or_pos (ceilSqrt ((4 * size + 2) * n)) with h | h
    · rw [h] at hc1; omega
    · exact h
  obtain ⟨hd1, hd2⟩ := ceilDiv_spec n (ceilSqrt ((4 * size + 2) * n)) hl
  refine ⟨by rw [Nat.mul_comm]; exact hd1, le_trans (Nat.mul_le_mul_left _ (hd2 n (Nat.le_mul_of_pos_left n hl))) hc1⟩

theorem andSetParameters_err (l m : Nat) (hsec : ¬ 2 ^ 40 * (2 * m + 1) < 2 ^ 64 - m) (z : ZProof Bool) :
    ∃ e, andSetParameters z l m = .error e := by
  have hs : andSecure m = false := by
    rw [Bool.eq_false_iff]
    exact fun h => hsec ((andSecure_iff m).1 h)
  unfold andSetParameters
  rw [hs]
  cases z.setParameters ⟨false, false, false, false, false, false⟩ l m with
  | error e => exact ⟨e, rfl⟩
  | ok w => exact ⟨.panic, rfl⟩

theorem andVerify_p2 (i : Party) (rng rng' : G.S) {s s' : S3St G K} (hI : PairOk s s') (h0 : s.andProof.proof.length ≠ 0) :
    P2 i (andVerify H i rng s) (andVerify H i.next rng' s') [] [] fun r r' a b => a.2 = afterAnd s ∧ b.2 = afterAnd s' ∧
      ∃ c : CorruptMsgs, r i.prev = c.toFirst ∧ r' i.prev = c.toSecond ∧
        AndPassed H i s.andProof s'.andProof s.prf.pp rng rng' c := by
  obtain ⟨n, ⟨h1, h2, h3⟩, h4, h5, h6⟩ := hI.ands
  have hg : s.andProof.calcParams = (ceilSqrt n, ceilDiv n (ceilSqrt n)) := by
    unfold ZProof.calcParams ZProof.getMuls; rw [h1]
  have hg' : s'.andProof.calcParams = (ceilSqrt n, ceilDiv n (ceilSqrt n)) := by
    unfold ZProof.calcParams ZProof.getMuls; rw [h4]
  rw [h1] at h0
  obtain ⟨hle, hlm⟩ := params_le h0
  unfold andVerify AndPassed
  simp only [afterAnd, hg, hg', h1]
  generalize ceilSqrt n = l at *
  generalize ceilDiv n l = m at *
  by_cases hsec : 2 ^ 40 * (2 * m + 1) < 2 ^ 64 - m
  swap
  · obtain ⟨e, he⟩ := andSetParameters_err l m hsec s.andProof
    proto_norm [Proto.lift, Prog.bind_assoc', hg, hg', he]
    exact P2.failL
  have hl22 : 6 * l < 2 ^ 64 := by omega
  proto_norm [Proto.lift, Prog.bind_assoc', hg, hg', andSetParameters_ok l m hsec _ (h1.le.trans hle),
    andSetParameters_ok l m hsec _ (h4.le.trans hle)]
  refine P2.exceptL fun Ls hLs => ?_
  rw [hLs]
  proto_norm []
  refine (zkVerify_p2 (H := H) (and_small G) (fun _ _ => trivial) (andBad m) i l m hl22 _ Ls _ _ _ _ _ _ rng rng' _ _ ?_).mono ?_
  · exact hI.prf.2
  · rintro r r' a b ⟨e1, e2, c, e3, e4, e5⟩
    exact ⟨e1, e2, c, e3, e4, Ls, _, _, rfl, rfl, rfl, e5⟩

theorem mulVerify_p2 (hK : 0 < K) (i : Party) (rng rng' : G.S) {s s' : S3St G K} (hI : PairOk s s')
    (h0 : s.mulProof.proof.length ≠ 0) :
    P2 i (mulVerify H i rng s) (mulVerify H i.next rng' s') [] [] fun r r' a b => a.2 = afterMul s ∧ b.2 = afterMul s' ∧
      ∃ c : CorruptMsgs, r i.prev = c.toFirst ∧ r' i.prev = c.toSecond ∧
        MulPassed H i s.mulProof s'.mulProof s.prf.pp rng rng' c := by
  obtain ⟨n, ⟨h1, h2, h3⟩, h4, h5, h6⟩ := hI.muls
  have hg : s.mulProof.calcParams = (ceilSqrt n, ceilDiv n (ceilSqrt n)) := by
    unfold ZProof.calcParams ZProof.getMuls; rw [h1]
  have hg' : s'.mulProof.calcParams = (ceilSqrt n, ceilDiv n (ceilSqrt n)) := by
    unfold ZProof.calcParams ZProof.getMuls; rw [h4]
  rw [h1] at h0
  obtain ⟨hle, hlm⟩ := params_le h0
  unfold mulVerify MulPassed
  simp only [afterMul, hg, hg', h1]
  generalize ceilSqrt n = l at *
  generalize ceilDiv n l = m at *
  have hset : ∀ z : ZProof (BitVec K), z.proof.length = n → z.setParameters ⟨0, 0, 0, 0, 0, 0⟩ l m =
      .ok ⟨l, m, resize z.proof (l * m) ⟨0, 0, 0, 0, 0, 0⟩, resize z.verifyPrev (l * m) ⟨0, 0, 0, 0, 0, 0⟩,
        resize z.verifyNext (l * m) ⟨0, 0, 0, 0, 0, 0⟩⟩ := by
    intro z hz
    unfold ZProof.setParameters
    rw [if_pos (by show z.proof.length ≤ _; rw [hz]; exact hle)]
  proto_norm [Proto.lift, Prog.bind_assoc', hg, hg', hset _ h1, hset _ h4]
  refine P2.exceptL fun md emd => ?_
  rw [emd]
  proto_norm []
  have hm22 := mulModulus_small emd
  have hl22 : 6 * l < 2 ^ 64 := by omega
  obtain ⟨md', dd, emd', -, hd, hmon, -, -, -, -⟩ := mulModulus_spec hK m hm22
  obtain rfl := Except.ok.inj (emd.symm.trans emd')
  refine P2.exceptL fun Ls hLs => ?_
  rw [hLs]
  proto_norm []
  refine (zkVerify_p2 (H := H) (poly_small hK (mulEnv G K md) hd hmon (fun _ => rfl) (fun _ => rfl)) fits_poly mulBad i l m
    hl22 _ Ls _ _ _ _ _ _ rng rng' _ _ ?_).mono ?_
  · exact hI.prf.2
  · rintro r r' a b ⟨e1, e2, c, e3, e4, e5⟩
    exact ⟨e1, e2, c, e3, e4, md, Ls, _, _, rfl, hLs, rfl, rfl, e5⟩

theorem dotVerify_p2 (hK : 0 < K) (i : Party) (rng rng' : G.S) {s s' : S3St G K} (hI : PairOk s s')
    (h0 : s.dotProof.proof.length ≠ 0) :
    P2 i (dotVerify H i rng s) (dotVerify H i.next rng' s') [] [] fun r r' a b => a.2 = afterDot s ∧ b.2 = afterDot s' ∧
      ∃ c : CorruptMsgs, r i.prev = c.toFirst ∧ r' i.prev = c.toSecond ∧
        DotPassed H i s.dotProof s'.dotProof s.prf.pp rng rng' c := by
  obtain ⟨n, ⟨h1, h2, h3⟩, ⟨h4, h5, h6⟩, h7, h8, -⟩ := hI.dots
  have hg : s.dotProof.calcParams = (ceilDiv n (ceilSqrt ((4 * s.dotProof.dotSize + 2) * n)),
      ceilSqrt ((4 * s.dotProof.dotSize + 2) * n)) := by
    unfold DProof.calcParams DProof.getMuls; rw [h1]
  have hg' : s'.dotProof.calcParams = (ceilDiv n (ceilSqrt ((4 * s.dotProof.dotSize + 2) * n)),
      ceilSqrt ((4 * s.dotProof.dotSize + 2) * n)) := by
    unfold DProof.calcParams DProof.getMuls; rw [h4, h7]
  rw [h1] at h0
  obtain ⟨hle, hln⟩ := dot_params_le (size := s.dotProof.dotSize) h0
  unfold dotVerify DotPassed
  simp only [afterDot, hg, hg', h1]
  generalize ceilSqrt ((4 * s.dotProof.dotSize + 2) * n) = m at *
  generalize ceilDiv n m = l at *
  have hset : ∀ z : DProof K, z.proof.length = n → z.setParameters l m = .ok (dotPadded z l m) := by
    intro z hz
    unfold DProof.setParameters
    rw [if_pos (by show z.proof.length ≤ _; rw [hz]; exact hle)]
    rfl
  have hsz : (dotPadded s'.dotProof l m).dotSize = s.dotProof.dotSize := h7
  have hsz' : (dotPadded s.dotProof l m).dotSize = s.dotProof.dotSize := rfl
  have hl : ∀ z : DProof K, (dotPadded z l m).l = l ∧ (dotPadded z l m).m = m := fun _ => ⟨rfl, rfl⟩
  proto_norm [Proto.lift, Prog.bind_assoc', hg, hg', hset _ h1, hset _ h4, hsz, hsz', hl]
  refine P2.exceptL fun md emd => ?_
  rw [emd]
  proto_norm [hsz, hsz', hl]
  have hm22 := mulModulus_small emd
  have hwl : (4 * s.dotProof.dotSize + 2) * l < 2 ^ 64 := by
    have : m * m ≤ 2 ^ 22 * 2 ^ 22 := Nat.mul_le_mul hm22 hm22
    omega
  obtain ⟨md', dd, emd', -, hd, hmon, -, -, -, -⟩ := mulModulus_spec hK m hm22
  obtain rfl := Except.ok.inj (emd.symm.trans emd')
  refine P2.exceptL fun Ls hLs => ?_
  rw [hLs]
  proto_norm []
  refine (zkVerify_p2 (H := H) (poly_small hK (dotEnv G K md s.dotProof.dotSize) hd hmon (fun _ => rfl) (fun _ => rfl)) fits_poly
    mulBad i l m hwl _ Ls _ _ _ _ _ _ rng rng' _ _ ?_).mono ?_
  · exact hI.prf.2
  · rintro r r' a b ⟨e1, e2, c, e3, e4, e5⟩
    exact ⟨e1, e2, c, e3, e4, md, Ls, _, _, rfl, hLs, rfl, rfl, e5⟩
end Swift3
end Verif
