import Verif.Spec.Swift3Verify
import Verif.Proof.Swift3Iris
import Verif.Proof.Bincode
import Verif.Proof.ZkSize

/-! # Swift3: coin tossing, exchange of proofs and verifications, honest parties -/

namespace Verif

variable {G : Prg} {K : Nat} {H : Hash}

theorem forall_party' {P : Party → Prop} (h0 : P 0) (h1 : P 1) (h2 : P 2) (i : Party) : P i := by
  fin_cases i <;> assumption

theorem xor3_eq (a b c : Bytes) :
    List.zipWith (fun r (p : Byte × Byte) => r ^^^ (p.1 ^^^ p.2)) a (b.zip c) = xor3 a b c := by
  induction a generalizing b c with
  | nil => rfl
  | cons x a ih =>
    cases b with
    | nil => cases c <;> rfl
    | cons y b => cases c with
      | nil => rfl
      | cons z c =>
        have := ih b c
        simp only [xor3, List.zip_cons_cons, List.zipWith_cons_cons] at this ⊢
        rw [this, BitVec.xor_assoc]

theorem xor3_swap (a b c : Bytes) : xor3 a b c = xor3 b a c := by
  have : List.zipWith (· ^^^ ·) a b = List.zipWith (· ^^^ ·) b a := by
    rw [List.zipWith_comm]
    congr 1
    funext x y; exact BitVec.xor_comm _ _
  unfold xor3
  rw [this]

theorem xor3_rot (a b c : Bytes) : xor3 a b c = xor3 c a b := by
  rw [← xor3_eq, ← xor3_eq]
  induction a generalizing b c with
  | nil => cases c <;> rfl
  | cons x a ih =>
    cases b with
    | nil => cases c <;> rfl
    | cons y b => cases c with
      | nil => rfl
      | cons z c =>
        simp only [List.zip_cons_cons, List.zipWith_cons_cons, ih]
        congr 1
        bitwise

namespace Swift3

theorem coin_wp (rng : Party → G.S) (st : Party → S3St G K) :
    WPS (fun i => coin H i (rng i)) st (fun c st' =>
      (∀ i, c i = xor3 (G.genSeed (rng 0)).1 (G.genSeed (rng 1)).1 (G.genSeed (rng 2)).1) ∧ st' = st) := by
  unfold coin
  let sd : Party → Bytes := fun i => (G.genSeed (rng i)).1
  let rd : Party → Bytes := fun i => (G.genSeed (G.genSeed (rng i)).2).1
  have hs : ∀ i, (sd i).length = 32 := fun i => G.genSeed_length _
  have hrd : ∀ i, (rd i).length = 32 := fun i => G.genSeed_length _
  have e1 : ∀ (f : Party → Bytes) i, idx [f 0, f 1, f 2] (otherIds i).1 = .ok (from1 f f i) :=
    fun f i => by fin_cases i <;> rfl
  have e2 : ∀ (f : Party → Bytes) i, idx [f 0, f 1, f 2] (otherIds i).2 = .ok (from2 f f i) :=
    fun f i => by fin_cases i <;> rfl
  have L1 : ∀ {f : Party → Bytes} {n}, (∀ i, (f i).length = n) → ∀ i, (from1 f f i).length = n := by
    intro f n h i; fin_cases i <;> exact h _
  have L2 : ∀ {f : Party → Bytes} {n}, (∀ i, (f i).length = n) → ∀ i, (from2 f f i).length = n := by
    intro f n h i; fin_cases i <;> exact h _
  let cm : Party → Bytes := fun i => (Commitment.commit H (K := 8) (sd i) (rd i)).comm
  let op : Party → Bytes := fun i => sd i ++ rd i
  have hcl : ∀ i, (cm i).length = Commitment.commSize := fun i => by
    simp [cm, Commitment.commit, H.len, Commitment.commSize]
  have hol : ∀ i, (op i).length = 64 := fun i => by simp [op, hs, hrd]
  refine WPS.bind (WPS.net (WP.broadcast (m := cm) ?_))
  refine WPS.bind (WPS.lift (fun i => e1 cm i) ?_)
  refine WPS.bind (WPS.lift (fun i => e2 cm i) ?_)
  refine WPS.ite_neg (fun i => by simp [L1 hcl, L2 hcl]) ?_
  have hop : ∀ i, ringSliceToBytes (Commitment.commit H (K := 8) (sd i) (rd i)).values ++
      (Commitment.commit H (K := 8) (sd i) (rd i)).rand = op i := fun i => by
    simp only [Commitment.commit, bytes8, op]
  refine WPS.bind (WPS.net ?_)
  rw [show (fun i => broadcast i (ringSliceToBytes (Commitment.commit H (K := 8) (G.genSeed (rng i)).1
    (G.genSeed (G.genSeed (rng i)).2).1).values ++ (Commitment.commit H (K := 8) (G.genSeed (rng i)).1
    (G.genSeed (G.genSeed (rng i)).2).1).rand)) = fun i => broadcast i (op i) from
    funext fun i => congrArg _ (hop i)]
  refine WP.broadcast (m := op) ?_
  refine WPS.bind (WPS.lift (fun i => e1 op i) ?_)
  refine WPS.bind (WPS.lift (fun i => e2 op i) ?_)
  refine WPS.ite_neg (fun i => by simp [L1 hol, L2 hol, G.genSeed_length, Commitment.randSize]) ?_
  have t1 : ∀ i, (from1 op op i).take (G.genSeed (rng i)).1.length = from1 sd sd i ∧
      (from1 op op i).drop (G.genSeed (rng i)).1.length = from1 rd rd i := by
    intro i
    rw [G.genSeed_length]
    fin_cases i <;> exact ⟨List.take_left' (hs _), List.drop_left' (hs _)⟩
  have t2 : ∀ i, (from2 op op i).take (G.genSeed (rng i)).1.length = from2 sd sd i ∧
      (from2 op op i).drop (G.genSeed (rng i)).1.length = from2 rd rd i := by
    intro i
    rw [G.genSeed_length]
    fin_cases i <;> exact ⟨List.take_left' (hs _), List.drop_left' (hs _)⟩
  simp only [(t1 _).1, (t1 _).2, (t2 _).1, (t2 _).2]
  refine WPS.ite_neg (fun i => ?_) ?_
  · fin_cases i <;>
      simp [MalAby3.verifyCommitment, CommitOpening.verify, Commitment.commit, from1, cm]
  refine WPS.ite_neg (fun i => ?_) ?_
  · fin_cases i <;>
      simp [MalAby3.verifyCommitment, CommitOpening.verify, Commitment.commit, from2, cm]
  simp only [xor3_eq]
  refine WPS.pure (a := fun i => xor3 (sd i) (from1 sd sd i) (from2 sd sd i)) ⟨fun i => ?_, rfl⟩
  fin_cases i
  · rfl
  · exact xor3_swap _ _ _
  · exact (xor3_rot _ _ _).symm

variable {T I : Type} [PolyT T] [Bincode T] [LawfulBincode T]

theorem sendReceive_wp (E : ZkEnv G T I) (pf : Party → ZkPf T) (sd : Party → Bytes) (l m : Nat)
    (hpf : ∀ i, LawfulBincode.Fits (pf i)) (hsd : ∀ i, (sd i).length = 32) {st : Party → S3St G K}
    {Q : (Party → ZkPf T × ZkPf T) → (Party → S3St G K) → Prop}
    (h : Q (fun i => (pf i.prev, E.fromSeed (sd i.next) l m)) st) :
    WPS (fun i => sendReceiveDzkp E i (pf i) (sd i) l m) st Q := by
  have e : ∀ i, Bincode.deserialize (ZkPf T) (Bincode.enc (pf i)) = .ok (pf i) := fun i =>
    LawfulBincode.deserialize_enc _ (hpf i)
  have h' : WPS (fun i : Party => (pure (pf i.prev, E.fromSeed (sd i.next) l m) : Proto (S3St G K) _)) st Q :=
    WPS.pure (a := fun i : Party => (pf i.prev, E.fromSeed (sd i.next) l m)) h
  unfold sendReceiveDzkp
  generalize Bincode.deserialize (ZkPf T) = des at *
  generalize (fun i => Bincode.enc (pf i)) = en at *
  generalize E.fromSeed = fs at *
  apply WPS.of3
  proto_norm [Proto.lift]
  run3
  simp only [e]
  proto_norm []
  run3
  simp only [hsd, ne_eq, not_true_eq_false, if_false]
  exact R3.joint rfl rfl rfl h'

theorem sendRecv_wp {α : Type} [Bincode α] [LawfulBincode α] (v : Party → α) (hv : ∀ i, LawfulBincode.Fits (v i))
    {β : Type} {k : Party → α → Proto (S3St G K) β} {st : Party → S3St G K}
    {Q : (Party → β) → (Party → S3St G K) → Prop} (h : WPS (fun i => k i (v i.prev)) st Q) :
    WPS (fun i => (do
      Proto.net (sendNext i (Bincode.enc (v i)))
      let bytes ← Proto.net (recvPrev i)
      let rcv ← Proto.lift (Bincode.deserialize α bytes)
      k i rcv)) st Q := by
  have e : ∀ i, Bincode.deserialize α (Bincode.enc (v i)) = .ok (v i) := fun i =>
    LawfulBincode.deserialize_enc _ (hv i)
  apply WPS.of3
  proto_norm [Proto.lift]
  run3
  simp only [e]
  proto_norm []
  exact R3.joint rfl rfl rfl h

/-- The state after the seed of the thetas has been drawn. -/
def afterSeed (s : S3St G K) : S3St G K := { s with prf := { s.prf with pp := (G.genSeed s.prf.pp).2 } }

theorem zkExchange_wp {S : T → Prop} {E : ZkEnv G T I} (hS : E.Small S) (hfit : ∀ x, S x → LawfulBincode.Fits x)
    (bad : T → Bool) (l m : Nat) (hl : E.circ.wires * l < 2 ^ 64) (hm : 2 * m + 1 < 2 ^ 64) (coords : List T)
    (Ls : List (Poly T)) (z zPrev zNext : Party → List I) (rng : Party → G.S) {st : Party → S3St G K} {pp : G.S}
    (hpp : ∀ i, (st i).prf.pp = pp) {ch : Challenges T} (hch : zkChallenges E bad l m pp rng = some ch)
    {sd : Party → Bytes} {pf : Party → ZkPf T} {rng' : Party → G.S} {v1 v2 : Party → ZkShared T}
    (hp : ∀ j, E.prove l m (z j) (ch.thetas j) Ls (rng j) = .ok (sd j, pf j, rng' j))
    (h1 : ∀ j : Party, E.verifyPi l m (zPrev j.next) (ch.betas j) (ch.r j) Ls coords (pf j) = .ok (v1 j))
    (h2 : ∀ j : Party, E.verifyPi l m (zNext j.prev) (ch.betas j) (ch.r j) Ls coords (E.fromSeed (sd j) l m) = .ok (v2 j)) :
    WPS (fun i => zkExchange H E bad i l m coords Ls (z i) (zPrev i) (zNext i) (rng i)) st
      (fun out st' => (∀ i, out i = (ch.thetas i.next, v1 i.next, v2 i.next)) ∧ ∀ i, st' i = afterSeed (st i)) := by
  obtain ⟨r, hr, rfl⟩ := Option.map_eq_some_iff.1 hch
  dsimp only at hp h1 h2
  have inv := fun j => ZkEnv.prove_inv hS (hp j)
  unfold zkExchange
  refine WPS.bind (WPS.step (f := fun _ s => _) ?_)
  dsimp only
  simp only [hpp]
  refine WPS.bind (WPS.lift (a := fun i => (sd i, pf i, rng' i)) hp ?_)
  dsimp only
  refine WPS.bind (sendReceive_wp E pf sd l m ?_ ?_ ?_)
  · intro i
    refine ⟨⟨?_, fun x hx => hfit x ((inv i).2.2.2.2.1 x hx)⟩, ?_, fun x hx => hfit x ((inv i).2.2.2.2.2 x hx)⟩
    · rw [(inv i).2.2.1]; exact hl
    · rw [(inv i).2.2.2.1]; exact hm
  · intro i
    rw [(inv i).1]; exact G.genSeed_length _
  dsimp only
  refine WPS.bind ((coin_wp rng' _).mono ?_)
  rintro c st2 ⟨hc, rfl⟩
  obtain rfl := funext hc
  obtain rfl : rng' = _ := funext fun j => (inv j).2.1
  dsimp only
  simp only [hr, orHang]
  refine WPS.bind (WPS.pure (a := fun _ => r) ?_)
  have a1 : ∀ i : Party, i.prev.next = i := by decide
  have a2 : ∀ i : Party, i.next.prev = i := by decide
  have a3 : ∀ i : Party, i.prev.prev = i.next := by decide
  refine WPS.bind (WPS.lift (a := fun i => v1 i.prev) (fun i => by have := h1 i.prev; rw [a1] at this; exact this) ?_)
  refine WPS.bind (WPS.lift (a := fun i => v2 i.next) (fun i => by have := h2 i.next; rw [a2] at this; exact this) ?_)
  refine sendRecv_wp (fun i : Party => v1 i.prev) ?_ ?_
  · intro i
    have := ZkEnv.verifyPi_inv hS (h1 i.prev)
    exact ⟨⟨by rw [this.1]; exact hl, fun x hx => hfit x (this.2.1 x hx)⟩, hfit _ this.2.2.1, hfit _ this.2.2.2⟩
  · refine WPS.pure (a := fun i => (_, v1 i.prev.prev, v2 i.next)) ⟨fun i => by show (_, v1 i.prev.prev, _) = _; rw [a3], fun i => ?_⟩
    rw [← hpp i]; rfl

end Swift3
end Verif
