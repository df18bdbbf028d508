import Verif.Proof.UniGates
import Verif.Proof.SpdzLockIris

/-!
# Couplings of the single gates of the SPDZ-wise backend
-/

namespace Verif

open Jmp Spdz

variable {f : Bytes → List Bool} {V K : Nat} {i : Party} {L : Nat}

theorem idx_of_length {α : Type} {l : List α} {n k : Nat} (h : l.length = n) (hk : k < n) : ∃ x, idx l k = .ok x :=
  ⟨l[k]'(by omega), by simp [idx, h, hk]⟩

/-- Storing a product: values from a list of two, put in the queue. -/
theorem pairQueue_cpl {x : Bool → Party → List (AShare V)} (hx : ∀ w j, (x w j).length = 2) :
    CplS i 0 (Buf L) (fun w j => ((do
      let v ← Proto.lift (idx (x w j) 0)
      let m ← Proto.lift (idx (x w j) 1)
      queueAll [⟨v, m⟩]
      pure ⟨v, m⟩) : Proto (SpdzSt (idealPrg f) V) (SShare V))) fun _ t => Buf (L + 1) t := by
  have h0 : ∀ w j, ∃ y, idx (x w j) 0 = .ok y := fun w j => idx_of_length (hx w j) (by omega)
  have h1 : ∀ w j, ∃ y, idx (x w j) 1 = .ok y := fun w j => idx_of_length (hx w j) (by omega)
  choose v hv using h0
  choose m hm using h1
  refine CplS.congr (q := fun w j => (queueAll [⟨v w j, m w j⟩] : Proto (SpdzSt (idealPrg f) V) Unit) >>= fun _ => pure ⟨v w j, m w j⟩) (fun w j => ?_) ?_
  · rw [hv, hm]; rfl
  · exact CplS.bind' (queueAll_cpl (L := L) (n := 1) (fun _ _ => rfl)) fun _ => CplS.pure fun t ht => ht

theorem spdzMul_cpl {a b : Bool → Party → SShare V} :
    CplS i (V * 2 + 0) (Buf L) (fun w j => (Spdz.mul j (a w j) (b w j) : Proto (SpdzSt (idealPrg f) V) _)) fun _ t => Buf (L + 1) t := by
  refine CplS.congr (q := fun w j => viaAby (Aby3.mulLoop [((a w j).value, (b w j).value), ((a w j).mac, (b w j).value)]) >>= fun x =>
    Proto.net (sendSliceAndReceiveIter j x) >>= fun y => (do
      let v ← Proto.lift (idx (List.zipWith AShare.mk x y) 0)
      let m ← Proto.lift (idx (List.zipWith AShare.mk x y) 1)
      queueAll [⟨v, m⟩]
      pure ⟨v, m⟩)) (fun w j => ?_) ?_
  · unfold Spdz.mul Aby3.mulMany viaAby
    simp only [viaPrf_bind, viaPrf_net, viaPrf_pure, viaJmp_bind, viaJmp_pure, viaJmp_net, bind_assoc, pure_bind]
    rfl
  · refine Masked.cpl (m := 2) (fun w j => mulLoop_masked rfl) Talk.iter_id fun x hx => ?_
    refine (pairQueue_cpl (x := fun w j => List.zipWith AShare.mk (x w j) (x w j.prev)) fun w j => by simp [hx]).pre ?_
    rintro _ ⟨t, ht, rfl⟩
    exact ht

theorem spdzDot_cpl {a b : Bool → Party → List (SShare V)} (h : ∀ w j, (a w j).length = (b w j).length) :
    CplS i (V * 2 + 0) (Buf L) (fun w j => (Spdz.dot j (a w j) (b w j) : Proto (SpdzSt (idealPrg f) V) _)) fun _ t => Buf (L + 1) t := by
  unfold Spdz.dot
  refine CplS.ite_neg (fun w j => by simp [h]) ?_
  refine abyDot_cpl (m := 2) (fun _ _ => rfl) (fun _ _ => rfl) (fun w j p hp => ?_) fun x hx => ?_
  · simp only [List.zip_cons_cons, List.zip_nil_right, List.mem_cons, List.not_mem_nil, or_false] at hp
    rcases hp with rfl | rfl <;> simp [h]
  · refine (pairQueue_cpl hx).pre ?_
    rintro _ ⟨t, ht, rfl⟩
    exact ht

/-- The local parts of the values and MACs, in the order of their masks. -/
def spdzDotLoc (ps : List (List (SShare V) × List (SShare V))) : List (BitVec V) :=
  ps.flatMap fun p => [Aby3.dotAcc 0 ((p.1.map (·.value)).zip (p.2.map (·.value))), Aby3.dotAcc 0 ((p.1.map (·.mac)).zip (p.2.map (·.value)))]

theorem spdzDotLoop_eq (ps : List (List (SShare V) × List (SShare V))) (hp : ∀ p ∈ ps, p.1.length = p.2.length) (s : SpdzSt (idealPrg f) V) :
    Spdz.dotLoop ps s = .ret (split2 (maskVals (spdzDotLoc ps) (words V (2 * ps.length) s.jmp.tapeA)
      (words V (2 * ps.length) s.jmp.tapeB)), s.adv (V * (2 * ps.length))) := by
  induction ps generalizing s with
  | nil => rfl
  | cons p ps ih =>
    obtain ⟨a, b⟩ := p
    have hs : ∀ (c : BitVec V) ps, Aby3.dotAcc c ps = Aby3.dotAcc 0 ps + c := fun c ps => by
      rw [Uni.dotAcc_shift, BitVec.add_comm]
    have hl : a.length = b.length := hp (a, b) (by simp)
    have e : Spdz.dotLoop ((a, b) :: ps) s = (Spdz.dotLoop ps ((s.adv V).adv V) >>= fun r =>
        Prog.ret ((Aby3.dotAcc (tapeVal V s.jmp.tapeA - tapeVal V s.jmp.tapeB) ((a.map (·.value)).zip (b.map (·.value))) :: r.1.1,
          Aby3.dotAcc (tapeVal V (s.adv V).jmp.tapeA - tapeVal V (s.adv V).jmp.tapeB) ((a.map (·.mac)).zip (b.map (·.value))) :: r.1.2), r.2)) := by
      conv_lhs => unfold Spdz.dotLoop
      rw [if_neg (by simp [hl])]
      rfl
    rw [e, ih (fun p h => hp p (by simp [h])), show ((s.adv V).adv V).adv (V * (2 * ps.length)) = s.adv (V * (2 * ps.length + 2)) by
      rw [SpdzSt.adv_adv, SpdzSt.adv_adv]; congr 1; ring, List.length_cons, Nat.mul_add 2 _ 1,
      hs (_ - _), hs (tapeVal V (s.adv V).jmp.tapeA - _)]
    rfl

theorem spdzDotMany_cpl {m : Nat} {a b : Bool → Party → List (List (SShare V))} (ha : ∀ w j, (a w j).length = m) (hb : ∀ w j, (b w j).length = m)
    (hp : ∀ w j, ∀ p ∈ (a w j).zip (b w j), p.1.length = p.2.length) :
    CplS i (V * (2 * m)) (Buf L) (fun w j => (Spdz.dotMany j (a w j) (b w j) : Proto (SpdzSt (idealPrg f) V) _))
      fun c t => (∀ w j, (c w j).length = m) ∧ Buf (L + m) t := by
  unfold Spdz.dotMany
  refine CplS.ite_neg (fun w j => by simp [ha, hb]) ?_
  refine CplS.congr (q := fun w j => Spdz.dotLoop ((a w j).zip (b w j)) >>= fun c =>
    Proto.net (sendSlicesAndReceiveIters j c.1 c.2) >>= fun d => (queueAll (List.zipWith (fun (p q : BitVec V × BitVec V) =>
      SShare.mk ⟨p.1, q.1⟩ ⟨p.2, q.2⟩) (c.1.zip c.2) (d.1.zip d.2)) >>= fun _ => pure (List.zipWith (fun (p q : BitVec V × BitVec V) =>
      SShare.mk ⟨p.1, q.1⟩ ⟨p.2, q.2⟩) (c.1.zip c.2) (d.1.zip d.2)))) (fun w j => rfl) ?_
  refine Masked.cpl (n := 0) (m := 2 * m) (out := split2) (res := split2) (fun w j => ?_) (fun x hx h => ?_) fun x hx => ?_
  · refine Masked.add (spdzDotLoc ((a w j).zip (b w j))) ?_ fun s => ?_
    · have : ∀ ps : List (List (SShare V) × List (SShare V)), (spdzDotLoc ps).length = 2 * ps.length := by
        intro ps
        induction ps with
        | nil => rfl
        | cons p ps ih => rw [spdzDotLoc, List.flatMap_cons, List.length_append, ← spdzDotLoc, ih, List.length_cons]; simp; omega
      rw [this, List.length_zip, ha, hb, Nat.min_self]
    · have := spdzDotLoop_eq ((a w j).zip (b w j)) (hp w j) s
      rwa [List.length_zip, ha, hb, Nat.min_self] at this
  · refine Talk.iters (fun w j => ?_) (fun w j => ?_) (by rw [h]) (by rw [h])
    · rw [(split2_length m _ (hx w j)).1, (split2_length m _ (hx w j.prev)).1]
    · rw [(split2_length m _ (hx w j)).2, (split2_length m _ (hx w j.prev)).2]
  · have hl : ∀ w j, (List.zipWith (fun (p q : BitVec V × BitVec V) => SShare.mk ⟨p.1, q.1⟩ ⟨p.2, q.2⟩)
        ((split2 (x w j)).1.zip (split2 (x w j)).2) ((split2 (x w j.prev)).1.zip (split2 (x w j.prev)).2)).length = m := fun w j => by
      have h1 := split2_length m _ (hx w j)
      have h2 := split2_length m _ (hx w j.prev)
      simp only [List.length_zipWith, List.length_zip, h1.1, h1.2, h2.1, h2.2, Nat.min_self]
    refine CplS.bind' ((queueAll_cpl (L := L) hl).pre ?_) fun _ => CplS.pure fun t ht => ⟨hl, ht⟩
    rintro _ ⟨t, ht, rfl⟩
    exact ht

theorem spdzOr_cplB {a b : Bool → Party → AShare 1} :
    CplB (f := f) (V := V) L i (1 * 1) (fun w j => Spdz.binaryOr j (a w j) (b w j)) fun _ => True := by
  unfold Spdz.binaryOr BinOps.or
  exact CplB.bind_local (and_cplB (L := L)) fun c _ => CplB.pure trivial

end Verif
