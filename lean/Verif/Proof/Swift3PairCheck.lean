import Verif.Proof.Swift3PairVerify
import Verif.Proof.Swift3PairReg
/-! # Swift3 verification with a corrupt party: the whole of `verify` -/

namespace Verif

namespace Swift3

variable {G : Prg} {K : Nat} {H : Hash}

/-- What a view looks like after the padding. -/
theorem padded_get (dot mx n : Nat) (l : List (DInput K)) (hn : l.length ≤ n) (q : Nat) (x : DInput K)
    (hx : (padFirst dot mx (resize l n (DInput.new K dot)))[q]? = some x) :
    (∃ g, l[q]? = some g ∧ x = if q < mx then g.pad dot else g) ∨ l.length ≤ q ∧ x = DInput.new K dot := by
  have hpad : (DInput.new K dot).pad dot = DInput.new K dot := by
    simp only [DInput.pad, DInput.new]
    congr 1 <;> (rw [resize_of_le _ _ _ (by simp)]; simp)
  rw [padFirst_get, resize_of_le _ _ _ hn] at hx
  rcases Nat.lt_or_ge q l.length with h | h
  · rw [List.getElem?_append_left h] at hx
    left
    refine ⟨l[q], List.getElem?_eq_getElem h, ?_⟩
    rw [List.getElem?_eq_getElem h] at hx
    split at hx <;> simp_all
  · right
    rw [List.getElem?_append_right h] at hx
    refine ⟨h, ?_⟩
    split at hx
    · obtain ⟨y, hy, rfl⟩ := Option.map_eq_some_iff.1 hx
      obtain rfl := (List.mem_replicate.1 (List.mem_of_getElem? hy)).2
      exact hpad
    · exact (List.mem_replicate.1 (List.mem_of_getElem? hx)).2

theorem padded_get' (dot mx n : Nat) (l : List (DInput K)) (hn : l.length ≤ n) (q : Nat) (g : DInput K) (hg : l[q]? = some g) :
    (padFirst dot mx (resize l n (DInput.new K dot)))[q]? = some (if q < mx then g.pad dot else g) := by
  have h := (List.getElem?_eq_some_iff.1 hg).1
  rw [padFirst_get, resize_of_le _ _ _ hn, List.getElem?_append_left h, hg]
  split <;> simp_all

theorem sized_pad (x : DInput K) (dot : Nat) : (x.pad dot).Sized dot := by
  simp [DInput.Sized, DInput.pad, Poly.length_resize]

theorem sized_new (dot : Nat) : (DInput.new K dot).Sized dot := by simp [DInput.Sized, DInput.new]

/-- After the padding all views have the same size. -/
theorem views_padded {z z' : DProof K} {n : Nat} (h : DPair n z z') (N : Nat) (hN : n ≤ N) :
    (∀ x ∈ padFirst z.dotSize z.maxDot (resize z.verifyPrev N (DInput.new K z.dotSize)), x.Sized z.dotSize) ∧
    (∀ x ∈ padFirst z'.dotSize z'.maxDot (resize z'.verifyNext N (DInput.new K z'.dotSize)), x.Sized z.dotSize) := by
  obtain ⟨⟨h1, h2, h3⟩, ⟨h4, h5, h6⟩, h7, h8, h9⟩ := h
  rw [h7, h8]
  constructor
  · intro x hx
    obtain ⟨q, hq⟩ := List.getElem?_of_mem hx
    rcases padded_get _ _ _ _ (by omega) q x hq with ⟨g, hg, rfl⟩ | ⟨-, rfl⟩
    · have hlt := (List.getElem?_eq_some_iff.1 hg).1
      obtain ⟨k, s1, s2, s3, s4⟩ := h9 q g _ hg (List.getElem?_eq_getElem (i := q) (by omega))
      split
      · exact sized_pad _ _
      · rw [← s4 (by omega)]; exact s1
    · exact sized_new _
  · intro x hx
    obtain ⟨q, hq⟩ := List.getElem?_of_mem hx
    rcases padded_get _ _ _ _ (by omega) q x hq with ⟨g, hg, rfl⟩ | ⟨-, rfl⟩
    · have hlt := (List.getElem?_eq_some_iff.1 hg).1
      obtain ⟨k, s1, s2, s3, s4⟩ := h9 q _ g (List.getElem?_eq_getElem (i := q) (by omega)) hg
      split
      · exact sized_pad _ _
      · rw [← s4 (by omega)]; exact s2
    · exact sized_new _

theorem resize_padTo {n dot : Nat} {l : List (BitVec K)} (hl : l.length = n) (hn : n ≤ dot) : resize l dot 0 = padTo dot l := by
  rw [resize_of_le _ _ _ (by omega)]; rfl

/-- The padding does not change whether a gate is correct. -/
theorem goodDot_pad {n dot : Nat} {x y : DInput K} (hx : x.Sized n) (hy : y.Sized n) (hn : n ≤ dot) :
    GoodDot (x.pad dot) (y.pad dot) ↔ GoodDot x y := by
  obtain ⟨a1, a2, a3, a4⟩ := hx
  obtain ⟨b1, b2, b3, b4⟩ := hy
  have z : ∀ {l l' : List (BitVec K)}, l.length = n → l'.length = n → (List.zipWith (· + ·) l l').length = n := by
    intro l l' h h'; simp [h, h']
  unfold GoodDot DInput.pad
  dsimp only
  rw [resize_padTo a1 hn, resize_padTo a2 hn, resize_padTo a3 hn, resize_padTo a4 hn, resize_padTo b1 hn, resize_padTo b2 hn,
    resize_padTo b3 hn, resize_padTo b4 hn, padTo_add dot (a1.trans b1.symm), padTo_add dot (a2.trans b2.symm),
    padTo_add dot (a3.trans b3.symm), padTo_add dot (a4.trans b4.symm)]
  unfold innerProd
  rw [padTo_mul_sum dot ((z a1 b1).trans (z a3 b3).symm), padTo_mul_sum dot ((z a1 b1).trans (z a4 b4).symm),
    padTo_mul_sum dot ((z a2 b2).trans (z a3 b3).symm)]

theorem Bads.resize {I : Type} {good : I → I → Prop} {l l' : List I} {q : Nat} (h : Bads good l l' q) (d : I) (N : Nat)
    (h1 : l.length ≤ N) (h2 : l'.length ≤ N) : Bads good (resize l N d) (resize l' N d) q := by
  obtain ⟨x, y, hx, hy, hg⟩ := h
  refine ⟨x, y, ?_, ?_, hg⟩
  · rw [resize_of_le _ _ _ h1, List.getElem?_append_left (List.getElem?_eq_some_iff.1 hx).1]; exact hx
  · rw [resize_of_le _ _ _ h2, List.getElem?_append_left (List.getElem?_eq_some_iff.1 hy).1]; exact hy

theorem wrongDot_padded {z z' : DProof K} {n q : Nat} (h : DPair n z z') (N : Nat) (hN : n ≤ N)
    (hw : WrongDot z.verifyPrev z'.verifyNext q) :
    WrongDot (padFirst z.dotSize z.maxDot (resize z.verifyPrev N (DInput.new K z.dotSize)))
      (padFirst z'.dotSize z'.maxDot (resize z'.verifyNext N (DInput.new K z'.dotSize))) q := by
  obtain ⟨⟨h1, h2, h3⟩, ⟨h4, h5, h6⟩, h7, h8, h9⟩ := h
  rw [h7, h8]
  obtain ⟨x, y, hx, hy, hg⟩ := hw
  obtain ⟨k, s1, s2, s3, s4⟩ := h9 q x y hx hy
  refine ⟨_, _, padded_get' _ _ _ _ (by omega) q x hx, padded_get' _ _ _ _ (by omega) q y hy, ?_⟩
  by_cases hq : q < z.maxDot
  · simp only [if_pos hq]
    exact fun h => hg ((goodDot_pad s1 s2 s3).1 h)
  · simp only [if_neg hq]
    exact hg

/-! ## The states after the verifications -/

theorem PairOk.afterAnd {s s' : S3St G K} (h : PairOk s s') : PairOk (afterAnd s) (afterAnd s') := by
  obtain ⟨n, ⟨h1, h2, h3⟩, h4, h5, h6⟩ := h.ands
  have e : s'.andProof.calcParams = s.andProof.calcParams := by unfold ZProof.calcParams ZProof.getMuls; rw [h1, h4]
  refine ⟨⟨h.prf.1, ?_⟩, h.rcv, ⟨s.andProof.calcParams.1 * s.andProof.calcParams.2, ?_, ?_⟩, h.muls, h.dots⟩
  · show (G.genSeed s.prf.pp).2 = (G.genSeed s'.prf.pp).2
    rw [h.prf.2]
  · exact ⟨Poly.length_resize _ _ _, Poly.length_resize _ _ _, Poly.length_resize _ _ _⟩
  · simp only [Swift3.afterAnd, afterSeed, e]
    exact ⟨Poly.length_resize _ _ _, Poly.length_resize _ _ _, Poly.length_resize _ _ _⟩

theorem PairOk.afterMul {s s' : S3St G K} (h : PairOk s s') : PairOk (afterMul s) (afterMul s') := by
  obtain ⟨n, ⟨h1, h2, h3⟩, h4, h5, h6⟩ := h.muls
  have e : s'.mulProof.calcParams = s.mulProof.calcParams := by unfold ZProof.calcParams ZProof.getMuls; rw [h1, h4]
  refine ⟨⟨h.prf.1, ?_⟩, h.rcv, h.ands, ⟨s.mulProof.calcParams.1 * s.mulProof.calcParams.2, ?_, ?_⟩, h.dots⟩
  · show (G.genSeed s.prf.pp).2 = (G.genSeed s'.prf.pp).2
    rw [h.prf.2]
  · exact ⟨Poly.length_resize _ _ _, Poly.length_resize _ _ _, Poly.length_resize _ _ _⟩
  · simp only [Swift3.afterMul, afterSeed, e]
    exact ⟨Poly.length_resize _ _ _, Poly.length_resize _ _ _, Poly.length_resize _ _ _⟩

theorem PairOk.afterDot {s s' : S3St G K} (h : PairOk s s')
    (hn : s.dotProof.proof.length ≤ s.dotProof.calcParams.1 * s.dotProof.calcParams.2) : PairOk (afterDot s) (afterDot s') := by
  obtain ⟨n, hD⟩ := h.dots
  obtain ⟨⟨h1, h2, h3⟩, ⟨h4, h5, h6⟩, h7, h8, h9⟩ := id hD
  have e : s'.dotProof.calcParams = s.dotProof.calcParams := by
    unfold DProof.calcParams DProof.getMuls; rw [h1, h4, h7]
  obtain ⟨v1, v2⟩ := views_padded hD (s.dotProof.calcParams.1 * s.dotProof.calcParams.2) (by omega)
  refine ⟨⟨h.prf.1, ?_⟩, h.rcv, h.ands, h.muls, ⟨s.dotProof.calcParams.1 * s.dotProof.calcParams.2, ?_, ?_, ?_, ?_, ?_⟩⟩
  · show (G.genSeed s.prf.pp).2 = (G.genSeed s'.prf.pp).2
    rw [h.prf.2]
  · refine ⟨?_, ?_, ?_⟩ <;> exact (padFirst_length _ _ _).trans (Poly.length_resize _ _ _)
  · simp only [Swift3.afterDot, afterSeed, e]
    refine ⟨?_, ?_, ?_⟩ <;> exact (padFirst_length _ _ _).trans (Poly.length_resize _ _ _)
  · exact h7
  · exact h8
  · intro q x y hx hy
    simp only [Swift3.afterDot, afterSeed, e] at hx hy
    exact ⟨_, v1 x (List.mem_of_getElem? hx), v2 y (List.mem_of_getElem? hy), le_refl _, fun _ => rfl⟩

theorem mulPart_p2 (hK : 0 < K) (i : Party) (rng rng' : G.S) {s s' : S3St G K} (hI : PairOk s s') :
    P2 i (mulPart H i rng s) (mulPart H i.next rng' s') [] [] fun r r' a b =>
      PairOk a.2 b.2 ∧ Verified s a.2 ∧ Verified s' b.2 ∧ a.2.andProof = s.andProof ∧ b.2.andProof = s'.andProof ∧
      a.2.dotProof = s.dotProof ∧ b.2.dotProof = s'.dotProof ∧ a.2.prf.pp = seedFor s.mulProof.proof.length s.prf.pp ∧
      PartPassed s.mulProof.proof.length (MulPassed H i s.mulProof s'.mulProof s.prf.pp rng rng') (r i.prev) (r' i.prev) := by
  obtain ⟨n, ⟨h1, -⟩, h4, -⟩ := hI.muls
  have e : s'.mulProof.getMuls = s.mulProof.getMuls := h4.trans h1.symm
  unfold mulPart
  proto_norm [ite_apply']
  rw [e]
  by_cases h0 : s.mulProof.proof.length = 0
  · have h0' : s.mulProof.getMuls = 0 := h0
    simp only [h0', ne_eq, not_true_eq_false, if_false]
    refine P2.done ⟨hI, ⟨rfl, rfl, rfl, rfl⟩, ⟨rfl, rfl, rfl, rfl⟩, rfl, rfl, rfl, rfl, ?_, ?_⟩
    · rw [h0]; rfl
    · rw [h0]; exact ⟨rfl, rfl⟩
  · have h0' : s.mulProof.getMuls ≠ 0 := h0
    simp only [if_pos h0']
    refine (mulVerify_p2 hK i rng rng' hI h0).mono ?_
    rintro r r' ⟨-, t⟩ ⟨-, t'⟩ ⟨rfl, rfl, hc⟩
    refine ⟨hI.afterMul, ⟨rfl, rfl, rfl, rfl⟩, ⟨rfl, rfl, rfl, rfl⟩, rfl, rfl, rfl, rfl, ?_, ?_⟩
    · unfold seedFor; rw [if_neg h0]; rfl
    · unfold PartPassed; rw [if_neg h0]; exact hc

theorem andPart_p2 (i : Party) (rng rng' : G.S) {s s' : S3St G K} (hI : PairOk s s') :
    P2 i (andPart H i rng s) (andPart H i.next rng' s') [] [] fun r r' a b =>
      PairOk a.2 b.2 ∧ Verified s a.2 ∧ Verified s' b.2 ∧
      a.2.dotProof = s.dotProof ∧ b.2.dotProof = s'.dotProof ∧ a.2.prf.pp = seedFor s.andProof.proof.length s.prf.pp ∧
      PartPassed s.andProof.proof.length (AndPassed H i s.andProof s'.andProof s.prf.pp rng rng') (r i.prev) (r' i.prev) := by
  obtain ⟨n, ⟨h1, -⟩, h4, -⟩ := hI.ands
  have e : s'.andProof.getMuls = s.andProof.getMuls := h4.trans h1.symm
  unfold andPart
  proto_norm [ite_apply']
  rw [e]
  by_cases h0 : s.andProof.proof.length = 0
  · have h0' : s.andProof.getMuls = 0 := h0
    simp only [h0', ne_eq, not_true_eq_false, if_false]
    refine P2.done ⟨hI, ⟨rfl, rfl, rfl, rfl⟩, ⟨rfl, rfl, rfl, rfl⟩, rfl, rfl, ?_, ?_⟩
    · rw [h0]; rfl
    · rw [h0]; exact ⟨rfl, rfl⟩
  · have h0' : s.andProof.getMuls ≠ 0 := h0
    simp only [if_pos h0']
    refine (andVerify_p2 i rng rng' hI h0).mono ?_
    rintro r r' ⟨-, t⟩ ⟨-, t'⟩ ⟨rfl, rfl, hc⟩
    refine ⟨hI.afterAnd, ⟨rfl, rfl, rfl, rfl⟩, ⟨rfl, rfl, rfl, rfl⟩, rfl, rfl, ?_, ?_⟩
    · unfold seedFor; rw [if_neg h0]; rfl
    · unfold PartPassed; rw [if_neg h0]; exact hc

theorem dotPart_p2 (hK : 0 < K) (i : Party) (rng rng' : G.S) {s s' : S3St G K} (hI : PairOk s s') :
    P2 i (dotPart H i rng s) (dotPart H i.next rng' s') [] [] fun r r' a b =>
      PairOk a.2 b.2 ∧ Verified s a.2 ∧ Verified s' b.2 ∧
      PartPassed s.dotProof.proof.length (DotPassed H i s.dotProof s'.dotProof s.prf.pp rng rng') (r i.prev) (r' i.prev) := by
  obtain ⟨n, ⟨h1, -⟩, ⟨h4, -⟩, h7, -⟩ := hI.dots
  have e : s'.dotProof.getMuls = s.dotProof.getMuls := h4.trans h1.symm
  unfold dotPart
  proto_norm [ite_apply']
  rw [e]
  by_cases h0 : s.dotProof.proof.length = 0
  · have h0' : s.dotProof.getMuls = 0 := h0
    simp only [h0', ne_eq, not_true_eq_false, if_false]
    refine P2.done ⟨hI, ⟨rfl, rfl, rfl, rfl⟩, ⟨rfl, rfl, rfl, rfl⟩, ?_⟩
    rw [h0]; exact ⟨rfl, rfl⟩
  · have h0' : s.dotProof.getMuls ≠ 0 := h0
    simp only [if_pos h0']
    refine (dotVerify_p2 hK i rng rng' hI h0).mono ?_
    rintro r r' ⟨-, t⟩ ⟨-, t'⟩ ⟨rfl, rfl, hc⟩
    refine ⟨hI.afterDot (dot_params_le h0).1, ⟨rfl, rfl, rfl, rfl⟩, ⟨rfl, rfl, rfl, rfl⟩, ?_⟩
    unfold PartPassed; rw [if_neg h0]; exact hc

theorem Verified.trans {s t u : S3St G K} (h : Verified s t) (k : Verified t u) : Verified s u :=
  ⟨k.1.trans h.1, k.2.trans h.2, k.3.trans h.3, k.4.trans h.4⟩

/-- The whole check. -/
theorem verify_p2 (hK : 0 < K) (i : Party) (rg rg' : VerifyRngs G) {s s' : S3St G K} (hI : PairOk s s') :
    P2 i (verify H i rg.mul rg.and rg.dot s) (verify H i.next rg'.mul rg'.and rg'.dot s') [] [] fun r r' a b =>
      PairOk a.2 b.2 ∧ Verified s a.2 ∧ Verified s' b.2 ∧ AllPassed H i s s' rg rg' (r i.prev) (r' i.prev) := by
  rw [verify_parts, verify_parts]
  refine P2.bind (mulPart_p2 (H := H) hK i rg.mul rg'.mul hI) ?_
  rintro r1 r1' ⟨_, t⟩ ⟨_, t'⟩ ⟨h1, h2, h3, e1, e2, e3, e4, e5, h4⟩
  dsimp only at h1 h2 h3 e1 e2 e3 e4 e5 h4 ⊢
  refine P2.bind (andPart_p2 (H := H) i rg.and rg'.and h1) ?_
  rintro r2 r2' ⟨_, u⟩ ⟨_, u'⟩ ⟨k1, k2, k3, f1, f2, f3, k4⟩
  dsimp only at k1 k2 k3 f1 f2 f3 k4 ⊢
  refine (dotPart_p2 (H := H) hK i rg.dot rg'.dot k1).mono ?_
  rintro r3 r3' ⟨_, v⟩ ⟨_, v'⟩ ⟨m1, m2, m3, m4⟩
  dsimp only at m1 m2 m3 m4 ⊢
  rw [e1, e2, e5] at k4
  rw [f1, f2, f3, e1, e5, e3, e4] at m4
  exact ⟨m1, (h2.trans k2).trans m2, (h3.trans k3).trans m3, r1 i.prev, r2 i.prev, r3 i.prev, r1' i.prev, r2' i.prev, r3' i.prev,
    by simp, by simp, h4, k4, m4⟩

end Swift3

end Verif
