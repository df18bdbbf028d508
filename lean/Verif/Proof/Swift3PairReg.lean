import Verif.Proof.Swift3PairPost
import Verif.Proof.Swift3Gates

/-! # Swift3: the gates registered by the two honest parties for a corrupt prover -/

namespace Verif

variable {K L : Nat}

/-- Two entries at the same position that do not satisfy `good`. -/
def Bads {I : Type} (good : I → I → Prop) (l l' : List I) (q : Nat) : Prop :=
  ∃ x y, l[q]? = some x ∧ l'[q]? = some y ∧ ¬ good x y

theorem Bads.snoc {I : Type} {good : I → I → Prop} {l l' : List I} {x y : I} (h : l.length = l'.length)
    (hn : ∀ q, ¬ Bads good (l ++ [x]) (l' ++ [y]) q) : (∀ q, ¬ Bads good l l' q) ∧ good x y := by
  refine ⟨?_, ?_⟩
  · rintro q ⟨a, b, h1, h2, h3⟩
    refine hn q ⟨a, b, ?_, ?_, h3⟩
    · rw [List.getElem?_append_left (List.getElem?_eq_some_iff.1 h1).1]; exact h1
    · rw [List.getElem?_append_left (List.getElem?_eq_some_iff.1 h2).1]; exact h2
  · by_contra hg
    exact hn l.length ⟨x, y, by simp, by rw [h]; simp, hg⟩

/-- The gate two views determine is correct. -/
def GoodAnd (x y : ZInput Bool) : Prop :=
  (((x.a0 ^^ y.a0) && (x.b0 ^^ y.b0)) ^^ ((x.a0 ^^ y.a0) && (x.b1 ^^ y.b1)) ^^ ((x.a1 ^^ y.a1) && (x.b0 ^^ y.b0)) ^^
      (x.r ^^ y.r)) = (x.s ^^ y.s)

def GoodMul (x y : ZInput (BitVec K)) : Prop :=
  (x.a0 + y.a0) * (x.b0 + y.b0) + (x.a0 + y.a0) * (x.b1 + y.b1) + (x.a1 + y.a1) * (x.b0 + y.b0) + (x.r + y.r) = x.s + y.s

def GoodDot (x y : DInput K) : Prop :=
  innerProd (List.zipWith (· + ·) x.a0 y.a0) (List.zipWith (· + ·) x.b0 y.b0) +
    innerProd (List.zipWith (· + ·) x.a0 y.a0) (List.zipWith (· + ·) x.b1 y.b1) +
    innerProd (List.zipWith (· + ·) x.a1 y.a1) (List.zipWith (· + ·) x.b0 y.b0) + (x.r + y.r) = x.s + y.s

theorem wrongAnd_iff (l l' : List (ZInput Bool)) (q : Nat) : WrongAnd l l' q ↔ Bads GoodAnd l l' q := Iff.rfl
theorem wrongMul_iff (l l' : List (ZInput (BitVec K))) (q : Nat) : WrongMul l l' q ↔ Bads GoodMul l l' q := Iff.rfl
theorem wrongDot_iff (l l' : List (DInput K)) (q : Nat) : WrongDot l l' q ↔ Bads GoodDot l l' q := Iff.rfl

/-- The lists of the two honest parties have the same length. -/
def ZPair {α : Type} (n : Nat) (z z' : ZProof α) : Prop :=
  (z.proof.length = n ∧ z.verifyPrev.length = n ∧ z.verifyNext.length = n) ∧
    (z'.proof.length = n ∧ z'.verifyPrev.length = n ∧ z'.verifyNext.length = n)

/-- The same for dot products. -/
def DPair (n : Nat) (z z' : DProof K) : Prop :=
  (z.proof.length = n ∧ z.verifyPrev.length = n ∧ z.verifyNext.length = n) ∧
    (z'.proof.length = n ∧ z'.verifyPrev.length = n ∧ z'.verifyNext.length = n) ∧ z'.dotSize = z.dotSize ∧ z'.maxDot = z.maxDot ∧
    Swift3.ViewsFit z z'

theorem registerAndLoop_lengths (n : Nat) (z : ZProof Bool) (a0 a1 b0 b1 r0 r1 s0 s1 : BitVec K) :
    (ZProof.registerAndLoop n z a0 a1 b0 b1 r0 r1 s0 s1).proof.length = z.proof.length + n ∧
    (ZProof.registerAndLoop n z a0 a1 b0 b1 r0 r1 s0 s1).verifyPrev.length = z.verifyPrev.length + n ∧
    (ZProof.registerAndLoop n z a0 a1 b0 b1 r0 r1 s0 s1).verifyNext.length = z.verifyNext.length + n := by
  induction n generalizing z a0 a1 b0 b1 r0 r1 s0 s1 with
  | zero => exact ⟨rfl, rfl, rfl⟩
  | succ n ih =>
    unfold ZProof.registerAndLoop
    obtain ⟨h1, h2, h3⟩ := ih (z.registerBit (ZProof.lowBit a0) (ZProof.lowBit a1) (ZProof.lowBit b0) (ZProof.lowBit b1)
      (ZProof.lowBit r0) (ZProof.lowBit r1) (ZProof.lowBit s0) (ZProof.lowBit s1)) (ringShr a0 1) (ringShr a1 1) (ringShr b0 1)
      (ringShr b1 1) (ringShr r0 1) (ringShr r1 1) (ringShr s0 1) (ringShr s1 1)
    rw [h1, h2, h3]
    simp [ZProof.registerBit, ZProof.push]
    omega

/-- What correct gates mean for the component received from the corrupt party. -/
def AndComp (a a' b b' r r' : AShare K) : BitVec K :=
  (a.b &&& b.b) ^^^ (a.b &&& b'.a) ^^^ (a'.a &&& b.b) ^^^ (r.b ^^^ r'.a)

theorem registerAndLoop_pair (hK : 0 < K) (n : Nat) {z z' : ZProof Bool}
    {a0 a1 b0 b1 r0 r1 s0 s1 a0' a1' b0' b1' r0' r1' s0' s1' : BitVec K}
    (hl : z.verifyPrev.length = z'.verifyNext.length)
    (h : ∀ q, ¬ WrongAnd (ZProof.registerAndLoop n z a0 a1 b0 b1 r0 r1 s0 s1).verifyPrev
      (ZProof.registerAndLoop n z' a0' a1' b0' b1' r0' r1' s0' s1').verifyNext q) :
    (∀ q, ¬ WrongAnd z.verifyPrev z'.verifyNext q) ∧
      ∀ j < n, s1.getLsbD j = ((a1 &&& b1) ^^^ (a1 &&& b0') ^^^ (a0' &&& b1) ^^^ (r1 ^^^ r0')).getLsbD j := by
  induction n generalizing z z' a0 a1 b0 b1 r0 r1 s0 s1 a0' a1' b0' b1' r0' r1' s0' s1' with
  | zero => exact ⟨h, fun j hj => absurd hj (by omega)⟩
  | succ n ih =>
    unfold ZProof.registerAndLoop at h
    obtain ⟨h1, h2⟩ := ih (by simp [ZProof.registerBit, ZProof.push, hl]) h
    simp only [ZProof.registerBit, ZProof.push, wrongAnd_iff] at h1
    obtain ⟨h3, h4⟩ := Bads.snoc hl h1
    refine ⟨h3, fun j hj => ?_⟩
    cases j with
    | zero =>
      simp only [GoodAnd, Bool.xor_false, Bool.false_xor, lowBit_eq hK] at h4
      rw [← h4]
      simp only [BitVec.getLsbD_xor, BitVec.getLsbD_and]
    | succ j =>
      have := h2 j (by omega)
      simp only [← ringShr_one_xor, ← ringShr_one_and, ringShr_one_getLsbD] at this
      exact this

theorem registerAnd_pair (hK : 0 < K) {n : Nat} {z z' : ZProof Bool} (hz : ZPair n z z') (a b r s a' b' r' s' : AShare K) :
    ZPair (n + K) (z.registerAnd a b r s) (z'.registerAnd a' b' r' s') ∧
    ((∀ q, ¬ WrongAnd (z.registerAnd a b r s).verifyPrev (z'.registerAnd a' b' r' s').verifyNext q) →
      (∀ q, ¬ WrongAnd z.verifyPrev z'.verifyNext q) ∧ s.b = AndComp a a' b b' r r') := by
  obtain ⟨⟨h1, h2, h3⟩, h4, h5, h6⟩ := hz
  refine ⟨?_, fun h => ?_⟩
  · unfold ZPair ZProof.registerAnd
    simp only [registerAndLoop_lengths, h1, h2, h3, h4, h5, h6, and_self]
  · obtain ⟨k1, k2⟩ := registerAndLoop_pair hK K (by rw [h2, h6]) h
    exact ⟨k1, BitVec.eq_of_getLsbD_eq fun j hj => k2 j hj⟩

/-- The component of a multiplication. -/
def MulComp (a a' b b' r r' : AShare K) : BitVec K := a.b * b.b + a.b * b'.a + a'.a * b.b + (r.b - r'.a)

theorem registerMul_pair {n : Nat} {z z' : ZProof (BitVec K)} (hz : ZPair n z z') (a b r s a' b' r' s' : AShare K) :
    ZPair (n + 1) (z.registerMul a b r s) (z'.registerMul a' b' r' s') ∧
    ((∀ q, ¬ WrongMul (z.registerMul a b r s).verifyPrev (z'.registerMul a' b' r' s').verifyNext q) →
      (∀ q, ¬ WrongMul z.verifyPrev z'.verifyNext q) ∧ s.b = MulComp a a' b b' r r') := by
  obtain ⟨⟨h1, h2, h3⟩, h4, h5, h6⟩ := hz
  refine ⟨?_, fun h => ?_⟩
  · simp [ZPair, ZProof.registerMul, ZProof.push, h1, h2, h3, h4, h5, h6]
  · obtain ⟨k1, k2⟩ := Bads.snoc (by rw [h2, h6]) h
    refine ⟨k1, ?_⟩
    simp only [add_zero, zero_add] at k2
    rw [← k2, MulComp, sub_eq_add_neg]

/-- The component of a dot product. -/
def DotComp (ps ps' : List (AShare K × AShare K)) (r r' : AShare K) : BitVec K :=
  innerProd (ps.map (·.1.b)) (ps.map (·.2.b)) + innerProd (ps.map (·.1.b)) (ps'.map (·.2.a)) +
    innerProd (ps'.map (·.1.a)) (ps.map (·.2.b)) + (r.b - r'.a)

theorem registerDot_eq (z : DProof K) (ps : List (AShare K × AShare K)) (r s : AShare K) :
    z.registerDot ps r s = { z with
      dotSize := max z.dotSize ps.length
      maxDot := if z.dotSize < ps.length then z.proof.length else z.maxDot
      proof := z.proof ++ [⟨padTo z.dotSize (ps.map (·.1.a)), padTo z.dotSize (ps.map (·.1.b)),
        padTo z.dotSize (ps.map (·.2.a)), padTo z.dotSize (ps.map (·.2.b)), r.a - r.b, s.a⟩]
      verifyPrev := z.verifyPrev ++ [⟨padTo z.dotSize (ps.map (·.1.b)),
        List.replicate (max z.dotSize ps.length) 0, padTo z.dotSize (ps.map (·.2.b)),
        List.replicate (max z.dotSize ps.length) 0, r.b, s.b⟩]
      verifyNext := z.verifyNext ++ [⟨List.replicate (max z.dotSize ps.length) 0,
        padTo z.dotSize (ps.map (·.1.a)), List.replicate (max z.dotSize ps.length) 0,
        padTo z.dotSize (ps.map (·.2.a)), -r.a, 0⟩] } := by
  have e : (if ps.length > z.dotSize then ps.length else z.dotSize) = max z.dotSize ps.length := by split <;> omega
  simp only [DProof.registerDot, if_resize _ _ _ (List.length_map ..), e, gt_iff_lt]

theorem registerDot_pair {n : Nat} {z z' : DProof K} (hz : DPair n z z') (ps ps' : List (AShare K × AShare K))
    (hp : ps'.length = ps.length) (r s r' s' : AShare K) :
    DPair (n + 1) (z.registerDot ps r s) (z'.registerDot ps' r' s') ∧
    ((∀ q, ¬ WrongDot (z.registerDot ps r s).verifyPrev (z'.registerDot ps' r' s').verifyNext q) →
      (∀ q, ¬ WrongDot z.verifyPrev z'.verifyNext q) ∧ s.b = DotComp ps ps' r r') := by
  obtain ⟨⟨h1, h2, h3⟩, ⟨h4, h5, h6⟩, h7, h8, h9⟩ := hz
  rw [registerDot_eq, registerDot_eq]
  refine ⟨?_, fun h => ?_⟩
  · refine ⟨by simp [h1, h2, h3], by simp [h4, h5, h6], by simp [h7, hp], by simp [h1, h4, h7, h8, hp], ?_⟩
    intro q x y hx hy
    dsimp only at hx hy ⊢
    rcases Nat.lt_or_ge q n with hq | hq
    · rw [List.getElem?_append_left (by omega)] at hx hy
      obtain ⟨k, s1, s2, s3, s4⟩ := h9 q x y hx hy
      refine ⟨k, s1, s2, by omega, ?_⟩
      split
      · intro h; omega
      · intro h; have := s4 h; omega
    · obtain rfl : q = n := by
        have := (List.getElem?_eq_some_iff.1 hx).1
        simp [h2] at this; omega
      rw [← h2, List.getElem?_concat_length] at hx
      rw [← h6, List.getElem?_concat_length] at hy
      obtain rfl := Option.some.inj hx
      obtain rfl := Option.some.inj hy
      refine ⟨max z.dotSize ps.length, ?_, ?_, le_refl _, fun _ => rfl⟩
      · simp [DInput.Sized, padTo_length]
      · simp [DInput.Sized, padTo_length, h7, hp]
  · obtain ⟨k1, k2⟩ := Bads.snoc (by rw [h2, h6]) h
    refine ⟨k1, ?_⟩
    have e1 : ∀ (l : List (BitVec K)), l.length = ps.length →
        List.zipWith (· + ·) (padTo z.dotSize l) (List.replicate (max z.dotSize ps.length) 0) = padTo z.dotSize l :=
      fun l hl => zipWith_add_zero _ _ (by simp [padTo_length, hl])
    have e2 : ∀ (l : List (BitVec K)), l.length = ps.length →
        List.zipWith (· + ·) (List.replicate (max z.dotSize ps.length) 0) (padTo z.dotSize l) = padTo z.dotSize l :=
      fun l hl => zipWith_zero_add _ _ (by simp [padTo_length, hl])
    simp only [h7, hp] at k2
    rw [e1 _ (by simp), e1 _ (by simp), e2 _ (by simp [hp]), e2 _ (by simp [hp])] at k2
    simp only [innerProd] at k2
    rw [padTo_mul_sum _ (by simp), padTo_mul_sum _ (by simp [hp]), padTo_mul_sum _ (by simp [hp])] at k2
    rw [add_zero] at k2
    rw [← k2, DotComp, sub_eq_add_neg]
    rfl

end Verif
