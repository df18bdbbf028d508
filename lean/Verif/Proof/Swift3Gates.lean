import Verif.Proof.Swift3

/-! # Swift3: the registered gates are correct and consistent -/

namespace Verif

variable {K L : Nat}

/-- Two components agree with the neighbour's. -/
def Repl (s : Party → AShare K) : Prop := ∀ i, (s i).b = (s i.prev).a

theorem Repl.next {s : Party → AShare K} (h : Repl s) (i : Party) : (s i.next).b = (s i).a := by
  have := h i.next; rwa [Party.prev_next] at this

theorem Gates.snoc {I : Type} {ok : I → I → I → Prop} {p vp vn : List I} {x y z : I} (h : Gates ok p vp vn)
    (hx : ok x y z) : Gates ok (p ++ [x]) (vp ++ [y]) (vn ++ [z]) := by
  obtain ⟨gs, hg, rfl, rfl, rfl⟩ := h
  refine ⟨gs ++ [(x, y, z)], ?_, by simp, by simp, by simp⟩
  intro g hg'
  rcases List.mem_append.1 hg' with h1 | h1
  · exact hg g h1
  · rw [List.mem_singleton.1 h1]; exact hx

theorem lowBit_eq (hK : 0 < K) (x : BitVec K) : ZProof.lowBit x = x.getLsbD 0 := by
  unfold ZProof.lowBit
  rw [BitVec.and_comm, and_one_eq hK, ofBit_beq_one hK]

theorem ringShr_one_xor (x y : BitVec K) : ringShr (x ^^^ y) 1 = ringShr x 1 ^^^ ringShr y 1 := by
  apply BitVec.eq_of_getLsbD_eq; intro j _
  simp only [BitVec.getLsbD_xor, ringShr_one_getLsbD]

theorem ringShr_one_and (x y : BitVec K) : ringShr (x &&& y) 1 = ringShr x 1 &&& ringShr y 1 := by
  apply BitVec.eq_of_getLsbD_eq; intro j _
  simp only [BitVec.getLsbD_and, ringShr_one_getLsbD]

/-- The loop at the prover, its successor and its predecessor. -/
theorem registerAndLoop_gates (hK : 0 < K) (n : Nat) {z zn zp : ZProof Bool}
    {a0 a1 b0 b1 r0 r1 s0 s1 x y q t x' y' q' t' u' : BitVec K}
    (h : Gates AndGateOk z.proof zn.verifyPrev zp.verifyNext)
    (hs : s0 = (a0 &&& b0) ^^^ (a0 &&& b1) ^^^ (a1 &&& b0) ^^^ (r0 ^^^ r1)) :
    Gates AndGateOk (ZProof.registerAndLoop n z a0 a1 b0 b1 r0 r1 s0 s1).proof
      (ZProof.registerAndLoop n zn x a0 y b0 q r0 t s0).verifyPrev
      (ZProof.registerAndLoop n zp a1 x' b1 y' r1 q' t' u').verifyNext := by
  induction n generalizing z zn zp a0 a1 b0 b1 r0 r1 s0 s1 x y q t x' y' q' t' u' with
  | zero => exact h
  | succ n ih =>
    unfold ZProof.registerAndLoop
    refine ih ?_ ?_
    · refine h.snoc ⟨by simp, ?_⟩
      simp only [lowBit_eq hK, hs, BitVec.getLsbD_xor, BitVec.getLsbD_and]
    · rw [hs]; simp only [ringShr_one_xor, ringShr_one_and]

theorem registerAndLoop_length (n : Nat) (z : ZProof Bool) (a0 a1 b0 b1 r0 r1 s0 s1 : BitVec K) :
    (ZProof.registerAndLoop n z a0 a1 b0 b1 r0 r1 s0 s1).proof.length = z.proof.length + n := by
  induction n generalizing z a0 a1 b0 b1 r0 r1 s0 s1 with
  | zero => rfl
  | succ n ih => unfold ZProof.registerAndLoop; rw [ih]; simp [ZProof.registerBit, ZProof.push]; omega

/-- `n` gates registered consistently by all parties. -/
def ZOk {α : Type} (ok : ZInput α → ZInput α → ZInput α → Prop) (n : Nat) (z : Party → ZProof α) : Prop :=
  ∀ i, Gates ok (z i).proof (z i.next).verifyPrev (z i.prev).verifyNext ∧ (z i).proof.length = n

theorem registerAnd_ok (hK : 0 < K) {u : Nat} {z : Party → ZProof Bool} {a b r s : Party → AShare K}
    (hz : ZOk AndGateOk u z) (ha : Repl a) (hb : Repl b) (hr : Repl r) (hs : Repl s)
    (h : ∀ i, (s i).a = ((a i).andLocal (b i)).a ^^^ ((r i).a ^^^ (r i).b)) :
    ZOk AndGateOk (u + K) (fun i => (z i).registerAnd (a i) (b i) (r i) (s i)) := by
  intro i
  refine ⟨?_, ?_⟩
  · simp only [ZProof.registerAnd, ha.next, hb.next, hr.next, hs.next, ← ha i, ← hb i, ← hr i]
    exact registerAndLoop_gates hK K (hz i).1 (by rw [h i]; rfl)
  · simp only [ZProof.registerAnd, registerAndLoop_length, (hz i).2]

theorem registerMul_ok {u : Nat} {z : Party → ZProof (BitVec K)} {a b r s : Party → AShare K}
    (hz : ZOk MulGateOk u z) (ha : Repl a) (hb : Repl b) (hr : Repl r) (hs : Repl s)
    (h : ∀ i, (s i).a = ((a i).mulLocal (b i)).a + ((r i).a - (r i).b)) :
    ZOk MulGateOk (u + 1) (fun i => (z i).registerMul (a i) (b i) (r i) (s i)) := by
  intro i
  refine ⟨?_, ?_⟩
  · refine (hz i).1.snoc ⟨?_, ?_⟩
    · simp only [ha.next, hb.next, hr.next, hs.next, ha i, hb i, hr i]
      ext1 <;> simp [sub_eq_add_neg]
    · simp only [h i, AShare.mulLocal]
  · simp [ZProof.registerMul, ZProof.push, (hz i).2]

/-- One entry of the list handed to `registerAnds`. -/
def AndRel (_ : Unit) (g : Party → ((AShare L × AShare L) × AShare L) × AShare L) : Prop :=
  Repl (fun i => (g i).1.1.1) ∧ Repl (fun i => (g i).1.1.2) ∧ Repl (fun i => (g i).1.2) ∧ Repl (fun i => (g i).2) ∧
    ∀ i, (g i).1.2.a = ((g i).1.1.1.andLocal (g i).1.1.2).a ^^^ ((g i).2.a ^^^ (g i).2.b)

theorem registerAnds_ok (hL : 0 < L) {u : Nat} {z : Party → ZProof Bool} {us : List Unit}
    {gs : Party → List (((AShare L × AShare L) × AShare L) × AShare L)} (hg : Rels AndRel us gs)
    (hz : ZOk AndGateOk u z) :
    ZOk AndGateOk (u + L * us.length) (fun i => Swift3.registerAnds (z i) (gs i)) := by
  induction us generalizing u z gs with
  | nil => rw [hg.eq_nil]; simpa [Swift3.registerAnds] using hz
  | cons x us ih =>
    obtain ⟨g1, g2, h1, h2, rfl⟩ := hg.uncons
    obtain ⟨k1, k2, k3, k4, k5⟩ := h1
    have := ih h2 (registerAnd_ok hL hz k1 k2 k4 k3 k5)
    have e : u + L * (x :: us).length = u + L + L * us.length := by simp [Nat.mul_add]; omega
    rw [e]
    simpa [Swift3.registerAnds] using this

/-! ## Dot products -/

/-- The joint condition on the dot-product gates. -/
structure DOk (n : DotCount) (z : Party → DProof K) : Prop where
  gates : ∀ i, Gates DotGateOk (z i).proof (z i.next).verifyPrev (z i.prev).verifyNext ∧ (z i).proof.length = n.n
  sizes : ∀ i, (z i).SizesOk ∧ (z i).dotSize = n.size ∧ (z i).maxDot = (z 0).maxDot

/-- Padding with zeros up to a size. -/
def padTo (n : Nat) (l : List (BitVec K)) : List (BitVec K) := l ++ List.replicate (n - l.length) 0

theorem if_resize (l : List (BitVec K)) (n m : Nat) (hl : l.length = m) :
    (if m < n then resize l n 0 else l) = padTo n l := by
  unfold padTo resize
  split
  · rw [List.take_of_length_le (by omega)]
  · rw [show n - l.length = 0 by omega]; simp

theorem padTo_length (n : Nat) (l : List (BitVec K)) : (padTo n l).length = max n l.length := by
  simp [padTo]; omega

theorem padTo_add (n : Nat) {l m : List (BitVec K)} (h : l.length = m.length) :
    List.zipWith (· + ·) (padTo n l) (padTo n m) = padTo n (List.zipWith (· + ·) l m) := by
  simp only [padTo, List.zipWith_append h, List.length_zipWith, h, min_self]
  congr 1
  rw [List.zipWith_replicate']
  simp

theorem padTo_mul_sum (n : Nat) {l m : List (BitVec K)} (h : l.length = m.length) :
    (List.zipWith (· * ·) (padTo n l) (padTo n m)).sum = (List.zipWith (· * ·) l m).sum := by
  simp only [padTo, List.zipWith_append h, List.sum_append, h]
  rw [List.zipWith_replicate']
  simp

theorem zipWith_add_zero (l : List (BitVec K)) (n : Nat) (h : l.length = n) :
    List.zipWith (· + ·) l (List.replicate n 0) = l := by
  induction l generalizing n with
  | nil => simp
  | cons x l ih => cases n with
    | zero => simp at h
    | succ n =>
      rw [List.replicate_succ, List.zipWith_cons_cons, ih n (by simpa using h)]; simp

theorem zipWith_zero_add (l : List (BitVec K)) (n : Nat) (h : l.length = n) :
    List.zipWith (· + ·) (List.replicate n 0) l = l := by
  induction l generalizing n with
  | nil => simp
  | cons x l ih => cases n with
    | zero => simp at h
    | succ n =>
      rw [List.replicate_succ, List.zipWith_cons_cons, ih n (by simpa using h)]; simp

theorem dotAcc_eq (c : BitVec K) (ps : List (AShare K × AShare K)) :
    Aby3.dotAcc c ps = c + (ps.map fun p => (p.1.mulLocal p.2).a).sum := by
  induction ps generalizing c with
  | nil => simp [Aby3.dotAcc]
  | cons p ps ih =>
    have := ih (c + (p.1.mulLocal p.2).a)
    simp only [Aby3.dotAcc, List.foldl_cons, List.map_cons, List.sum_cons] at this ⊢
    rw [this]; ring

theorem sum_mulLocal (ps : List (AShare K × AShare K)) :
    (ps.map fun p => (p.1.mulLocal p.2).a).sum =
      (List.zipWith (· * ·) (ps.map (·.1.a)) (ps.map (·.2.a))).sum +
      (List.zipWith (· * ·) (ps.map (·.1.a)) (ps.map (·.2.b))).sum +
      (List.zipWith (· * ·) (ps.map (·.1.b)) (ps.map (·.2.a))).sum := by
  induction ps with
  | nil => simp
  | cons p ps ih =>
    rw [List.map_cons, List.sum_cons, ih]
    simp only [List.map_cons, List.sum_cons, List.zipWith_cons_cons, AShare.mulLocal]
    ring

/-- The pairs of shares of a dot product at the three parties. -/
def DotRel (ps : Party → List (AShare K × AShare K)) : Prop :=
  (∀ i j, (ps i).length = (ps j).length) ∧
    ∀ i, (ps i).map (·.1.b) = (ps i.prev).map (·.1.a) ∧ (ps i).map (·.2.b) = (ps i.prev).map (·.2.a)

theorem registerDot_ok {n : DotCount} {z : Party → DProof K} {ps : Party → List (AShare K × AShare K)} {r s : Party → AShare K}
    (hz : DOk n z) (hp : DotRel ps) (hr : Repl r) (hs : Repl s)
    (h : ∀ i, (s i).a = Aby3.dotAcc ((r i).a - (r i).b) (ps i)) :
    DOk (n.add (ps 0).length) (fun i => (z i).registerDot (ps i) (r i) (s i)) := by
  have hlen : ∀ i, (ps i).length = (ps 0).length := fun i => hp.1 i 0
  have hds : ∀ i, (z i).dotSize = (z 0).dotSize := fun i => ((hz.sizes i).2.1).trans ((hz.sizes 0).2.1).symm
  have hmd : ∀ i, (z i).maxDot = (z 0).maxDot := fun i => (hz.sizes i).2.2
  have hpl : ∀ i, (z i).proof.length = n.n := fun i => (hz.gates i).2
  have hreg : ∀ i, (z i).registerDot (ps i) (r i) (s i) = { z i with
      dotSize := max (z 0).dotSize (ps 0).length
      maxDot := if (z 0).dotSize < (ps 0).length then n.n else (z 0).maxDot
      proof := (z i).proof ++ [⟨padTo (z 0).dotSize ((ps i).map (·.1.a)), padTo (z 0).dotSize ((ps i).map (·.1.b)),
        padTo (z 0).dotSize ((ps i).map (·.2.a)), padTo (z 0).dotSize ((ps i).map (·.2.b)), (r i).a - (r i).b, (s i).a⟩]
      verifyPrev := (z i).verifyPrev ++ [⟨padTo (z 0).dotSize ((ps i).map (·.1.b)),
        List.replicate (max (z 0).dotSize (ps 0).length) 0, padTo (z 0).dotSize ((ps i).map (·.2.b)),
        List.replicate (max (z 0).dotSize (ps 0).length) 0, (r i).b, (s i).b⟩]
      verifyNext := (z i).verifyNext ++ [⟨List.replicate (max (z 0).dotSize (ps 0).length) 0,
        padTo (z 0).dotSize ((ps i).map (·.1.a)), List.replicate (max (z 0).dotSize (ps 0).length) 0,
        padTo (z 0).dotSize ((ps i).map (·.2.a)), -(r i).a, 0⟩] } := by
    intro i
    have e : (if (ps i).length > (z i).dotSize then (ps i).length else (z i).dotSize) =
        max (z 0).dotSize (ps 0).length := by
      rw [hds, hlen]; split <;> omega
    simp only [DProof.registerDot, if_resize _ _ _ (List.length_map ..), e]
    simp only [hds i, hmd i, hpl i, hlen i, gt_iff_lt]
  have hsz : ∀ i, DInput.Sized (max (z 0).dotSize (ps 0).length) (⟨padTo (z 0).dotSize ((ps i).map (·.1.a)),
      padTo (z 0).dotSize ((ps i).map (·.1.b)), padTo (z 0).dotSize ((ps i).map (·.2.a)),
      padTo (z 0).dotSize ((ps i).map (·.2.b)), (r i).a - (r i).b, (s i).a⟩ : DInput K) := by
    intro i; simp [DInput.Sized, padTo_length, hlen i]
  refine ⟨fun i => ?_, fun i => ?_⟩
  · simp only [hreg]
    refine ⟨(hz.gates i).1.snoc ⟨⟨_, hsz i, ?_, ?_⟩, ?_, ?_⟩, by simp [hpl i, DotCount.add]⟩
    · simp [DInput.Sized, padTo_length, hlen i.next]
    · simp [DInput.Sized, padTo_length, hlen i.prev]
    · have n1 := (hp.2 i.next).1
      have n2 := (hp.2 i.next).2
      rw [Party.prev_next] at n1 n2
      simp only [n1, n2, hr.next, hs.next, ← (hp.2 i).1, ← (hp.2 i).2, ← hr i]
      ext1
      · exact (zipWith_add_zero _ _ (by simp [padTo_length, hlen i])).symm
      · exact (zipWith_zero_add _ _ (by simp [padTo_length, hlen i])).symm
      · exact (zipWith_add_zero _ _ (by simp [padTo_length, hlen i])).symm
      · exact (zipWith_zero_add _ _ (by simp [padTo_length, hlen i])).symm
      · simp [sub_eq_add_neg]
      · simp
    · simp only [h i, dotAcc_eq, sum_mulLocal]
      rw [padTo_mul_sum _ (by simp), padTo_mul_sum _ (by simp), padTo_mul_sum _ (by simp)]
      ring
  · simp only [hreg]
    refine ⟨?_, by simp only [(hz.sizes 0).2.1]; rfl, trivial⟩
    intro k g hk
    simp only at hk
    rcases Nat.lt_trichotomy k n.n with hlt | heq | hgt
    · rw [List.getElem?_append_left (by rw [hpl i]; exact hlt)] at hk
      obtain ⟨m, h1, h2, h3⟩ := (hz.sizes i).1 k g hk
      rw [hds i] at h2 h3
      rw [hmd i] at h3
      refine ⟨m, h1, by simp only; omega, ?_⟩
      simp only
      split
      · intro; omega
      · intro hle; rw [h3 hle]; omega
    · subst heq
      rw [List.getElem?_append_right (by rw [hpl i])] at hk
      simp only [hpl i, Nat.sub_self, List.getElem?_cons_zero, Option.some.injEq] at hk
      subst hk
      exact ⟨_, hsz i, le_refl _, fun _ => rfl⟩
    · rw [List.getElem?_eq_none (by simp [hpl i]; omega)] at hk
      cases hk

/-- One entry of the list handed to `registerDots`. -/
def DotGateRel (len : Nat) (g : Party → (List (AShare K × AShare K) × AShare K) × AShare K) : Prop :=
  (g 0).1.1.length = len ∧ DotRel (fun i => (g i).1.1) ∧ Repl (fun i => (g i).1.2) ∧ Repl (fun i => (g i).2) ∧
    ∀ i, (g i).1.2.a = Aby3.dotAcc ((g i).2.a - (g i).2.b) (g i).1.1

theorem registerDots_ok {n : DotCount} {z : Party → DProof K} {us : List Nat}
    {gs : Party → List ((List (AShare K × AShare K) × AShare K) × AShare K)} (hg : Rels DotGateRel us gs)
    (hz : DOk n z) : DOk (n.addMany us) (fun i => Swift3.registerDots (z i) (gs i)) := by
  induction us generalizing n z gs with
  | nil => rw [hg.eq_nil]; simpa [Swift3.registerDots, DotCount.addMany] using hz
  | cons x us ih =>
    obtain ⟨g1, g2, h1, h2, rfl⟩ := hg.uncons
    obtain ⟨k0, k1, k2, k3, k4⟩ := h1
    have := ih h2 (registerDot_ok hz k1 k3 k2 k4)
    rw [k0] at this
    simpa [Swift3.registerDots, DotCount.addMany] using this

end Verif
