import Verif.Spec.DzkpTwo
import Verif.Proof.ZkTwoCoins
import Verif.Props.DzkpSound

/-!
# C80: the proofs remain sound when the two verifiers use different challenges

A corrupt prover of the Swift3 verification can make the two verifiers use different coins (C79). The following counts
challenges as C56 and C75 do, but with separate `β`s and `r` for the two verifiers.
-/

namespace Verif

/-- C80, AND gates: if at least one gate is wrong in the views of the verifiers, then whatever the prover sends (it may
choose its messages after seeing the `θ`s, but before the `β`s and `r`s), the challenges `(θ, (β, r), (β', r'))` for which
it is accepted are at most a fraction `1/2^64 + 4m/#r` of all challenges (here multiplied out). -/
theorem C80_and_sound (G : Prg) (l m : Nat) (hm : m < 2 ^ 63) (vp vn : List (ZInput Bool)) (hp : vp.length = l * m)
    (hn : vn.length = l * m) (q : Nat) (hbad : WrongAnd vp vn q)
    (proof proofNext : (Fin l → GF2p64) → ZkPf GF2p64) :
    2 ^ 64 * Nat.card {c : (Fin l → GF2p64) × ((Fin m → GF2p64) × AndChallenge m) × ((Fin m → GF2p64) × AndChallenge m) //
        AndAcceptsTwo G l m vp vn (List.ofFn c.1) (List.ofFn c.2.1.1) c.2.1.2.1 (List.ofFn c.2.2.1) c.2.2.2.1
          (proof c.1) (proofNext c.1)} ≤
      (2 ^ 64) ^ (l + 2 * m) * Nat.card (AndChallenge m) * (Nat.card (AndChallenge m) + 4 * m * 2 ^ 64) := by
  obtain ⟨x, y, hx, hy, hne⟩ := hbad
  have hq : q < l * m := by
    rw [← hp]
    by_contra h
    rw [List.getElem?_eq_none (by omega)] at hx
    cases hx
  have := and_sound_two G l m hm vp vn hp hn ⟨false, false, false, false, false, false⟩ q hq (by
    simp only [List.getD_eq_getElem?_getD, hx, hy, Option.getD_some]
    exact hne) proof proofNext
  rw [natCard_GF2p64, ← Nat.mul_assoc 2 2 m] at this
  exact this

/-- The number of all challenges. -/
theorem C80_and_challenges (l m : Nat) :
    Nat.card ((Fin l → GF2p64) × ((Fin m → GF2p64) × AndChallenge m) × ((Fin m → GF2p64) × AndChallenge m)) =
      (2 ^ 64) ^ (l + 2 * m) * Nat.card (AndChallenge m) * Nat.card (AndChallenge m) := by
  rw [Nat.card_prod, Nat.card_prod, Nat.card_prod, Nat.card_fun, Nat.card_fun, natCard_GF2p64]
  simp only [Nat.card_eq_fintype_card, Fintype.card_fin]
  rw [pow_add, two_mul m, pow_add]; ring

/-- C80, AND gates, with parameters that pass the check of the code (`assert` in `set_parameters`): a wrong gate is accepted for at most a fraction
`2^-39` of the challenges. -/
theorem C80_and_bits (G : Prg) (l m : Nat) (hm : 2 ^ 40 * (2 * m + 1) < 2 ^ 64 - m) (vp vn : List (ZInput Bool))
    (hp : vp.length = l * m) (hn : vn.length = l * m) (q : Nat) (hbad : WrongAnd vp vn q)
    (proof proofNext : (Fin l → GF2p64) → ZkPf GF2p64) :
    2 ^ 39 * Nat.card {c : (Fin l → GF2p64) × ((Fin m → GF2p64) × AndChallenge m) × ((Fin m → GF2p64) × AndChallenge m) //
        AndAcceptsTwo G l m vp vn (List.ofFn c.1) (List.ofFn c.2.1.1) c.2.1.2.1 (List.ofFn c.2.2.1) c.2.2.2.1
          (proof c.1) (proofNext c.1)} ≤
      Nat.card ((Fin l → GF2p64) × ((Fin m → GF2p64) × AndChallenge m) × ((Fin m → GF2p64) × AndChallenge m)) := by
  have h := C80_and_sound G l m (by omega) vp vn hp hn q hbad proof proofNext
  rw [C80_and_challenges]
  have hR : Nat.card (AndChallenge m) = 2 ^ 64 - m - 1 := natCard_AndR m (by omega)
  generalize Nat.card {c : (Fin l → GF2p64) × ((Fin m → GF2p64) × AndChallenge m) × ((Fin m → GF2p64) × AndChallenge m) //
        AndAcceptsTwo G l m vp vn (List.ofFn c.1) (List.ofFn c.2.1.1) c.2.1.2.1 (List.ofFn c.2.2.1) c.2.2.2.1
          (proof c.1) (proofNext c.1)} = acc at h ⊢
  generalize Nat.card (AndChallenge m) = M at h hR ⊢
  generalize (2 ^ 64) ^ (l + 2 * m) = P at h ⊢
  have h2 : 2 ^ 39 * (M + 4 * m * 2 ^ 64) ≤ 2 ^ 64 * M := by omega
  refine Nat.le_of_mul_le_mul_left ?_ (show 0 < 2 ^ 64 by norm_num)
  calc 2 ^ 64 * (2 ^ 39 * acc) = 2 ^ 39 * (2 ^ 64 * acc) := by ring
    _ ≤ 2 ^ 39 * (P * M * (M + 4 * m * 2 ^ 64)) := Nat.mul_le_mul_left _ h
    _ = P * M * (2 ^ 39 * (M + 4 * m * 2 ^ 64)) := by ring
    _ ≤ P * M * (2 ^ 64 * M) := Nat.mul_le_mul_left _ h2
    _ = 2 ^ 64 * (P * M * M) := by ring

/-- C80, multiplications. -/
theorem C80_mul_sound (G : Prg) {K : Nat} (hK : 0 < K) (h64 : K < 64) (l m : Nat) (hm : m ≤ 2 ^ 22)
    (vp vn : List (ZInput (BitVec K))) (hp : vp.length = l * m) (hn : vn.length = l * m) (q : Nat)
    (hbad : WrongMul vp vn q) (proof proofNext : (Fin l → PolyChallenge K (mulDegree m)) → ZkPf (Poly (BitVec K))) :
    2 ^ mulDegree m * Nat.card {c : (Fin l → PolyChallenge K (mulDegree m)) ×
          ((Fin m → PolyChallenge K (mulDegree m)) × PolyPoint K (mulDegree m)) ×
          ((Fin m → PolyChallenge K (mulDegree m)) × PolyPoint K (mulDegree m)) //
        MulAcceptsTwo G l m vp vn (List.ofFn fun j => (c.1 j).poly) (List.ofFn fun k => (c.2.1.1 k).poly)
          (PolyChallenge.poly c.2.1.2.1) (List.ofFn fun k => (c.2.2.1 k).poly) (PolyChallenge.poly c.2.2.2.1)
          (proof c.1) (proofNext c.1)} ≤
      (2 ^ (K * mulDegree m)) ^ (l + 2 * m) * Nat.card (PolyPoint K (mulDegree m)) *
        (Nat.card (PolyPoint K (mulDegree m)) + 4 * m * 2 ^ (K * mulDegree m)) := by
  obtain ⟨x, y, hx, hy, hne⟩ := hbad
  have hq : q < l * m := by
    rw [← hp]
    by_contra h
    rw [List.getElem?_eq_none (by omega)] at hx
    cases hx
  obtain ⟨md, d, emd, h40, hd, hmon, hirr, hpts, -, hdeg⟩ := mulModulus_spec hK m hm
  obtain rfl : d = mulDegree m := hdeg
  have := poly_sound_two hK h64 (mulEnv G K md) (by omega) hd hmon hirr (fun _ => rfl) mulCirc_lawful ZInput.val
    ⟨0, 0, 0, 0, 0, 0⟩ l m hpts vp vn hp hn (fun _ _ x _ i hi => mul_wire G md x i hi) q hq (by
      simp only [List.getD_eq_getElem?_getD, hx, hy, Option.getD_some]
      intro h
      apply hne
      have h' : (x.a0 + y.a0) * (x.b0 + y.b0) + (x.a0 + y.a0) * (x.b1 + y.b1) + (x.a1 + y.a1) * (x.b0 + y.b0) +
        (x.r + y.r) - (x.s + y.s) = 0 := h
      exact sub_eq_zero.1 h') (Subtype.val : PolyPoint K (mulDegree m) → _) Subtype.val_injective proof proofNext
  rw [natCard_challenge, ← Nat.mul_assoc 2 2 m] at this
  refine le_trans (Nat.mul_le_mul_left _ ?_) this
  refine Nat.card_le_card_of_injective (fun c => ⟨c.1, ?_⟩) ?_
  · obtain ⟨md', Ls, v1, v2, e1, e2, e3, e4, e5⟩ := c.2
    obtain rfl : md = md' := Except.ok.inj (emd.symm.trans e1)
    exact ⟨Ls, v1, v2, e2, e3, e4, e5⟩
  · intro a b h
    have h := congrArg Subtype.val h
    exact Subtype.ext h

/-- C80, dot products. -/
theorem C80_dot_sound (G : Prg) {K : Nat} (hK : 0 < K) (h64 : K < 64) (size l m : Nat) (hm : m ≤ 2 ^ 22)
    (vp vn : List (DInput K)) (hp : vp.length = l * m) (hn : vn.length = l * m) (hps : ∀ x ∈ vp, x.Sized size)
    (hns : ∀ x ∈ vn, x.Sized size) (q : Nat)
    (hbad : WrongDot vp vn q) (proof proofNext : (Fin l → PolyChallenge K (mulDegree m)) → ZkPf (Poly (BitVec K))) :
    2 ^ mulDegree m * Nat.card {c : (Fin l → PolyChallenge K (mulDegree m)) ×
          ((Fin m → PolyChallenge K (mulDegree m)) × PolyPoint K (mulDegree m)) ×
          ((Fin m → PolyChallenge K (mulDegree m)) × PolyPoint K (mulDegree m)) //
        DotAcceptsTwo G size l m vp vn (List.ofFn fun j => (c.1 j).poly) (List.ofFn fun k => (c.2.1.1 k).poly)
          (PolyChallenge.poly c.2.1.2.1) (List.ofFn fun k => (c.2.2.1 k).poly) (PolyChallenge.poly c.2.2.2.1)
          (proof c.1) (proofNext c.1)} ≤
      (2 ^ (K * mulDegree m)) ^ (l + 2 * m) * Nat.card (PolyPoint K (mulDegree m)) *
        (Nat.card (PolyPoint K (mulDegree m)) + 4 * m * 2 ^ (K * mulDegree m)) := by
  obtain ⟨x, y, hx, hy, hne⟩ := hbad
  have hq : q < l * m := by
    rw [← hp]
    by_contra h
    rw [List.getElem?_eq_none (by omega)] at hx
    cases hx
  have hxs := hps x (List.mem_of_getElem? hx)
  have hys := hns y (List.mem_of_getElem? hy)
  obtain ⟨md, d, emd, h40, hd, hmon, hirr, hpts, -, hdeg⟩ := mulModulus_spec hK m hm
  obtain rfl : d = mulDegree m := hdeg
  have := poly_sound_two hK h64 (dotEnv G K md size) (by omega) hd hmon hirr (fun _ => rfl) (dotCirc_lawful size) DInput.val
    (DInput.new K size) l m hpts vp vn hp hn (fun inputs hi x' hx' i hw => dot_wire G md size x' (by
      simp only [List.mem_cons, List.not_mem_nil, or_false] at hi
      rcases hi with rfl | rfl
      · exact hps x' hx'
      · exact hns x' hx') i hw) q hq (by
      simp only [List.getD_eq_getElem?_getD, hx, hy, Option.getD_some]
      intro h
      apply hne
      have hz : (⟨List.zipWith (· + ·) x.a0 y.a0, List.zipWith (· + ·) x.a1 y.a1, List.zipWith (· + ·) x.b0 y.b0,
          List.zipWith (· + ·) x.b1 y.b1, x.r + y.r, x.s + y.s⟩ : DInput K).Sized size := by
        obtain ⟨h0, h1, h2, h3⟩ := hxs
        obtain ⟨k0, k1, k2, k3⟩ := hys
        simp [DInput.Sized, *]
      have e := DInput.dotExpr_eq hz
      have h1 : dotExpr size (BitVec K) ((List.range (4 * size + 2)).map fun i => x.val i + y.val i) = 0 := h
      rw [← List.map_congr_left (fun i hi => DInput.val_add hz hxs hys rfl i (List.mem_range.1 hi)), e] at h1
      simp only [innerProd]
      linear_combination h1) (Subtype.val : PolyPoint K (mulDegree m) → _) Subtype.val_injective proof proofNext
  rw [natCard_challenge, ← Nat.mul_assoc 2 2 m] at this
  refine le_trans (Nat.mul_le_mul_left _ ?_) this
  refine Nat.card_le_card_of_injective (fun c => ⟨c.1, ?_⟩) ?_
  · obtain ⟨md', Ls, v1, v2, e1, e2, e3, e4, e5⟩ := c.2
    obtain rfl : md = md' := Except.ok.inj (emd.symm.trans e1)
    exact ⟨Ls, v1, v2, e2, e3, e4, e5⟩
  · intro a b h
    have h := congrArg Subtype.val h
    exact Subtype.ext h

/-- The number of all challenges. -/
theorem C80_challenges {K : Nat} (l m : Nat) :
    Nat.card ((Fin l → PolyChallenge K (mulDegree m)) ×
        ((Fin m → PolyChallenge K (mulDegree m)) × PolyPoint K (mulDegree m)) ×
        ((Fin m → PolyChallenge K (mulDegree m)) × PolyPoint K (mulDegree m))) =
      (2 ^ (K * mulDegree m)) ^ (l + 2 * m) * Nat.card (PolyPoint K (mulDegree m)) * Nat.card (PolyPoint K (mulDegree m)) := by
  have h : ∀ n : Nat, Nat.card (Fin n → PolyChallenge K (mulDegree m)) = (2 ^ (K * mulDegree m)) ^ n := by
    intro n
    rw [← natCard_challenge (K := K) (d := mulDegree m)]
    simp [Nat.card_fun (α := Fin n)]
  rw [Nat.card_prod, Nat.card_prod, Nat.card_prod, h, h, pow_add, two_mul m, pow_add]; ring

/-- The arithmetic behind `C80_mul_bits`, `C80_dot_bits`. -/
theorem bits_of_bound_two {K m n A P R : Nat} (hK : 2 ≤ K) (hm : 0 < m) (hd : 2 ^ 40 * (2 * m) ≤ 2 ^ n) {T : Nat}
    (hR : 2 ^ K * R = (2 ^ K - 1) * T) (h : 2 ^ n * A ≤ P * R * (R + 4 * m * T)) : 2 ^ 38 * A ≤ P * R * R := by
  have h4 : 4 ≤ 2 ^ K := by
    calc 4 = 2 ^ 2 := rfl
      _ ≤ 2 ^ K := Nat.pow_le_pow_right (by norm_num) hK
  have hT : 3 * T ≤ 4 * R := by
    generalize 2 ^ K = k at hR h4
    obtain ⟨j, rfl⟩ : ∃ j, k = j + 4 := ⟨k - 4, by omega⟩
    have : (j + 4) * R = (j + 3) * T := hR
    have hTR : R ≤ T := by nlinarith
    nlinarith
  have h1 : 2 ^ 40 * (2 * m) * A ≤ P * R * (R + 4 * m * T) := le_trans (Nat.mul_le_mul_right _ hd) h
  have h2 : R + 4 * m * T ≤ 8 * m * R := by nlinarith
  have h3 : (8 * m) * (2 ^ 38 * A) ≤ (8 * m) * (P * R * R) := by
    calc (8 * m) * (2 ^ 38 * A) = 2 ^ 40 * (2 * m) * A := by ring
      _ ≤ P * R * (R + 4 * m * T) := h1
      _ ≤ P * R * (8 * m * R) := Nat.mul_le_mul_left _ h2
      _ = (8 * m) * (P * R * R) := by ring
  exact Nat.le_of_mul_le_mul_left h3 (by omega)

/-- C80 for the parameters of the code: a wrong multiplication is accepted for at most a fraction `2^-38` of the
challenges. -/
theorem C80_mul_bits (G : Prg) {K : Nat} (hK : 2 ≤ K) (h64 : K < 64) (l m : Nat) (hm : m ≤ 2 ^ 22)
    (vp vn : List (ZInput (BitVec K))) (hp : vp.length = l * m) (hn : vn.length = l * m) (q : Nat)
    (hbad : WrongMul vp vn q) (proof proofNext : (Fin l → PolyChallenge K (mulDegree m)) → ZkPf (Poly (BitVec K))) :
    2 ^ 38 * Nat.card {c : (Fin l → PolyChallenge K (mulDegree m)) ×
          ((Fin m → PolyChallenge K (mulDegree m)) × PolyPoint K (mulDegree m)) ×
          ((Fin m → PolyChallenge K (mulDegree m)) × PolyPoint K (mulDegree m)) //
        MulAcceptsTwo G l m vp vn (List.ofFn fun j => (c.1 j).poly) (List.ofFn fun k => (c.2.1.1 k).poly)
          (PolyChallenge.poly c.2.1.2.1) (List.ofFn fun k => (c.2.2.1 k).poly) (PolyChallenge.poly c.2.2.2.1)
          (proof c.1) (proofNext c.1)} ≤
      Nat.card ((Fin l → PolyChallenge K (mulDegree m)) ×
        ((Fin m → PolyChallenge K (mulDegree m)) × PolyPoint K (mulDegree m)) ×
        ((Fin m → PolyChallenge K (mulDegree m)) × PolyPoint K (mulDegree m))) := by
  have hm0 : 0 < m := by
    rcases Nat.eq_zero_or_pos m with rfl | h
    · obtain ⟨x, -, hx, -⟩ := hbad
      rw [List.getElem?_eq_none (by rw [hp]; omega)] at hx
      cases hx
    · exact h
  obtain ⟨-, d, -, -, -, -, -, -, hsec, hdeg⟩ := mulModulus_spec (K := K) (by omega) m hm
  obtain rfl : d = mulDegree m := hdeg
  rw [C80_challenges]
  exact bits_of_bound_two hK hm0 hsec (C75_challenges (K := K) l m).1
    (C80_mul_sound G (by omega) h64 l m hm vp vn hp hn q hbad proof proofNext)

/-- The same for dot products. -/
theorem C80_dot_bits (G : Prg) {K : Nat} (hK : 2 ≤ K) (h64 : K < 64) (size l m : Nat) (hm : m ≤ 2 ^ 22)
    (vp vn : List (DInput K)) (hp : vp.length = l * m) (hn : vn.length = l * m) (hps : ∀ x ∈ vp, x.Sized size)
    (hns : ∀ x ∈ vn, x.Sized size) (q : Nat)
    (hbad : WrongDot vp vn q) (proof proofNext : (Fin l → PolyChallenge K (mulDegree m)) → ZkPf (Poly (BitVec K))) :
    2 ^ 38 * Nat.card {c : (Fin l → PolyChallenge K (mulDegree m)) ×
          ((Fin m → PolyChallenge K (mulDegree m)) × PolyPoint K (mulDegree m)) ×
          ((Fin m → PolyChallenge K (mulDegree m)) × PolyPoint K (mulDegree m)) //
        DotAcceptsTwo G size l m vp vn (List.ofFn fun j => (c.1 j).poly) (List.ofFn fun k => (c.2.1.1 k).poly)
          (PolyChallenge.poly c.2.1.2.1) (List.ofFn fun k => (c.2.2.1 k).poly) (PolyChallenge.poly c.2.2.2.1)
          (proof c.1) (proofNext c.1)} ≤
      Nat.card ((Fin l → PolyChallenge K (mulDegree m)) ×
        ((Fin m → PolyChallenge K (mulDegree m)) × PolyPoint K (mulDegree m)) ×
        ((Fin m → PolyChallenge K (mulDegree m)) × PolyPoint K (mulDegree m))) := by
  have hm0 : 0 < m := by
    rcases Nat.eq_zero_or_pos m with rfl | h
    · obtain ⟨x, -, hx, -⟩ := hbad
      rw [List.getElem?_eq_none (by rw [hp]; omega)] at hx
      cases hx
    · exact h
  obtain ⟨-, d, -, -, -, -, -, -, hsec, hdeg⟩ := mulModulus_spec (K := K) (by omega) m hm
  obtain rfl : d = mulDegree m := hdeg
  rw [C80_challenges]
  exact bits_of_bound_two hK hm0 hsec (C75_challenges (K := K) l m).1
    (C80_dot_sound G (by omega) h64 size l m hm vp vn hp hn hps hns q hbad proof proofNext)

/-- With the same challenges for both, this is acceptance in the sense of C56 and C75. -/
theorem C80_same (G : Prg) {K : Nat} (size l m : Nat) :
    (∀ vp vn θ β r pf pf', AndAcceptsTwo G l m vp vn θ β r β r pf pf' ↔ AndAccepts G l m vp vn θ β r pf pf') ∧
    (∀ (vp vn : List (ZInput (BitVec K))) θ β r pf pf',
      MulAcceptsTwo G l m vp vn θ β r β r pf pf' ↔ MulAccepts G l m vp vn θ β r pf pf') ∧
    ∀ (vp vn : List (DInput K)) θ β r pf pf',
      DotAcceptsTwo G size l m vp vn θ β r β r pf pf' ↔ DotAccepts G size l m vp vn θ β r pf pf' :=
  ⟨fun _ _ _ _ _ _ _ => Iff.rfl, fun _ _ _ _ _ _ _ => Iff.rfl, fun _ _ _ _ _ _ _ => Iff.rfl⟩

/-- Non-vacuity: a wrong AND gate (`1 · 1 = 1`, claimed 0), one row, one column. -/
example (G : Prg) (proof proofNext : (Fin 1 → GF2p64) → ZkPf GF2p64) :
    2 ^ 39 * Nat.card {c : (Fin 1 → GF2p64) × ((Fin 1 → GF2p64) × AndChallenge 1) × ((Fin 1 → GF2p64) × AndChallenge 1) //
        AndAcceptsTwo G 1 1 [⟨true, false, true, false, false, false⟩] [⟨false, false, false, false, false, false⟩]
          (List.ofFn c.1) (List.ofFn c.2.1.1) c.2.1.2.1 (List.ofFn c.2.2.1) c.2.2.2.1 (proof c.1) (proofNext c.1)} ≤
      Nat.card ((Fin 1 → GF2p64) × ((Fin 1 → GF2p64) × AndChallenge 1) × ((Fin 1 → GF2p64) × AndChallenge 1)) :=
  C80_and_bits G 1 1 (by norm_num) _ _ rfl rfl 0 ⟨_, _, rfl, rfl, by simp⟩ proof proofNext

/-- A wrong dot product (`2 · 3 + 1 · 1 = 6`) has wrong views of the right sizes. -/
example : WrongDot (K := 16) [⟨[2, 1], [0, 0], [3, 1], [0, 0], 0, 6⟩] [DInput.new 16 2] 0 ∧
    (∀ x ∈ [(⟨[2, 1], [0, 0], [3, 1], [0, 0], 0, 6⟩ : DInput 16)], x.Sized 2) ∧ ∀ x ∈ [DInput.new 16 2], x.Sized 2 :=
  ⟨⟨_, _, rfl, rfl, by decide⟩, by simp [DInput.Sized], by simp [DInput.Sized, DInput.new]⟩

/-- A wrong multiplication (`2 · 3 = 7`). -/
example : WrongMul (K := 16) [⟨2, 0, 3, 0, 0, 7⟩] [⟨0, 0, 0, 0, 0, 0⟩] 0 := ⟨_, _, rfl, rfl, by decide⟩

end Verif
