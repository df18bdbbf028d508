import Verif.Spec.Dzkp
import Verif.Spec.Swift3Verify
import Verif.Proof.ZkMulSound

/-! # Property C75: the distributed zero-knowledge proofs for multiplications and dot products are sound -/

namespace Verif

/-- C75, multiplications: if at least one gate is wrong in the views of the verifiers, then whatever the prover sends (it
may choose its messages after seeing the `θ`s, but before the `β`s and `r`), the challenges `(θ, β, r)` for which it is
accepted are at most a fraction `1/2^d + (2m/2^d) · (2^(K d)/#r)` of all challenges (here multiplied out), where `d` is
the degree of the modulus, `ceil(log2(2m)) + 40`. -/
theorem C75_mul_sound (G : Prg) {K : Nat} (hK : 0 < K) (h64 : K < 64) (l m : Nat) (hm : m ≤ 2 ^ 22)
    (vp vn : List (ZInput (BitVec K))) (hp : vp.length = l * m) (hn : vn.length = l * m) (q : Nat)
    (hbad : WrongMul vp vn q) (proof proofNext : (Fin l → PolyChallenge K (mulDegree m)) → ZkPf (Poly (BitVec K))) :
    2 ^ mulDegree m * Nat.card {c : (Fin l → PolyChallenge K (mulDegree m)) × (Fin m → PolyChallenge K (mulDegree m)) ×
          PolyPoint K (mulDegree m) //
        MulAccepts G l m vp vn (List.ofFn fun j => (c.1 j).poly) (List.ofFn fun k => (c.2.1 k).poly)
          (PolyChallenge.poly c.2.2.1) (proof c.1) (proofNext c.1)} ≤
      (2 ^ (K * mulDegree m)) ^ (l + m) * (Nat.card (PolyPoint K (mulDegree m)) + 2 * m * 2 ^ (K * mulDegree m)) := by
  obtain ⟨x, y, hx, hy, hne⟩ := hbad
  have hq : q < l * m := by
    rw [← hp]
    by_contra h
    rw [List.getElem?_eq_none (by omega)] at hx
    cases hx
  obtain ⟨md, d, emd, h40, hd, hmon, hirr, hpts, -, hdeg⟩ := mulModulus_spec hK m hm
  obtain rfl : d = mulDegree m := hdeg
  have := poly_sound hK h64 (mulEnv G K md) (by omega) hd hmon hirr (fun _ => rfl) mulCirc_lawful ZInput.val
    ⟨0, 0, 0, 0, 0, 0⟩ l m hpts vp vn hp hn (fun _ _ x _ i hi => mul_wire G md x i hi) q hq (by
      simp only [List.getD_eq_getElem?_getD, hx, hy, Option.getD_some]
      intro h
      apply hne
      have h' : (x.a0 + y.a0) * (x.b0 + y.b0) + (x.a0 + y.a0) * (x.b1 + y.b1) + (x.a1 + y.a1) * (x.b0 + y.b0) +
        (x.r + y.r) - (x.s + y.s) = 0 := h
      exact sub_eq_zero.1 h') (Subtype.val : PolyPoint K (mulDegree m) → _) Subtype.val_injective proof proofNext
  rw [natCard_challenge] at this
  refine le_trans (Nat.mul_le_mul_left _ ?_) this
  refine Nat.card_le_card_of_injective (fun c => ⟨c.1, ?_⟩) ?_
  · obtain ⟨md', Ls, v1, v2, e1, e2, e3, e4, e5⟩ := c.2
    obtain rfl : md = md' := Except.ok.inj (emd.symm.trans e1)
    exact ⟨Ls, v1, v2, e2, e3, e4, e5⟩
  · intro a b h
    have h := congrArg Subtype.val h
    exact Subtype.ext h

/-- C75, dot products. -/
theorem C75_dot_sound (G : Prg) {K : Nat} (hK : 0 < K) (h64 : K < 64) (size l m : Nat) (hm : m ≤ 2 ^ 22)
    (vp vn : List (DInput K)) (hp : vp.length = l * m) (hn : vn.length = l * m) (hps : ∀ x ∈ vp, x.Sized size)
    (hns : ∀ x ∈ vn, x.Sized size) (q : Nat)
    (hbad : WrongDot vp vn q) (proof proofNext : (Fin l → PolyChallenge K (mulDegree m)) → ZkPf (Poly (BitVec K))) :
    2 ^ mulDegree m * Nat.card {c : (Fin l → PolyChallenge K (mulDegree m)) × (Fin m → PolyChallenge K (mulDegree m)) ×
          PolyPoint K (mulDegree m) //
        DotAccepts G size l m vp vn (List.ofFn fun j => (c.1 j).poly) (List.ofFn fun k => (c.2.1 k).poly)
          (PolyChallenge.poly c.2.2.1) (proof c.1) (proofNext c.1)} ≤
      (2 ^ (K * mulDegree m)) ^ (l + m) * (Nat.card (PolyPoint K (mulDegree m)) + 2 * m * 2 ^ (K * mulDegree m)) := by
  obtain ⟨x, y, hx, hy, hne⟩ := hbad
  have hq : q < l * m := by
    rw [← hp]
    by_contra h
    rw [List.getElem?_eq_none (by omega)] at hx
    cases hx
  have hxs := hps x (List.mem_of_getElem? hx)
  have hys := hns y (List.mem_of_getElem? hy)
  obtain ⟨md, d, emd, h40, hd, hmon, hirr, hpts, -, hdeg⟩ := mulModulus_spec hK m hm
  obtain rfl : d = mulDegree m := hdeg
  have := poly_sound hK h64 (dotEnv G K md size) (by omega) hd hmon hirr (fun _ => rfl) (dotCirc_lawful size) DInput.val
    (DInput.new K size) l m hpts vp vn hp hn (fun inputs hi x' hx' i hw => dot_wire G md size x' (by
      simp only [List.mem_cons, List.not_mem_nil, or_false] at hi
      rcases hi with rfl | rfl
      · exact hps x' hx'
      · exact hns x' hx') i hw) q hq (by
      simp only [List.getD_eq_getElem?_getD, hx, hy, Option.getD_some]
      intro h
      apply hne
      have hz : (⟨List.zipWith (· + ·) x.a0 y.a0, List.zipWith (· + ·) x.a1 y.a1, List.zipWith (· + ·) x.b0 y.b0,
          List.zipWith (· + ·) x.b1 y.b1, x.r + y.r, x.s + y.s⟩ : DInput K).Sized size := by
        obtain ⟨h0, h1, h2, h3⟩ := hxs
        obtain ⟨k0, k1, k2, k3⟩ := hys
        simp [DInput.Sized, *]
      have e := DInput.dotExpr_eq hz
      have h1 : dotExpr size (BitVec K) ((List.range (4 * size + 2)).map fun i => x.val i + y.val i) = 0 := h
      rw [← List.map_congr_left (fun i hi => DInput.val_add hz hxs hys rfl i (List.mem_range.1 hi)), e] at h1
      simp only [innerProd]
      linear_combination h1) (Subtype.val : PolyPoint K (mulDegree m) → _) Subtype.val_injective proof proofNext
  rw [natCard_challenge] at this
  refine le_trans (Nat.mul_le_mul_left _ ?_) this
  refine Nat.card_le_card_of_injective (fun c => ⟨c.1, ?_⟩) ?_
  · obtain ⟨md', Ls, v1, v2, e1, e2, e3, e4, e5⟩ := c.2
    obtain rfl : md = md' := Except.ok.inj (emd.symm.trans e1)
    exact ⟨Ls, v1, v2, e2, e3, e4, e5⟩
  · intro a b h
    have h := congrArg Subtype.val h
    exact Subtype.ext h

/-- The number of the points `r` and of all challenges. -/
theorem C75_challenges {K : Nat} (l m : Nat) :
    2 ^ K * Nat.card (PolyPoint K (mulDegree m)) = (2 ^ K - 1) * 2 ^ (K * mulDegree m) ∧
    Nat.card ((Fin l → PolyChallenge K (mulDegree m)) × (Fin m → PolyChallenge K (mulDegree m)) ×
        PolyPoint K (mulDegree m)) =
      (2 ^ (K * mulDegree m)) ^ (l + m) * Nat.card (PolyPoint K (mulDegree m)) := by
  refine ⟨natCard_point (by unfold mulDegree; omega), ?_⟩
  have h : ∀ n : Nat, Nat.card (Fin n → PolyChallenge K (mulDegree m)) = (2 ^ (K * mulDegree m)) ^ n := by
    intro n
    rw [← natCard_challenge (K := K) (d := mulDegree m)]
    simp [Nat.card_fun (α := Fin n)]
  rw [Nat.card_prod, Nat.card_prod, h, h, pow_add]; ring

/-- The arithmetic behind `C75_mul_bits`, `C75_dot_bits`. -/
theorem bits_of_bound {K m n A P R : Nat} (hK : 2 ≤ K) (hm : 0 < m) (hd : 2 ^ 40 * (2 * m) ≤ 2 ^ n) {T : Nat}
    (hR : 2 ^ K * R = (2 ^ K - 1) * T) (h : 2 ^ n * A ≤ P * (R + 2 * m * T)) : 2 ^ 39 * A ≤ P * R := by
  have h4 : 4 ≤ 2 ^ K := by
    calc 4 = 2 ^ 2 := rfl
      _ ≤ 2 ^ K := Nat.pow_le_pow_right (by norm_num) hK
  have hT : 3 * T ≤ 4 * R := by
    generalize 2 ^ K = k at hR h4
    obtain ⟨j, rfl⟩ : ∃ j, k = j + 4 := ⟨k - 4, by omega⟩
    have : (j + 4) * R = (j + 3) * T := hR
    have hTR : R ≤ T := by nlinarith
    nlinarith
  have h1 : 2 ^ 40 * (2 * m) * A ≤ P * (R + 2 * m * T) := le_trans (Nat.mul_le_mul_right _ hd) h
  have h2 : R + 2 * m * T ≤ 4 * m * R := by nlinarith
  have h3 : (4 * m) * (2 ^ 39 * A) ≤ (4 * m) * (P * R) := by
    calc (4 * m) * (2 ^ 39 * A) = 2 ^ 40 * (2 * m) * A := by ring
      _ ≤ P * (R + 2 * m * T) := h1
      _ ≤ P * (4 * m * R) := Nat.mul_le_mul_left _ h2
      _ = (4 * m) * (P * R) := by ring
  exact Nat.le_of_mul_le_mul_left h3 (by omega)

/-- C75 for the parameters of the code: a wrong multiplication is accepted for at most a fraction `2^-39` of the
challenges. -/
theorem C75_mul_bits (G : Prg) {K : Nat} (hK : 2 ≤ K) (h64 : K < 64) (l m : Nat) (hm : m ≤ 2 ^ 22)
    (vp vn : List (ZInput (BitVec K))) (hp : vp.length = l * m) (hn : vn.length = l * m) (q : Nat)
    (hbad : WrongMul vp vn q) (proof proofNext : (Fin l → PolyChallenge K (mulDegree m)) → ZkPf (Poly (BitVec K))) :
    2 ^ 39 * Nat.card {c : (Fin l → PolyChallenge K (mulDegree m)) × (Fin m → PolyChallenge K (mulDegree m)) ×
          PolyPoint K (mulDegree m) //
        MulAccepts G l m vp vn (List.ofFn fun j => (c.1 j).poly) (List.ofFn fun k => (c.2.1 k).poly)
          (PolyChallenge.poly c.2.2.1) (proof c.1) (proofNext c.1)} ≤
      Nat.card ((Fin l → PolyChallenge K (mulDegree m)) × (Fin m → PolyChallenge K (mulDegree m)) ×
        PolyPoint K (mulDegree m)) := by
  have hm0 : 0 < m := by
    rcases Nat.eq_zero_or_pos m with rfl | h
    · obtain ⟨x, -, hx, -⟩ := hbad
      rw [List.getElem?_eq_none (by rw [hp]; omega)] at hx
      cases hx
    · exact h
  obtain ⟨-, d, -, -, -, -, -, -, hsec, hdeg⟩ := mulModulus_spec (K := K) (by omega) m hm
  obtain rfl : d = mulDegree m := hdeg
  obtain ⟨c1, c2⟩ := C75_challenges (K := K) l m
  rw [c2]
  exact bits_of_bound hK hm0 hsec c1 (C75_mul_sound G (by omega) h64 l m hm vp vn hp hn q hbad proof proofNext)

/-- The same for dot products. -/
theorem C75_dot_bits (G : Prg) {K : Nat} (hK : 2 ≤ K) (h64 : K < 64) (size l m : Nat) (hm : m ≤ 2 ^ 22)
    (vp vn : List (DInput K)) (hp : vp.length = l * m) (hn : vn.length = l * m) (hps : ∀ x ∈ vp, x.Sized size)
    (hns : ∀ x ∈ vn, x.Sized size) (q : Nat)
    (hbad : WrongDot vp vn q) (proof proofNext : (Fin l → PolyChallenge K (mulDegree m)) → ZkPf (Poly (BitVec K))) :
    2 ^ 39 * Nat.card {c : (Fin l → PolyChallenge K (mulDegree m)) × (Fin m → PolyChallenge K (mulDegree m)) ×
          PolyPoint K (mulDegree m) //
        DotAccepts G size l m vp vn (List.ofFn fun j => (c.1 j).poly) (List.ofFn fun k => (c.2.1 k).poly)
          (PolyChallenge.poly c.2.2.1) (proof c.1) (proofNext c.1)} ≤
      Nat.card ((Fin l → PolyChallenge K (mulDegree m)) × (Fin m → PolyChallenge K (mulDegree m)) ×
        PolyPoint K (mulDegree m)) := by
  have hm0 : 0 < m := by
    rcases Nat.eq_zero_or_pos m with rfl | h
    · obtain ⟨x, -, hx, -⟩ := hbad
      rw [List.getElem?_eq_none (by rw [hp]; omega)] at hx
      cases hx
    · exact h
  obtain ⟨-, d, -, -, -, -, -, -, hsec, hdeg⟩ := mulModulus_spec (K := K) (by omega) m hm
  obtain rfl : d = mulDegree m := hdeg
  obtain ⟨c1, c2⟩ := C75_challenges (K := K) l m
  rw [c2]
  exact bits_of_bound hK hm0 hsec c1 (C75_dot_sound G (by omega) h64 size l m hm vp vn hp hn hps hns q hbad proof proofNext)

/-- The challenges counted above are those of the code: whatever the generators, the `θ`s, `β`s and `r` that the parties
of `mul_verify` arrive at have this form. -/
theorem C75_drawn {G : Prg} {K : Nat} (hK : 0 < K) (l m : Nat) (hm : m ≤ 2 ^ 22) (md : Poly (BitVec K))
    (hmd : mulModulus K m = .ok md) (pp : G.S) (rng : Party → G.S) (ch : Challenges (Poly (BitVec K)))
    (h : zkChallenges (mulEnv G K md) mulBad l m pp rng = some ch) (i : Party) :
    ∃ (θ : Fin l → PolyChallenge K (mulDegree m)) (β : Fin m → PolyChallenge K (mulDegree m))
      (r : PolyPoint K (mulDegree m)),
      ch.thetas i = List.ofFn (fun j => (θ j).poly) ∧ ch.betas i = List.ofFn (fun k => (β k).poly) ∧
        ch.r i = PolyChallenge.poly r.1 := by
  obtain ⟨md', d, emd, h40, -, hmon, -, -, -, hdeg⟩ := mulModulus_spec hK m hm
  obtain rfl : d = mulDegree m := hdeg
  obtain rfl : md = md' := Except.ok.inj (hmd.symm.trans emd)
  exact challenges_shape hK hmon (by omega) (mulEnv G K md) (fun _ => rfl) l m pp rng ch h i

/-- The same for `dot_verify`. -/
theorem C75_drawn_dot {G : Prg} {K : Nat} (hK : 0 < K) (size l m : Nat) (hm : m ≤ 2 ^ 22) (md : Poly (BitVec K))
    (hmd : mulModulus K m = .ok md) (pp : G.S) (rng : Party → G.S) (ch : Challenges (Poly (BitVec K)))
    (h : zkChallenges (dotEnv G K md size) mulBad l m pp rng = some ch) (i : Party) :
    ∃ (θ : Fin l → PolyChallenge K (mulDegree m)) (β : Fin m → PolyChallenge K (mulDegree m))
      (r : PolyPoint K (mulDegree m)),
      ch.thetas i = List.ofFn (fun j => (θ j).poly) ∧ ch.betas i = List.ofFn (fun k => (β k).poly) ∧
        ch.r i = PolyChallenge.poly r.1 := by
  obtain ⟨md', d, emd, h40, -, hmon, -, -, -, hdeg⟩ := mulModulus_spec hK m hm
  obtain rfl : d = mulDegree m := hdeg
  obtain rfl : md = md' := Except.ok.inj (hmd.symm.trans emd)
  exact challenges_shape hK hmon (by omega) (dotEnv G K md size) (fun _ => rfl) l m pp rng ch h i

/-- Non-vacuity: a wrong gate of 16-bit numbers (`2 · 3 = 7`), one row, one column. -/
example (G : Prg) (proof proofNext : (Fin 1 → PolyChallenge 16 (mulDegree 1)) → ZkPf (Poly (BitVec 16))) :
    2 ^ 39 * Nat.card {c : (Fin 1 → PolyChallenge 16 (mulDegree 1)) × (Fin 1 → PolyChallenge 16 (mulDegree 1)) ×
          PolyPoint 16 (mulDegree 1) //
        MulAccepts G 1 1 [⟨2, 0, 3, 0, 0, 7⟩] [⟨0, 0, 0, 0, 0, 0⟩] (List.ofFn fun j => (c.1 j).poly)
          (List.ofFn fun k => (c.2.1 k).poly) (PolyChallenge.poly c.2.2.1) (proof c.1) (proofNext c.1)} ≤
      Nat.card ((Fin 1 → PolyChallenge 16 (mulDegree 1)) × (Fin 1 → PolyChallenge 16 (mulDegree 1)) ×
        PolyPoint 16 (mulDegree 1)) :=
  C75_mul_bits G (by norm_num) (by norm_num) 1 1 (by norm_num) _ _ rfl rfl 0 ⟨_, _, rfl, rfl, by decide⟩ proof proofNext

/-- A wrong dot product (`2 · 3 + 1 · 1 = 6`). -/
example (G : Prg) (proof proofNext : (Fin 1 → PolyChallenge 16 (mulDegree 1)) → ZkPf (Poly (BitVec 16))) :
    2 ^ 39 * Nat.card {c : (Fin 1 → PolyChallenge 16 (mulDegree 1)) × (Fin 1 → PolyChallenge 16 (mulDegree 1)) ×
          PolyPoint 16 (mulDegree 1) //
        DotAccepts G 2 1 1 [⟨[2, 1], [0, 0], [3, 1], [0, 0], 0, 6⟩] [DInput.new 16 2] (List.ofFn fun j => (c.1 j).poly)
          (List.ofFn fun k => (c.2.1 k).poly) (PolyChallenge.poly c.2.2.1) (proof c.1) (proofNext c.1)} ≤
      Nat.card ((Fin 1 → PolyChallenge 16 (mulDegree 1)) × (Fin 1 → PolyChallenge 16 (mulDegree 1)) ×
        PolyPoint 16 (mulDegree 1)) :=
  C75_dot_bits G (by norm_num) (by norm_num) 2 1 1 (by norm_num) _ _ rfl rfl (by simp [DInput.Sized])
    (by simp [DInput.Sized, DInput.new]) 0 ⟨_, _, rfl, rfl, by decide⟩ proof proofNext

end Verif
