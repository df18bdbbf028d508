import Verif.Spec.Dzkp
import Verif.Proof.ZkMul

/-! # Property C44: the distributed zero-knowledge proofs for multiplications and dot products, honest parties

The property as stated ("accepted for every value and randomness") does not hold: `combine_verifications` compares
coefficient vectors, one of which is reduced and shrunk while the other is the sum of two shrunk vectors. The theorems
say exactly when an honest session is rejected. -/

namespace Verif

/-- C44, multiplications: for rings of less than 64 bits, consistent views of correct gates, parameters that cover them,
all challenges and all randomness, both verifiers succeed, and the proof is accepted exactly when the leading
coefficients of the two parts of `p(r)` do not cancel; otherwise it is rejected, although everybody is honest. -/
theorem C44_mul (G : Prg) {K : Nat} (hK : 0 < K) (h64 : K < 64) (z zNext zPrev : ZProof (BitVec K))
    (h : Gates MulGateOk z.proof zNext.verifyPrev zPrev.verifyNext) (hN : zNext.proof.length = z.proof.length)
    (hP : zPrev.proof.length = z.proof.length) (l m : Nat) (hlm : z.proof.length ≤ l * m) (hm : m ≤ 2 ^ 22)
    (thetas betas : List (Poly (BitVec K))) (hth : thetas.length = l) (hbe : betas.length = m) (r : Poly (BitVec K))
    (rng : G.S) :
    ∃ md v1 v2, mulViews G z zNext zPrev l m thetas betas r rng = .ok (md, v1, v2) ∧
      (¬ LeadCancels v1.pr v2.pr → mulSession G z zNext zPrev l m thetas betas r rng = .ok ()) ∧
      (LeadCancels v1.pr v2.pr → mulSession G z zNext zPrev l m thetas betas r rng = .error .dzkpVerify) := by
  have hd : MulGateOk (⟨0, 0, 0, 0, 0, 0⟩ : ZInput (BitVec K)) ⟨0, 0, 0, 0, 0, 0⟩ ⟨0, 0, 0, 0, 0, 0⟩ := by
    simp [MulGateOk]
  have hg := h.resize (l * m) _ hd hlm
  have hlen : (resize z.proof (l * m) (⟨0, 0, 0, 0, 0, 0⟩ : ZInput (BitVec K))).length = l * m := Poly.length_resize _ _ _
  obtain ⟨md, Ls, sd, pf, rng', emd, eL, e, hrest⟩ := mul_complete G hK h64 l m hm _ _ _ hg hlen thetas hth rng
  obtain ⟨v1, v2, e1, e2, hc1, hc2⟩ := hrest betas r hbe
  have hs : ∀ w : ZProof (BitVec K), w.proof.length = z.proof.length → w.setParameters ⟨0, 0, 0, 0, 0, 0⟩ l m =
      .ok ⟨l, m, resize w.proof (l * m) ⟨0, 0, 0, 0, 0, 0⟩, resize w.verifyPrev (l * m) ⟨0, 0, 0, 0, 0, 0⟩,
        resize w.verifyNext (l * m) ⟨0, 0, 0, 0, 0, 0⟩⟩ := by
    intro w hw
    unfold ZProof.setParameters
    rw [if_pos (show w.getMuls ≤ l * m by unfold ZProof.getMuls; omega)]
  have hv : mulViews G z zNext zPrev l m thetas betas r rng = .ok (md, v1, v2) := by
    unfold mulViews
    rw [hs z rfl, hs zNext hN, hs zPrev hP, emd]
    simp only [bind, Except.bind, eL, e, e1, e2]
    rfl
  refine ⟨md, v1, v2, hv, fun h' => ?_, fun h' => ?_⟩
  · unfold mulSession; rw [hv]; exact hc2 h'
  · unfold mulSession; rw [hv]; exact hc1 h'

/-- C44, dot products: the same; the gates may have different sizes, as recorded by `register_dot`. -/
theorem C44_dot (G : Prg) {K : Nat} (hK : 0 < K) (h64 : K < 64) (z zNext zPrev : DProof K)
    (h : Gates DotGateOk z.proof zNext.verifyPrev zPrev.verifyNext) (hs : z.SizesOk)
    (hN : zNext.proof.length = z.proof.length) (hP : zPrev.proof.length = z.proof.length)
    (hNd : zNext.dotSize = z.dotSize) (hPd : zPrev.dotSize = z.dotSize) (hNm : zNext.maxDot = z.maxDot)
    (hPm : zPrev.maxDot = z.maxDot) (l m : Nat) (hlm : z.proof.length ≤ l * m) (hm : m ≤ 2 ^ 22)
    (thetas betas : List (Poly (BitVec K))) (hth : thetas.length = l) (hbe : betas.length = m) (r : Poly (BitVec K))
    (rng : G.S) :
    ∃ md v1 v2, dotViews G z zNext zPrev l m thetas betas r rng = .ok (md, v1, v2) ∧
      (¬ LeadCancels v1.pr v2.pr → dotSession G z zNext zPrev l m thetas betas r rng = .ok ()) ∧
      (LeadCancels v1.pr v2.pr → dotSession G z zNext zPrev l m thetas betas r rng = .error .dzkpVerify) := by
  have hg := dot_padded z _ _ h hs (l * m) hlm
  have hlen : (padFirst z.dotSize z.maxDot (resize z.proof (l * m) (DInput.new K z.dotSize))).length = l * m := by
    have : ∀ l : List (DInput K), (padFirst z.dotSize z.maxDot l).length = l.length := by
      intro l; unfold padFirst; simp; omega
    rw [this, Poly.length_resize]
  obtain ⟨md, Ls, sd, pf, rng', emd, eL, e, hrest⟩ := dot_complete G hK h64 z.dotSize l m hm _ _ _ hg hlen thetas hth rng
  obtain ⟨v1, v2, e1, e2, hc1, hc2⟩ := hrest betas r hbe
  have hsp : ∀ w : DProof K, w.proof.length = z.proof.length → w.dotSize = z.dotSize → w.maxDot = z.maxDot →
      w.setParameters l m = .ok { w with
        l := l
        m := m
        proof := padFirst z.dotSize z.maxDot (resize w.proof (l * m) (DInput.new K z.dotSize))
        verifyPrev := padFirst z.dotSize z.maxDot (resize w.verifyPrev (l * m) (DInput.new K z.dotSize))
        verifyNext := padFirst z.dotSize z.maxDot (resize w.verifyNext (l * m) (DInput.new K z.dotSize)) } := by
    intro w hw h1 h2
    unfold DProof.setParameters
    rw [if_pos (show w.getMuls ≤ l * m by unfold DProof.getMuls; omega), h1, h2]
  have hv : dotViews G z zNext zPrev l m thetas betas r rng = .ok (md, v1, v2) := by
    unfold dotViews
    rw [hsp z rfl rfl rfl, hsp zNext hN hNd hNm, hsp zPrev hP hPd hPm, emd]
    simp only [bind, Except.bind, eL, e, hNd, hPd, e1, e2]
    rfl
  refine ⟨md, v1, v2, hv, fun h' => ?_, fun h' => ?_⟩
  · unfold dotSession; rw [hv, hPd]; exact hc2 h'
  · unfold dotSession; rw [hv, hPd]; exact hc1 h'

/-- When the leading coefficients cannot cancel: vectors of different lengths, or of length one, or (the usual case, all
but a fraction of about `2^-K`) the coefficient at the highest position of the sum does not vanish. -/
theorem C44_accept_top {K : Nat} (p q : Poly (BitVec K)) (d : Nat) (hp : p.coeffs.length ≤ d) (hq : q.coeffs.length ≤ d)
    (h : p.coeffs.getD (d - 1) 0 + q.coeffs.getD (d - 1) 0 ≠ 0) : ¬ LeadCancels p q := by
  rintro ⟨h1, h2, h3⟩
  apply h
  by_cases hd : p.coeffs.length = d
  · have e1 : p.coeffs.getLast? = some (p.coeffs[d - 1]'(by omega)) := by
      rw [List.getLast?_eq_getElem?, show p.coeffs.length - 1 = d - 1 by omega, List.getElem?_eq_getElem (by omega)]
    have e2 : q.coeffs.getLast? = some (q.coeffs[d - 1]'(by omega)) := by
      rw [List.getLast?_eq_getElem?, show q.coeffs.length - 1 = d - 1 by omega, List.getElem?_eq_getElem (by omega)]
    have := h3 _ _ e1 e2
    rw [List.getD_eq_getElem?_getD, List.getD_eq_getElem?_getD, List.getElem?_eq_getElem (by omega),
      List.getElem?_eq_getElem (by omega)]
    exact this
  · rw [List.getD_eq_getElem?_getD, List.getD_eq_getElem?_getD, List.getElem?_eq_none (by omega),
      List.getElem?_eq_none (by omega)]
    simp

/-- The parameters that `calc_params` computes for multiplications cover the gates, and are in range up to `2^44`
gates. -/
theorem C44_params {K : Nat} (z : ZProof (BitVec K)) (h0 : z.proof ≠ []) :
    z.proof.length ≤ z.calcParams.1 * z.calcParams.2 ∧ (z.proof.length ≤ 2 ^ 44 → z.calcParams.2 ≤ 2 ^ 22) := by
  have hn : 0 < z.proof.length := List.length_pos_iff.2 h0
  unfold ZProof.calcParams ZProof.getMuls
  generalize z.proof.length = n at hn
  obtain ⟨hc1, hc2⟩ := ceilSqrt_spec n
  have hl : 0 < ceilSqrt n := by
    rcases Nat.eq_zero_or_pos (ceilSqrt n) with h | h
    · rw [h] at hc1; omega
    · exact h
  obtain ⟨hd1, hd2⟩ := ceilDiv_spec n (ceilSqrt n) hl
  refine ⟨hd1, fun hle => ?_⟩
  have h1 : ceilSqrt n ≤ 2 ^ 22 := hc2 _ (by norm_num; omega)
  have h2 : ceilDiv n (ceilSqrt n) ≤ ceilSqrt n := hd2 _ hc1
  exact le_trans h2 h1

/-- The same for dot products, up to `(4 · dot + 2) · gates ≤ 2^44`. -/
theorem C44_params_dot {K : Nat} (z : DProof K) (h0 : z.proof ≠ []) :
    z.proof.length ≤ z.calcParams.1 * z.calcParams.2 ∧
      ((4 * z.dotSize + 2) * z.proof.length ≤ 2 ^ 44 → z.calcParams.2 ≤ 2 ^ 22) := by
  have hn : 0 < z.proof.length := List.length_pos_iff.2 h0
  unfold DProof.calcParams DProof.getMuls
  generalize z.proof.length = n at hn
  obtain ⟨hc1, hc2⟩ := ceilSqrt_spec ((4 * z.dotSize + 2) * n)
  have hpos : 0 < (4 * z.dotSize + 2) * n := Nat.mul_pos (by omega) hn
  have hl : 0 < ceilSqrt ((4 * z.dotSize + 2) * n) := by
    rcases Nat.eq_zero_or_pos (ceilSqrt ((4 * z.dotSize + 2) * n)) with h | h
    · rw [h] at hc1; omega
    · exact h
  obtain ⟨hd1, -⟩ := ceilDiv_spec n _ hl
  refine ⟨by rw [Nat.mul_comm]; exact hd1, fun hle => hc2 _ (by norm_num; omega)⟩

/-- Rings of 64 bits and more: the session panics, whatever the inputs. -/
theorem C44_wide_mul (G : Prg) {K : Nat} (h : 64 ≤ K) (z zNext zPrev : ZProof (BitVec K)) (l m : Nat) (hm : 0 < m)
    (thetas betas : List (Poly (BitVec K))) (r : Poly (BitVec K)) (rng : G.S) :
    mulSession G z zNext zPrev l m thetas betas r rng = .error .panic := by
  unfold mulSession mulViews
  cases e1 : z.setParameters ⟨0, 0, 0, 0, 0, 0⟩ l m with
  | error e => rw [setParameters_panics _ _ _ _ _ e1]; rfl
  | ok a =>
    cases e2 : zNext.setParameters ⟨0, 0, 0, 0, 0, 0⟩ l m with
    | error e => rw [setParameters_panics _ _ _ _ _ e2]; rfl
    | ok b =>
      cases e3 : zPrev.setParameters ⟨0, 0, 0, 0, 0, 0⟩ l m with
      | error e => rw [setParameters_panics _ _ _ _ _ e3]; rfl
      | ok c =>
        cases e4 : mulModulus K m with
        | error e => rw [mulModulus_panics _ _ e4]; rfl
        | ok md =>
          simp only [bind, Except.bind, lagrangePolys_wide h md m hm]

/-- The same for dot products. -/
theorem C44_wide_dot (G : Prg) {K : Nat} (h : 64 ≤ K) (z zNext zPrev : DProof K) (l m : Nat) (hm : 0 < m)
    (thetas betas : List (Poly (BitVec K))) (r : Poly (BitVec K)) (rng : G.S) :
    dotSession G z zNext zPrev l m thetas betas r rng = .error .panic := by
  unfold dotSession dotViews
  cases e1 : z.setParameters l m with
  | error e => rw [dsetParameters_panics _ _ _ _ e1]; rfl
  | ok a =>
    cases e2 : zNext.setParameters l m with
    | error e => rw [dsetParameters_panics _ _ _ _ e2]; rfl
    | ok b =>
      cases e3 : zPrev.setParameters l m with
      | error e => rw [dsetParameters_panics _ _ _ _ e3]; rfl
      | ok c =>
        cases e4 : mulModulus K m with
        | error e => rw [mulModulus_panics _ _ e4]; rfl
        | ok md =>
          simp only [bind, Except.bind, lagrangePolys_wide h md m hm]

/-! ## An honest session that is rejected -/

/-- A generator that returns zeros (state `false`, the prover's) or ones (state `true`, expanded from a seed). -/
def constPrg : Prg where
  S := Bool
  ofSeed _ := true
  gen _ s := (if s then 1 else 0, s)
  genSeed s := (List.replicate 32 0, s)
  genRange _ s := (0, s)
  genRange_lt _ _ h := h
  genSeed_length _ := rfl

/-- The gate `1 · 1 = 1` of 16-bit numbers, with consistent views. -/
theorem constPrg_gate : Gates (MulGateOk (K := 16)) [⟨1, 0, 1, 0, 0, 1⟩] [⟨1, 0, 1, 0, 0, 1⟩] [⟨0, 0, 0, 0, 0, 0⟩] :=
  ⟨[(⟨1, 0, 1, 0, 0, 1⟩, ⟨1, 0, 1, 0, 0, 1⟩, ⟨0, 0, 0, 0, 0, 0⟩)], by simp [MulGateOk], rfl, rfl, rfl⟩

deriving instance DecidableEq for Except

/-- C44 fails for some randomness: a correct gate, honest parties, and yet the proof is rejected. -/
theorem C44_honest_rejected :
    ∃ (G : Prg) (z zNext zPrev : ZProof (BitVec 16)) (thetas betas : List (Poly (BitVec 16))) (r : Poly (BitVec 16))
      (rng : G.S), Gates MulGateOk z.proof zNext.verifyPrev zPrev.verifyNext ∧
        zNext.proof.length = z.proof.length ∧ zPrev.proof.length = z.proof.length ∧ z.calcParams = (1, 1) ∧
        thetas.length = 1 ∧ betas.length = 1 ∧
        mulSession G z zNext zPrev 1 1 thetas betas r rng = .error .dzkpVerify :=
  ⟨constPrg, ⟨0, 0, [⟨1, 0, 1, 0, 0, 1⟩], [], []⟩, ⟨0, 0, [⟨0, 0, 0, 0, 0, 0⟩], [⟨1, 0, 1, 0, 0, 1⟩], []⟩,
    ⟨0, 0, [⟨0, 0, 0, 0, 0, 0⟩], [], [⟨0, 0, 0, 0, 0, 0⟩]⟩, [⟨[1]⟩], [⟨[1]⟩], ⟨[1, 1]⟩, false, constPrg_gate, rfl, rfl,
    by decide, rfl, rfl, by decide +kernel⟩

/-- Non-vacuity of `C44_mul`: the same gate, with any generator and any challenges. -/
example (G : Prg) (θ β r : Poly (BitVec 16)) (rng : G.S) :
    ∃ md v1 v2, mulViews G (K := 16) ⟨0, 0, [⟨1, 0, 1, 0, 0, 1⟩], [], []⟩
        ⟨0, 0, [⟨0, 0, 0, 0, 0, 0⟩], [⟨1, 0, 1, 0, 0, 1⟩], []⟩ ⟨0, 0, [⟨0, 0, 0, 0, 0, 0⟩], [], [⟨0, 0, 0, 0, 0, 0⟩]⟩ 1 1
        [θ] [β] r rng = .ok (md, v1, v2) := by
  obtain ⟨md, v1, v2, h, -⟩ := C44_mul G (by norm_num) (by norm_num) ⟨0, 0, [⟨1, 0, 1, 0, 0, 1⟩], [], []⟩
    ⟨0, 0, [⟨0, 0, 0, 0, 0, 0⟩], [⟨1, 0, 1, 0, 0, 1⟩], []⟩ ⟨0, 0, [⟨0, 0, 0, 0, 0, 0⟩], [], [⟨0, 0, 0, 0, 0, 0⟩]⟩
    constPrg_gate rfl rfl 1 1 (by simp) (by norm_num) [θ] [β] rfl rfl r rng
  exact ⟨md, v1, v2, h⟩

/-- Non-vacuity of `C44_dot`: two gates of sizes one and two (so that the first is padded), `2 · 3 = 6` and
`1 · 1 + 1 · 1 = 2`. -/
example (G : Prg) (θ β₁ β₂ r : Poly (BitVec 16)) (rng : G.S) :
    ∃ md v1 v2, dotViews G (K := 16)
        ⟨0, 0, 2, 1, [⟨[2], [0], [3], [0], 0, 6⟩, ⟨[1, 1], [0, 0], [1, 1], [0, 0], 0, 2⟩], [], []⟩
        ⟨0, 0, 2, 1, [DInput.new 16 1, DInput.new 16 2],
          [⟨[2], [0], [3], [0], 0, 6⟩, ⟨[1, 1], [0, 0], [1, 1], [0, 0], 0, 2⟩], []⟩
        ⟨0, 0, 2, 1, [DInput.new 16 1, DInput.new 16 2], [], [DInput.new 16 1, DInput.new 16 2]⟩ 1 2
        [θ] [β₁, β₂] r rng = .ok (md, v1, v2) := by
  obtain ⟨md, v1, v2, h, -⟩ := C44_dot G (K := 16) (by norm_num) (by norm_num)
    ⟨0, 0, 2, 1, [⟨[2], [0], [3], [0], 0, 6⟩, ⟨[1, 1], [0, 0], [1, 1], [0, 0], 0, 2⟩], [], []⟩
    ⟨0, 0, 2, 1, [DInput.new 16 1, DInput.new 16 2],
      [⟨[2], [0], [3], [0], 0, 6⟩, ⟨[1, 1], [0, 0], [1, 1], [0, 0], 0, 2⟩], []⟩
    ⟨0, 0, 2, 1, [DInput.new 16 1, DInput.new 16 2], [], [DInput.new 16 1, DInput.new 16 2]⟩
    ⟨[(⟨[2], [0], [3], [0], 0, 6⟩, ⟨[2], [0], [3], [0], 0, 6⟩, DInput.new 16 1),
      (⟨[1, 1], [0, 0], [1, 1], [0, 0], 0, 2⟩, ⟨[1, 1], [0, 0], [1, 1], [0, 0], 0, 2⟩, DInput.new 16 2)], by
        intro g hg
        simp only [List.mem_cons, List.not_mem_nil, or_false] at hg
        rcases hg with rfl | rfl
        · exact ⟨⟨1, by simp [DInput.Sized, DInput.new]⟩, by decide, by decide⟩
        · exact ⟨⟨2, by simp [DInput.Sized, DInput.new]⟩, by decide, by decide⟩, rfl, rfl, rfl⟩
    (by
      intro k g hg
      match k, hg with
      | 0, hg => cases hg; exact ⟨1, by simp [DInput.Sized], by simp, by simp⟩
      | 1, hg => cases hg; exact ⟨2, by simp [DInput.Sized], by simp, by simp⟩
      | k + 2, hg => simp at hg)
    rfl rfl rfl rfl rfl rfl 1 2 (by simp) (by norm_num) [θ] [β₁, β₂] rfl rfl r rng
  exact ⟨md, v1, v2, h⟩

/-- Non-vacuity of `C44_accept_top` and of the cancelling case. -/
example : ¬ LeadCancels (K := 16) ⟨[1, 2]⟩ ⟨[5, 3]⟩ := C44_accept_top _ _ 2 (by simp) (by simp) (by decide)

example : LeadCancels (K := 16) ⟨[1, 2]⟩ ⟨[5, -2]⟩ :=
  ⟨rfl, by simp, fun x y hx hy => by cases hx; cases hy; decide⟩

end Verif
