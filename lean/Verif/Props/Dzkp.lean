import Verif.Spec.Dzkp
import Verif.Proof.ZkAnd
import Verif.Proof.Swift3Gates

/-! # Properties C43, C56: the distributed zero-knowledge proof for AND gates is complete and sound -/

namespace Verif

/-- C43: for consistent views of correct gates, parameters that cover them and pass the security assertion, every
challenge and every randomness, the proof is accepted. -/
theorem C43_complete (G : Prg) (z zNext zPrev : ZProof Bool)
    (h : Gates AndGateOk z.proof zNext.verifyPrev zPrev.verifyNext) (hN : zNext.proof.length = z.proof.length)
    (hP : zPrev.proof.length = z.proof.length) (l m : Nat) (hlm : z.proof.length ≤ l * m)
    (hsec : 2 ^ 40 * (2 * m + 1) < 2 ^ 64 - m) (thetas betas : List GF2p64) (hth : thetas.length = l)
    (hbe : betas.length = m) (r : GF2p64) (rng : G.S) :
    andSession G z zNext zPrev l m thetas betas r rng = .ok () := by
  have hd : AndGateOk ⟨false, false, false, false, false, false⟩ ⟨false, false, false, false, false, false⟩
      ⟨false, false, false, false, false, false⟩ := by simp [AndGateOk]
  have hg := h.resize (l * m) _ hd hlm
  have hlen : (resize z.proof (l * m) (⟨false, false, false, false, false, false⟩ : ZInput Bool)).length = l * m :=
    Poly.length_resize _ _ _
  obtain ⟨Ls, sd, pf, rng', eL, hL, e, hrest⟩ := and_complete G l m (by omega) _ _ _ hg hlen thetas hth rng
  obtain ⟨v1, v2, e1, e2, ec⟩ := hrest betas r hbe
  unfold andSession
  rw [andSetParameters_ok l m hsec z hlm, andSetParameters_ok l m hsec zNext (by omega),
    andSetParameters_ok l m hsec zPrev (by omega)]
  simp only [bind, Except.bind, eL, e, e1, e2, ec]

/-- The parameters that `calc_params` computes cover the gates, and pass the security assertion up to `2^44` gates. -/
theorem C43_params (z : ZProof Bool) (h0 : z.proof ≠ []) :
    z.proof.length ≤ z.calcParams.1 * z.calcParams.2 ∧
      (z.proof.length ≤ 2 ^ 44 → 2 ^ 40 * (2 * z.calcParams.2 + 1) < 2 ^ 64 - z.calcParams.2) := by
  have hn : 0 < z.proof.length := List.length_pos_iff.2 h0
  unfold ZProof.calcParams ZProof.getMuls
  set n := z.proof.length with hnn
  have hc : n ≤ ceilSqrt n * ceilSqrt n ∧ ∀ k, n ≤ k * k → ceilSqrt n ≤ k := by
    unfold ceilSqrt
    have h1 := Nat.sqrt_le n
    have h2 := Nat.lt_succ_sqrt n
    split
    · rename_i h
      exact ⟨by omega, fun k hk => by rw [← Nat.sqrt_eq k]; exact Nat.sqrt_le_sqrt hk⟩
    · rename_i h
      refine ⟨Nat.le_of_lt h2, fun k hk => ?_⟩
      by_contra hlt
      have : k ≤ Nat.sqrt n := by omega
      have := Nat.mul_le_mul this this
      omega
  have hl : 0 < ceilSqrt n := by
    rcases Nat.eq_zero_or_pos (ceilSqrt n) with h | h
    · rw [h] at hc; omega
    · exact h
  have hd : n ≤ ceilSqrt n * ceilDiv n (ceilSqrt n) ∧ ceilDiv n (ceilSqrt n) ≤ ceilSqrt n := by
    unfold ceilDiv
    set k := ceilSqrt n
    constructor
    · have := Nat.div_add_mod (n + k - 1) k
      have := Nat.mod_lt (n + k - 1) hl
      omega
    · rw [Nat.div_le_iff_le_mul_add_pred hl]
      omega
  refine ⟨hd.1, fun hle => ?_⟩
  have : ceilSqrt n ≤ 2 ^ 22 := hc.2 _ (by norm_num; omega)
  have := hd.2
  simp only
  omega

example : (ZProof.mk 0 0 [⟨true, false, true, true, false, false⟩] [] [] : ZProof Bool).calcParams = (1, 1) := by decide

/-- C43 for gates recorded by `register_and`: three parties that register, from replicated sharings, the operands, the
masks and the local results of AND gates hold consistent views of correct gates. -/
theorem C43_registered {K : Nat} (hK : 0 < K) {u : Nat} {z : Party → ZProof Bool} {a b r s : Party → AShare K}
    (hz : ∀ i, Gates AndGateOk (z i).proof (z i.next).verifyPrev (z i.prev).verifyNext ∧ (z i).proof.length = u)
    (ha : ∀ i, (a i).b = (a i.prev).a) (hb : ∀ i, (b i).b = (b i.prev).a) (hr : ∀ i, (r i).b = (r i.prev).a)
    (hs : ∀ i, (s i).b = (s i.prev).a)
    (h : ∀ i, (s i).a = ((a i).a &&& (b i).a) ^^^ ((a i).a &&& (b i).b) ^^^ ((a i).b &&& (b i).a) ^^^ (r i).a ^^^ (r i).b) :
    ∀ i, Gates AndGateOk ((z i).registerAnd (a i) (b i) (r i) (s i)).proof
        ((z i.next).registerAnd (a i.next) (b i.next) (r i.next) (s i.next)).verifyPrev
        ((z i.prev).registerAnd (a i.prev) (b i.prev) (r i.prev) (s i.prev)).verifyNext ∧
      ((z i).registerAnd (a i) (b i) (r i) (s i)).proof.length = u + K := by
  intro i
  refine registerAnd_ok hK (a := a) (b := b) (r := r) (s := s) (z := z) hz ha hb hr hs (fun i => ?_) i
  rw [h i]
  simp only [AShare.andLocal, BitVec.xor_assoc]

/-- Non-vacuity: a correct gate (`1 · 1 ⊕ 1 · 0 ⊕ 0 · 1 ⊕ 1 = 0`) with consistent views, proved in a session with one row
and two columns (the second gate is padding). -/
example (G : Prg) (z zNext zPrev : ZProof Bool) (h1 : z.proof = [⟨true, false, true, false, true, false⟩])
    (h2 : zNext.verifyPrev = [⟨true, false, true, false, true, false⟩])
    (h3 : zPrev.verifyNext = [⟨false, false, false, false, false, false⟩]) (h4 : zNext.proof.length = 1)
    (h5 : zPrev.proof.length = 1) (θ β₁ β₂ r : GF2p64) (rng : G.S) :
    andSession G z zNext zPrev 1 2 [θ] [β₁, β₂] r rng = .ok () :=
  C43_complete G z zNext zPrev ⟨[(⟨true, false, true, false, true, false⟩, ⟨true, false, true, false, true, false⟩,
    ⟨false, false, false, false, false, false⟩)], by simp [AndGateOk], h1, h2, h3⟩ (by rw [h1, h4]; rfl)
    (by rw [h1, h5]; rfl) 1 2 (by rw [h1]; simp) (by norm_num) [θ] [β₁, β₂] rfl rfl r rng

/-! ## Soundness -/

/-- C56: if at least one gate is wrong in the views of the verifiers, then whatever the prover sends (it may choose its
messages after seeing the `θ`s, but before the `β`s and `r`), the challenges `(θ, β, r)` for which it is accepted are at
most a fraction `1/2^64 + 2m/#r` of all challenges (here multiplied out). -/
theorem C56_sound (G : Prg) (l m : Nat) (hm : m < 2 ^ 63) (vp vn : List (ZInput Bool)) (hp : vp.length = l * m)
    (hn : vn.length = l * m) (q : Nat) (hbad : WrongAnd vp vn q)
    (proof proofNext : (Fin l → GF2p64) → ZkPf GF2p64) :
    2 ^ 64 * Nat.card {c : (Fin l → GF2p64) × (Fin m → GF2p64) × AndChallenge m //
        AndAccepts G l m vp vn (List.ofFn c.1) (List.ofFn c.2.1) c.2.2.1 (proof c.1) (proofNext c.1)} ≤
      (2 ^ 64) ^ (l + m) * (Nat.card (AndChallenge m) + 2 * m * 2 ^ 64) := by
  obtain ⟨x, y, hx, hy, hne⟩ := hbad
  have hq : q < l * m := by
    rw [← hp]
    by_contra h
    rw [List.getElem?_eq_none (by omega)] at hx
    cases hx
  have := and_sound G l m hm vp vn hp hn ⟨false, false, false, false, false, false⟩ q hq (by
    simp only [List.getD_eq_getElem?_getD, hx, hy, Option.getD_some]
    exact hne) proof proofNext
  rw [natCard_GF2p64] at this
  exact this

/-- The number of all challenges. -/
theorem C56_challenges (l m : Nat) (hm : m < 2 ^ 63) :
    Nat.card ((Fin l → GF2p64) × (Fin m → GF2p64) × AndChallenge m) = (2 ^ 64) ^ (l + m) * (2 ^ 64 - m - 1) := by
  rw [Nat.card_prod, Nat.card_prod, Nat.card_fun, Nat.card_fun, natCard_GF2p64,
    show Nat.card (AndChallenge m) = 2 ^ 64 - m - 1 from natCard_AndR m (by omega)]
  simp only [Nat.card_eq_fintype_card, Fintype.card_fin]
  rw [pow_add]; ring

/-- C56, with the security assertion of `set_parameters`: a wrong gate is accepted for at most a fraction `2^-40` of the
challenges. -/
theorem C56_forty_bits (G : Prg) (l m : Nat) (hsec : 2 ^ 40 * (2 * m + 1) < 2 ^ 64 - m) (vp vn : List (ZInput Bool))
    (hp : vp.length = l * m) (hn : vn.length = l * m) (q : Nat) (hbad : WrongAnd vp vn q)
    (proof proofNext : (Fin l → GF2p64) → ZkPf GF2p64) :
    2 ^ 40 * Nat.card {c : (Fin l → GF2p64) × (Fin m → GF2p64) × AndChallenge m //
        AndAccepts G l m vp vn (List.ofFn c.1) (List.ofFn c.2.1) c.2.2.1 (proof c.1) (proofNext c.1)} ≤
      Nat.card ((Fin l → GF2p64) × (Fin m → GF2p64) × AndChallenge m) := by
  have h := C56_sound G l m (by omega) vp vn hp hn q hbad proof proofNext
  rw [C56_challenges l m (by omega)]
  rw [show Nat.card (AndChallenge m) = 2 ^ 64 - m - 1 from natCard_AndR m (by omega)] at h
  generalize Nat.card {c : (Fin l → GF2p64) × (Fin m → GF2p64) × AndChallenge m //
        AndAccepts G l m vp vn (List.ofFn c.1) (List.ofFn c.2.1) c.2.2.1 (proof c.1) (proofNext c.1)} = acc at h ⊢
  generalize (2 ^ 64) ^ (l + m) = P at h ⊢
  have hM : (2 ^ 64 - m - 1) + 2 * m * 2 ^ 64 ≤ (2 * m + 1) * 2 ^ 64 := by
    have : 2 ^ 64 - m - 1 ≤ 2 ^ 64 := by omega
    calc (2 ^ 64 - m - 1) + 2 * m * 2 ^ 64 ≤ 2 ^ 64 + 2 * m * 2 ^ 64 := Nat.add_le_add_right this _
      _ = _ := by ring
  have h2 : acc ≤ P * (2 * m + 1) := by
    have := h.trans (Nat.mul_le_mul_left P hM)
    rw [← Nat.mul_assoc, Nat.mul_comm (P * (2 * m + 1))] at this
    exact Nat.le_of_mul_le_mul_left this (by norm_num)
  calc 2 ^ 40 * acc ≤ 2 ^ 40 * (P * (2 * m + 1)) := Nat.mul_le_mul_left _ h2
    _ = P * (2 ^ 40 * (2 * m + 1)) := by ring
    _ ≤ P * (2 ^ 64 - m - 1) := Nat.mul_le_mul_left _ (by omega)

/-- Non-vacuity: a wrong gate (`1 · 1 = 1`, claimed 0), one row, one column. -/
example (G : Prg) (proof proofNext : (Fin 1 → GF2p64) → ZkPf GF2p64) :
    2 ^ 40 * Nat.card {c : (Fin 1 → GF2p64) × (Fin 1 → GF2p64) × AndChallenge 1 //
        AndAccepts G 1 1 [⟨true, false, true, false, false, false⟩] [⟨false, false, false, false, false, false⟩]
          (List.ofFn c.1) (List.ofFn c.2.1) c.2.2.1 (proof c.1) (proofNext c.1)} ≤
      Nat.card ((Fin 1 → GF2p64) × (Fin 1 → GF2p64) × AndChallenge 1) :=
  C56_forty_bits G 1 1 (by norm_num) _ _ rfl rfl 0 ⟨_, _, rfl, rfl, by simp⟩ proof proofNext

end Verif
