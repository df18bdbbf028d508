import Verif.Model.Gf2p64
import Mathlib.Algebra.Polynomial.Div
import Mathlib.Algebra.Polynomial.Eval.Degree
import Mathlib.Data.ZMod.Basic
import Mathlib.FieldTheory.Finite.Extension
import Mathlib.RingTheory.AdjoinRoot
import Mathlib.Tactic.LinearCombination

/-! # Binary polynomials as natural numbers: carry-less arithmetic, irreducibility -/

namespace Verif

open Polynomial

theorem lt_of_testBit {n i : Nat} (h : n.testBit i = true) : i < n :=
  lt_of_lt_of_le Nat.lt_two_pow_self (Nat.ge_two_pow_of_testBit h)

theorem exists_natPoly (n : Nat) : ∃ p : (ZMod 2)[X], ∀ i, p.coeff i = if n.testBit i then 1 else 0 := by
  refine ⟨∑ i ∈ Finset.range n, if n.testBit i then X ^ i else 0, fun i => ?_⟩
  rw [finsetSum_coeff]
  have : ∀ j, (if n.testBit j then (X ^ j : (ZMod 2)[X]) else 0).coeff i
      = if j = i then (if n.testBit i then 1 else 0) else 0 := by
    intro j
    by_cases hji : j = i
    · subst hji; split <;> simp
    · rw [if_neg hji]; split
      · rw [coeff_X_pow, if_neg (Ne.symm hji)]
      · simp
  simp only [this, Finset.sum_ite_eq', Finset.mem_range]
  split
  · rfl
  · rename_i h
    split
    · rename_i ht; exact absurd (lt_of_testBit ht) h
    · rfl

/-- The binary polynomial whose coefficients are the bits of `n` (see `natPoly_coeff`; chosen rather than written as a
sum so that the kernel does not try to expand it). -/
noncomputable def natPoly (n : Nat) : (ZMod 2)[X] := Classical.choose (exists_natPoly n)

theorem natPoly_coeff (n i : Nat) : (natPoly n).coeff i = if n.testBit i then 1 else 0 :=
  Classical.choose_spec (exists_natPoly n) i

theorem natPoly_xor (a b : Nat) : natPoly (a ^^^ b) = natPoly a + natPoly b := by
  ext i
  simp only [coeff_add, natPoly_coeff, Nat.testBit_xor]
  cases a.testBit i <;> cases b.testBit i <;> decide

theorem natPoly_shift (a k : Nat) : natPoly (a <<< k) = natPoly a * X ^ k := by
  ext i
  rw [coeff_mul_X_pow']
  simp only [natPoly_coeff, Nat.testBit_shiftLeft]
  by_cases h : k ≤ i <;> simp [h]

theorem natPoly_zero : natPoly 0 = 0 := by ext i; simp [natPoly_coeff]

attribute [irreducible] natPoly

theorem natPoly_one : natPoly 1 = 1 := by
  ext i; rw [natPoly_coeff, coeff_one]
  cases i with
  | zero => simp
  | succ i => simp [Nat.testBit_succ]

theorem natPoly_two : natPoly 2 = X := by
  have := natPoly_shift 1 1
  rw [natPoly_one, one_mul, pow_one] at this
  exact this

theorem natPoly_two_pow (k : Nat) : natPoly (1 <<< k) = X ^ k := by rw [natPoly_shift, natPoly_one, one_mul]

theorem natPoly_injective : Function.Injective natPoly := by
  intro a b h
  apply Nat.eq_of_testBit_eq
  intro i
  have := congrArg (fun p => coeff p i) h
  simp only [natPoly_coeff] at this
  cases ha : a.testBit i <;> cases hb : b.testBit i <;> simp_all

theorem natPoly_eq_zero {a : Nat} : natPoly a = 0 ↔ a = 0 :=
  ⟨fun h => natPoly_injective (h.trans natPoly_zero.symm), fun h => h ▸ natPoly_zero⟩

theorem natPoly_degree_lt {a d : Nat} (h : a < 2 ^ d) : (natPoly a).degree < d := by
  rw [degree_lt_iff_coeff_zero]
  intro i hi
  rw [natPoly_coeff, Nat.testBit_lt_two_pow (lt_of_lt_of_le h (Nat.pow_le_pow_right (by norm_num) hi))]
  rfl

theorem lt_of_natPoly_degree {a d : Nat} (h : (natPoly a).degree < d) : a < 2 ^ d := by
  rw [degree_lt_iff_coeff_zero] at h
  apply Nat.lt_pow_two_of_testBit
  intro i hi
  have := h i hi
  rw [natPoly_coeff] at this
  cases hb : a.testBit i
  · rfl
  · rw [hb] at this; simp at this

/-- `a` has the bit `d` as its highest bit. -/
def HighBit (a d : Nat) : Prop := a.testBit d = true ∧ a < 2 ^ (d + 1)

theorem natPoly_natDegree {a d : Nat} (h : HighBit a d) : (natPoly a).natDegree = d := by
  refine natDegree_eq_of_le_of_coeff_ne_zero ?_ ?_
  · have := natPoly_degree_lt h.2
    exact Nat.lt_succ_iff.1 ((natDegree_lt_iff_degree_lt_of_pos d).2 (by simpa using this))
  · rw [natPoly_coeff, h.1]; simp

where
  natDegree_lt_iff_degree_lt_of_pos {p : (ZMod 2)[X]} (d : Nat) : p.natDegree < d + 1 ↔ p.degree < ((d + 1 : ℕ) : WithBot ℕ) := by
    constructor
    · intro h
      exact lt_of_le_of_lt degree_le_natDegree (by exact_mod_cast h)
    · intro h
      by_cases hp : p = 0
      · simp [hp]
      · exact (natDegree_lt_iff_degree_lt hp).2 h

theorem natPoly_monic {a d : Nat} (h : HighBit a d) : (natPoly a).Monic := by
  rw [Monic, leadingCoeff, natPoly_natDegree h, natPoly_coeff, h.1]; simp

theorem highBit_log2 {a : Nat} (h : a ≠ 0) : HighBit a a.log2 :=
  ⟨Nat.testBit_log2 h, Nat.lt_log2_self⟩

theorem char_two (p : (ZMod 2)[X]) : p + p = 0 := by
  ext i; rw [coeff_add, coeff_zero]; generalize p.coeff i = c; revert c; decide

theorem neg_char_two (p : (ZMod 2)[X]) : -p = p := by
  rw [neg_eq_iff_add_eq_zero]; exact char_two p

/-! ## Products and quotients -/

theorem natPoly_clmul (n a b : Nat) : natPoly (clmul n a b) = natPoly a * natPoly (b % 2 ^ n) := by
  induction n with
  | zero => simp [clmul, natPoly_zero, Nat.mod_one]
  | succ n ih =>
    have hb : b % 2 ^ (n + 1) = (if b.testBit n then 1 <<< n else 0) ^^^ (b % 2 ^ n) := by
      apply Nat.eq_of_testBit_eq
      intro i
      rw [Nat.testBit_xor, Nat.testBit_mod_two_pow, Nat.testBit_mod_two_pow]
      have h0 : (if b.testBit n then 1 <<< n else 0).testBit i = (decide (i = n) && b.testBit n) := by
        by_cases hbn : b.testBit n = true
        · rw [if_pos hbn, Nat.testBit_shiftLeft, hbn, Bool.and_true]
          by_cases hin : i = n
          · subst hin; simp
          · by_cases hle : n ≤ i
            · have : 0 < i - n := by omega
              obtain ⟨j, hj⟩ : ∃ j, i - n = j + 1 := ⟨i - n - 1, by omega⟩
              simp [hle, hin, hj, Nat.testBit_succ]
            · simp [hle, hin]
        · simp [hbn]
      rw [h0]
      by_cases hin : i = n
      · subst hin; simp
      · have : (i < n + 1) = (i < n) := by apply propext; omega
        simp [hin, this]
    simp only [clmul]
    rw [natPoly_xor, ih, hb, natPoly_xor]
    split
    · rw [natPoly_shift, natPoly_two_pow]; ring
    · rw [natPoly_zero]; ring

theorem natPoly_clmul' {n a b : Nat} (h : b < 2 ^ n) : natPoly (clmul n a b) = natPoly a * natPoly b := by
  rw [natPoly_clmul, Nat.mod_eq_of_lt h]

theorem cldivmod_spec (f d : Nat) (hf : HighBit f d) (n q x : Nat) (hx : x < 2 ^ (d + n)) :
    (cldivmod f d n q x).2 < 2 ^ d ∧
    natPoly (cldivmod f d n q x).1 * natPoly f + natPoly (cldivmod f d n q x).2
      = natPoly q * natPoly f + natPoly x := by
  induction n generalizing q x with
  | zero => exact ⟨hx, rfl⟩
  | succ n ih =>
    simp only [cldivmod]
    split
    · rename_i hb
      have hlt : x ^^^ f <<< n < 2 ^ (d + n) := by
        apply Nat.lt_pow_two_of_testBit
        intro i hi
        rw [Nat.testBit_xor, Nat.testBit_shiftLeft]
        by_cases hi' : i = d + n
        · subst hi'; simp [hb, hf.1]
        · have h1 : x.testBit i = false :=
            Nat.testBit_lt_two_pow (lt_of_lt_of_le hx (Nat.pow_le_pow_right (by norm_num) (by omega)))
          have h2 : f.testBit (i - n) = false :=
            Nat.testBit_lt_two_pow (lt_of_lt_of_le hf.2 (Nat.pow_le_pow_right (by norm_num) (by omega)))
          simp [h1, h2]
      obtain ⟨h1, h2⟩ := ih (q ^^^ 1 <<< n) (x ^^^ f <<< n) hlt
      refine ⟨h1, h2.trans ?_⟩
      rw [natPoly_xor, natPoly_xor, natPoly_two_pow, natPoly_shift]
      have := char_two (X ^ n * natPoly f)
      linear_combination this
    · rename_i hb
      have hlt : x < 2 ^ (d + n) := by
        apply Nat.lt_pow_two_of_testBit
        intro i hi
        by_cases hi' : i = d + n
        · subst hi'; simpa using hb
        · exact Nat.testBit_lt_two_pow (lt_of_lt_of_le hx (Nat.pow_le_pow_right (by norm_num) (by omega)))
      exact ih q x hlt

/-- The remainder is the canonical one. -/
theorem natPoly_cldivmod (f d : Nat) (hf : HighBit f d) (n x : Nat) (hx : x < 2 ^ (d + n)) :
    natPoly (cldivmod f d n 0 x).2 = natPoly x %ₘ natPoly f ∧
    natPoly (cldivmod f d n 0 x).1 = natPoly x /ₘ natPoly f := by
  obtain ⟨h1, h2⟩ := cldivmod_spec f d hf n 0 x hx
  have hm := natPoly_monic hf
  have := div_modByMonic_unique (f := natPoly x) (natPoly (cldivmod f d n 0 x).1) (natPoly (cldivmod f d n 0 x).2) hm
    ⟨by rw [natPoly_zero, zero_mul, zero_add] at h2; rw [← h2]; ring, by
      rw [degree_eq_natDegree hm.ne_zero, natPoly_natDegree hf]; exact natPoly_degree_lt h1⟩
  exact ⟨this.2.symm, this.1.symm⟩

/-! ## Irreducibility (Rabin's test) -/

/-- Squaring modulo `f`. -/
def sqMod (f d x : Nat) : Nat := (cldivmod f d d 0 (clmul d x x)).2

/-- `X^(2^k)` modulo `f`. -/
def frobMod (f d : Nat) : Nat → Nat
  | 0 => 2
  | k + 1 => sqMod f d (frobMod f d k)

/-- The certificate: for every prime factor `p` of `d`, an inverse of `X^(2^(d/p)) - X` modulo `f`. -/
def rabinCheck (f d : Nat) (cert : List (Nat × Nat)) : Bool :=
  f.testBit d && decide (f < 2 ^ (d + 1)) && (frobMod f d d == 2) &&
    cert.all (fun c => (cldivmod f d d 0 (clmul d (frobMod f d (d / c.1) ^^^ 2) c.2)).2 == 1 && decide (c.2 < 2 ^ d))

theorem clmul_lt {n d a b : Nat} (ha : a < 2 ^ d) : clmul n a b < 2 ^ (d + n) := by
  induction n with
  | zero => simp only [clmul]; exact Nat.two_pow_pos _
  | succ n ih =>
    simp only [clmul]
    refine Nat.xor_lt_two_pow ?_ (lt_of_lt_of_le ih (Nat.pow_le_pow_right (by norm_num) (by omega)))
    split
    · rw [Nat.shiftLeft_eq, ← Nat.add_assoc]
      calc a * 2 ^ n < 2 ^ d * 2 ^ n := Nat.mul_lt_mul_of_pos_right ha (Nat.two_pow_pos _)
        _ = 2 ^ (d + n) := (pow_add ..).symm
        _ ≤ 2 ^ (d + n + 1) := Nat.pow_le_pow_right (by norm_num) (by omega)
    · exact Nat.two_pow_pos _

theorem frobMod_spec (f d : Nat) (hf : HighBit f d) (hd : 2 ≤ d) (k : Nat) :
    frobMod f d k < 2 ^ d ∧ natPoly f ∣ natPoly (frobMod f d k) - X ^ 2 ^ k := by
  induction k with
  | zero =>
    refine ⟨?_, ?_⟩
    · show 2 < 2 ^ d
      calc 2 < 2 ^ 2 := by norm_num
        _ ≤ 2 ^ d := Nat.pow_le_pow_right (by norm_num) hd
    · simp [frobMod, natPoly_two]
  | succ k ih =>
    obtain ⟨h1, c, hc⟩ := ih
    have hs := cldivmod_spec f d hf d 0 (clmul d (frobMod f d k) (frobMod f d k)) (clmul_lt h1)
    refine ⟨hs.1, ?_⟩
    have h2 := hs.2
    rw [natPoly_clmul' h1, natPoly_zero, zero_mul, zero_add] at h2
    simp only [frobMod, sqMod]
    generalize natPoly (cldivmod f d d 0 (clmul d (frobMod f d k) (frobMod f d k))).1 = Q at h2
    generalize natPoly (cldivmod f d d 0 (clmul d (frobMod f d k) (frobMod f d k))).2 = R at h2 ⊢
    generalize natPoly (frobMod f d k) = P at h2 hc ⊢
    refine ⟨c * (P + X ^ 2 ^ k) - Q, ?_⟩
    rw [pow_succ, pow_mul]
    linear_combination h2 + (P + X ^ 2 ^ k) * hc

theorem natCard_zmod2 : Nat.card (ZMod 2) = 2 := by simp

/-- Rabin's test: a polynomial that passes with a complete list of prime factors of its degree is irreducible. -/
theorem irreducible_of_rabin (f d : Nat) (cert : List (Nat × Nat)) (hd : 2 ≤ d)
    (hp : ∀ p, p.Prime → p ∣ d → ∃ c, (p, c) ∈ cert) (h : rabinCheck f d cert = true) : Irreducible (natPoly f) := by
  simp only [rabinCheck, Bool.and_eq_true, decide_eq_true_eq, beq_iff_eq, List.all_eq_true] at h
  obtain ⟨⟨⟨h1, h2⟩, h3⟩, h4⟩ := h
  have hf : HighBit f d := ⟨h1, h2⟩
  have hmon := natPoly_monic hf
  have hdeg := natPoly_natDegree hf
  have hdvd : natPoly f ∣ X ^ 2 ^ d - X := by
    have := (frobMod_spec f d hf hd d).2
    rw [h3, natPoly_two] at this
    rwa [← dvd_neg, neg_sub]
  have hnu : ¬ IsUnit (natPoly f) := by
    intro hu
    have := natDegree_eq_zero_of_isUnit hu
    omega
  obtain ⟨g, hg, q, hq⟩ := WfDvdMonoid.exists_irreducible_factor hnu hmon.ne_zero
  have hgd : g.natDegree ∣ d := by
    refine hg.natDegree_dvd_of_dvd_X_pow_card_pow_sub_X ?_
    rw [natCard_zmod2]
    exact (Dvd.intro _ hq.symm).trans hdvd
  by_cases he : g.natDegree = d
  · -- the cofactor is a unit
    have hq0 : q ≠ 0 := by rintro rfl; rw [mul_zero] at hq; exact hmon.ne_zero hq
    have hqd : q.natDegree = 0 := by
      have := natDegree_mul hg.ne_zero hq0
      rw [← hq, hdeg, he] at this; omega
    have hqu : IsUnit q := by
      rw [natDegree_eq_zero] at hqd
      obtain ⟨c, rfl⟩ := hqd
      rw [isUnit_C]
      exact IsUnit.mk0 c (by rintro rfl; simp at hq0)
    rw [hq]
    exact (irreducible_mul_isUnit hqu).2 hg
  · -- a proper divisor divides `d / p` for a prime `p`
    exfalso
    obtain ⟨e, hde⟩ := hgd
    have he1 : e ≠ 1 := by rintro rfl; rw [mul_one] at hde; exact he hde.symm
    obtain ⟨p, hpp, t, rfl⟩ := Nat.exists_prime_and_dvd he1
    have hpd : p ∣ d := ⟨g.natDegree * t, by rw [hde]; ring⟩
    obtain ⟨c, hc⟩ := hp p hpp hpd
    have hcc := h4 _ hc
    have hdp : d / p = g.natDegree * t := by
      rw [hde, show g.natDegree * (p * t) = p * (g.natDegree * t) by ring, Nat.mul_div_cancel_left _ hpp.pos]
    have hgdvd : g ∣ X ^ 2 ^ (d / p) - X := by
      rw [hdp]
      have := (hg.natDegree_dvd_iff_dvd_X_pow_card_pow_sub_X (n := g.natDegree * t)).1 (Dvd.intro _ rfl)
      rwa [natCard_zmod2] at this
    have hfr := frobMod_spec f d hf hd (d / p)
    have hgf : g ∣ natPoly f := Dvd.intro _ hq.symm
    have hx : frobMod f d (d / p) ^^^ 2 < 2 ^ d := Nat.xor_lt_two_pow hfr.1 (by
      calc 2 < 2 ^ 2 := by norm_num
        _ ≤ 2 ^ d := Nat.pow_le_pow_right (by norm_num) hd)
    have hs := (cldivmod_spec f d hf d 0 (clmul d (frobMod f d (d / p) ^^^ 2) c) (clmul_lt hx)).2
    rw [hcc.1, natPoly_clmul' hcc.2, natPoly_zero, zero_mul, zero_add, natPoly_one, natPoly_xor, natPoly_two] at hs
    have h5 : g ∣ natPoly (frobMod f d (d / p)) + X := by
      have e1 : natPoly (frobMod f d (d / p)) + X
          = (natPoly (frobMod f d (d / p)) - X ^ 2 ^ (d / p)) + (X ^ 2 ^ (d / p) - X) + (X + X) := by ring
      rw [e1, char_two, add_zero]
      exact dvd_add (hgf.trans hfr.2) hgdvd
    have : g ∣ 1 := by
      have e2 : (1 : (ZMod 2)[X]) = (natPoly (frobMod f d (d / p)) + X) * natPoly c
          - natPoly (cldivmod f d d 0 (clmul d (frobMod f d (d / p) ^^^ 2) c)).1 * natPoly f := by
        linear_combination hs
      rw [e2]
      exact dvd_sub (h5.mul_right _) (hgf.mul_left _)
    exact hg.not_isUnit (isUnit_of_dvd_one this)

end Verif
