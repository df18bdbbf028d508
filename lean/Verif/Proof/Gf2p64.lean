import Verif.Proof.Gf2
import Mathlib.Tactic.IntervalCases

/-! # The moduli of the zero-knowledge proofs are irreducible; `GF2p64` is a field -/

namespace Verif

open Polynomial

/-- For `d = 40, …, 63`: inverses of `X^(2^(d/p)) - X` modulo the table entry, per prime factor `p` of `d`. -/
def rabinCerts : List (List (Nat × Nat)) := [
  [(2, 526473699043), (5, 1027620851015)],
  [(41, 1099511627772)],
  [(2, 3612219633200), (3, 3641307726058), (7, 2657917583389)],
  [(43, 4398046511076)],
  [(2, 5554021794678), (11, 589771205155)],
  [(3, 8933024757263), (5, 17419928966901)],
  [(2, 64412900269029), (23, 55289732844982)],
  [(47, 70368744177648)],
  [(2, 242349970269211), (3, 9741565882649)],
  [(7, 539743679265568)],
  [(2, 928450983240782), (5, 488960956016606)],
  [(3, 511886468698215), (17, 328018083090610)],
  [(2, 383812098244604), (13, 200735731006933)],
  [(53, 4503599627370465)],
  [(2, 7327320659678537), (3, 752513538696597)],
  [(5, 27090676466085899), (11, 1730951554813144)],
  [(2, 2656736882875760), (7, 52423359332928196)],
  [(3, 118334642391274784), (19, 108370082371922207)],
  [(2, 45816252595344732), (29, 185290957263382946)],
  [(59, 288230376151711723)],
  [(2, 459878044448587340), (3, 354332421352610002), (5, 166044363024851668)],
  [(61, 1152921504606846961)],
  [(2, 2943607385931769795), (31, 2964655299928794526)],
  [(3, 5042234228235977238), (7, 6438212684635637150)]
]

theorem rabinTable : ∀ i ∈ List.range 24,
    rabinCheck (irreducibleTable.getD i 0) (40 + i) (rabinCerts.getD i []) = true := by decide +kernel

theorem primeTable : ∀ i ∈ List.range 24, ∀ p ∈ List.range 64, p ∣ (40 + i) →
    (p < 2 ∨ (∃ q ∈ List.range 64, 2 ≤ q ∧ q < p ∧ q ∣ p) ∨ p ∈ (rabinCerts.getD i []).map Prod.fst) := by
  decide +kernel

/-- Every entry of the table is irreducible over `GF(2)` and has the degree it is filed under. -/
theorem table_irreducible (d : Nat) (h1 : 40 ≤ d) (h2 : d ≤ 63) :
    ∃ f, irreducibleInner d = .ok f ∧ HighBit f d ∧ Irreducible (natPoly f) := by
  obtain ⟨i, rfl⟩ : ∃ i, d = 40 + i := ⟨d - 40, by omega⟩
  have hi : i ∈ List.range 24 := List.mem_range.2 (by omega)
  have hlt : i < irreducibleTable.length := by
    have : irreducibleTable.length = 24 := rfl
    omega
  have hr := rabinTable i hi
  refine ⟨irreducibleTable.getD i 0, ?_, ?_, ?_⟩
  · unfold irreducibleInner
    rw [if_pos h1, show 40 + i - 40 = i by omega, List.getD_eq_getElem?_getD, List.getElem?_eq_getElem hlt]
    rfl
  · simp only [rabinCheck, Bool.and_eq_true, decide_eq_true_eq] at hr
    exact ⟨hr.1.1.1, hr.1.1.2⟩
  · refine irreducible_of_rabin _ _ _ (by omega) (fun p hp hpd => ?_) hr
    have hp64 : p ∈ List.range 64 := List.mem_range.2 (by have := Nat.le_of_dvd (by omega) hpd; omega)
    rcases primeTable i hi p hp64 hpd with h | ⟨q, -, h2q, hqp, hdvd⟩ | h
    · exact absurd hp.two_le (by omega)
    · exact absurd ((Nat.dvd_prime hp).1 hdvd) (by omega)
    · obtain ⟨⟨a, c⟩, hc, rfl⟩ := List.mem_map.1 h
      exact ⟨c, hc⟩

/-! ## `GF(2^64)` -/

theorem highBit_modulus : HighBit GF2p64.modulus 64 := by
  refine ⟨by decide +kernel, by decide +kernel⟩

/-- The modulus of `GF2p64` is irreducible. -/
theorem irreducible_modulus : Irreducible (natPoly GF2p64.modulus) := by
  refine irreducible_of_rabin GF2p64.modulus 64 [(2, 6037868468195985863)] (by norm_num) (fun p hp hpd => ?_) (by decide +kernel)
  have : p ∣ 2 := hp.dvd_of_dvd_pow (show p ∣ 2 ^ 6 from hpd)
  have := (Nat.prime_dvd_prime_iff_eq hp Nat.prime_two).1 this
  subst this
  exact ⟨_, List.mem_singleton.2 rfl⟩

attribute [local irreducible] GF2p64.modulus

instance : Fact (Irreducible (natPoly GF2p64.modulus)) := ⟨irreducible_modulus⟩

/-- The field `GF(2)[X] / (X^64 + X^4 + X^3 + X + 1)`. -/
abbrev F64 : Type := AdjoinRoot (natPoly GF2p64.modulus)

namespace GF2p64

/-- The field element denoted by a `GF2p64`. -/
noncomputable def sem (x : GF2p64) : F64 := AdjoinRoot.mk _ (natPoly x.val.toNat)

theorem sem_eq_zero_iff (x : GF2p64) : x.sem = 0 ↔ x = zero := by
  unfold sem
  rw [AdjoinRoot.mk_eq_zero]
  constructor
  · intro h
    have h0 : natPoly x.val.toNat = 0 := by
      by_contra hne
      have := degree_le_of_dvd h hne
      rw [degree_eq_natDegree (natPoly_monic highBit_modulus).ne_zero, natPoly_natDegree highBit_modulus] at this
      exact absurd (natPoly_degree_lt x.val.isLt) (not_lt.2 this)
    rw [natPoly_eq_zero] at h0
    exact GF2p64.ext (BitVec.eq_of_toNat_eq h0)
  · rintro rfl
    simp [zero, natPoly_zero]

theorem sem_zero : zero.sem = 0 := (sem_eq_zero_iff _).2 rfl

theorem sem_one : one.sem = 1 := by
  unfold sem one
  rw [show (1 : BitVec 64).toNat = 1 from rfl, natPoly_one, map_one]

theorem sem_add (x y : GF2p64) : (x.add y).sem = x.sem + y.sem := by
  simp only [sem, add, BitVec.toNat_xor, natPoly_xor, map_add]

theorem neg_sem (x : F64) : -x = x := by
  obtain ⟨p, rfl⟩ := AdjoinRoot.mk_surjective x
  rw [← map_neg, neg_char_two]

theorem sem_sub (x y : GF2p64) : (x.sub y).sem = x.sem - y.sem := by
  rw [sub_eq_add_neg, neg_sem]; exact sem_add x y

theorem sem_neg (x : GF2p64) : x.neg.sem = -x.sem := (neg_sem _).symm

theorem sem_mul (x y : GF2p64) : (x.mul y).sem = x.sem * y.sem := by
  have hs := cldivmod_spec modulus 64 highBit_modulus 64 0 (clmul 64 x.val.toNat y.val.toNat)
    (clmul_lt x.val.isLt)
  have h2 := hs.2
  rw [natPoly_clmul' y.val.isLt, natPoly_zero, zero_mul, zero_add] at h2
  simp only [sem, mul]
  rw [BitVec.toNat_ofNat, Nat.mod_eq_of_lt hs.1, ← map_mul, ← h2, map_add, map_mul,
    AdjoinRoot.mk_self, mul_zero, zero_add]

theorem sem_injective : Function.Injective sem := by
  intro x y h
  have : (x.sub y).sem = 0 := by rw [sem_sub, h, sub_self]
  rw [sem_eq_zero_iff] at this
  have h0 : x.val ^^^ y.val = 0 := congrArg GF2p64.val this
  refine GF2p64.ext ?_
  have := congrArg (· ^^^ y.val) h0
  simpa [BitVec.xor_assoc] using this

theorem sem_surjective : Function.Surjective sem := by
  intro a
  obtain ⟨p, rfl⟩ := AdjoinRoot.mk_surjective a
  -- the canonical remainder has degree below 64, hence is a `natPoly`
  have hm := natPoly_monic highBit_modulus
  have hdeg : (p %ₘ natPoly modulus).degree < ((64 : ℕ) : WithBot ℕ) := by
    have := degree_modByMonic_lt p hm
    rwa [degree_eq_natDegree hm.ne_zero, natPoly_natDegree highBit_modulus] at this
  have hrep : ∀ (n : Nat) (r : (ZMod 2)[X]), r.degree < (n : WithBot ℕ) → ∃ a, a < 2 ^ n ∧ natPoly a = r := by
    intro n
    induction n with
    | zero =>
      intro r hr
      refine ⟨0, by norm_num, ?_⟩
      rw [natPoly_zero]
      by_contra hne
      have := (degree_eq_natDegree (Ne.symm hne)) ▸ hr
      simp at this
    | succ n ih =>
      intro r hr
      have hsub : (r - C (r.coeff n) * X ^ n).degree < (n : WithBot ℕ) := by
        rw [degree_lt_iff_coeff_zero] at hr ⊢
        intro m hm
        rw [coeff_sub, coeff_C_mul, coeff_X_pow]
        by_cases hmn : m = n
        · subst hmn; simp
        · rw [if_neg hmn, mul_zero, sub_zero]; exact hr m (by omega)
      obtain ⟨a, ha, he⟩ := ih _ hsub
      have hc : r.coeff n = 0 ∨ r.coeff n = 1 := by generalize r.coeff n = c; revert c; decide
      rcases hc with hc | hc
      · refine ⟨a, lt_of_lt_of_le ha (Nat.pow_le_pow_right (by norm_num) (by omega)), ?_⟩
        rw [he, hc]; simp
      · refine ⟨a ^^^ 1 <<< n, Nat.xor_lt_two_pow (lt_of_lt_of_le ha (Nat.pow_le_pow_right (by norm_num) (by omega)))
          (by rw [Nat.shiftLeft_eq, one_mul]; exact Nat.pow_lt_pow_right (by norm_num) (by omega)), ?_⟩
        rw [natPoly_xor, natPoly_two_pow, he, hc]; simp
  obtain ⟨a, ha, he⟩ := hrep 64 _ hdeg
  refine ⟨⟨BitVec.ofNat 64 a⟩, ?_⟩
  simp only [sem]
  rw [BitVec.toNat_ofNat, Nat.mod_eq_of_lt ha, he]
  conv_rhs => rw [← modByMonic_add_div p (natPoly modulus)]
  rw [map_add, map_mul, AdjoinRoot.mk_self, zero_mul, add_zero]

theorem natCard_F64 : Nat.card F64 = 2 ^ 64 := by
  have e : GF2p64 ≃ F64 := Equiv.ofBijective sem ⟨sem_injective, sem_surjective⟩
  have e2 : GF2p64 ≃ BitVec 64 := ⟨GF2p64.val, GF2p64.mk, fun _ => rfl, fun _ => rfl⟩
  have e3 : BitVec 64 ≃ Fin (2 ^ 64) := ⟨BitVec.toFin, BitVec.ofFin, fun _ => rfl, fun _ => rfl⟩
  rw [Nat.card_congr (e.symm.trans (e2.trans e3)), Nat.card_eq_fintype_card, Fintype.card_fin]

theorem sem_powLoop (n : Nat) (acc a : GF2p64) (e : Nat) (he : e < 2 ^ n) :
    (powLoop n acc a e).sem = acc.sem * a.sem ^ e := by
  induction n generalizing acc a e with
  | zero => have : e = 0 := by simpa using he
            subst this; simp [powLoop]
  | succ n ih =>
    simp only [powLoop]
    rw [ih _ _ _ (by rw [pow_succ] at he; omega), sem_mul]
    have hsq : (a.sem * a.sem) ^ (e / 2) = a.sem ^ (2 * (e / 2)) := by rw [pow_mul]; ring
    rw [hsq]
    split
    · rename_i h
      rw [sem_mul, mul_assoc, ← pow_succ']
      congr 2; omega
    · rename_i h
      congr 2; omega

/-- `inverse` is the field inverse; it panics exactly on 0. -/
theorem inverse_spec (x : GF2p64) :
    (x = zero → x.inverse = .error .panic) ∧
    (x ≠ zero → ∃ y, x.inverse = .ok y ∧ y.sem = x.sem⁻¹) := by
  constructor
  · rintro rfl; rfl
  · intro hne
    have hz : x.isZero = false := by
      unfold isZero
      rw [beq_eq_false_iff_ne]
      intro h; exact hne (GF2p64.ext h)
    refine ⟨powLoop 64 one x (2 ^ 64 - 2), by unfold inverse; rw [hz]; rfl, ?_⟩
    rw [sem_powLoop _ _ _ _ (by norm_num), sem_one, one_mul]
    have hx : x.sem ≠ 0 := fun h => hne ((sem_eq_zero_iff _).1 h)
    have : Finite F64 := Nat.finite_of_card_ne_zero (by rw [natCard_F64]; norm_num)
    have := Fintype.ofFinite F64
    have hp := FiniteField.pow_card_sub_one_eq_one x.sem hx
    rw [← Nat.card_eq_fintype_card, natCard_F64] at hp
    refine eq_inv_of_mul_eq_one_left ?_
    rw [← pow_succ, show (2 ^ 64 - 2 + 1 : ℕ) = 2 ^ 64 - 1 by norm_num]
    exact hp

end GF2p64

end Verif
