import Verif.Proof.Gf2p64
import Verif.Proof.PolyDiv
import Verif.Proof.Lagrange

/-! # The extended Euclidean algorithm on binary polynomials, and inverses modulo a monic polynomial over `Z/2^K` -/

namespace Verif

open Polynomial

theorem natPoly_unit {a : Nat} (h : IsUnit (natPoly a)) : natPoly a = 1 := by
  have hd := natDegree_eq_zero_of_isUnit h
  rw [eq_C_of_natDegree_eq_zero hd] at h ⊢
  have hz : (natPoly a).coeff 0 ≠ 0 := by
    intro h0; rw [h0, C_0] at h; exact not_isUnit_zero h
  have : ∀ x : ZMod 2, x ≠ 0 → x = 1 := by decide
  rw [this _ hz, C_1]

/-- Products whose factors are small fit into a word. -/
theorem p64Mul_ok {a b e f : Nat} (ha : a < 2 ^ (e + 1)) (hb : b < 2 ^ (f + 1)) (h : e + f < 64) :
    ∃ t, p64Mul a b = .ok t ∧ natPoly t = natPoly a * natPoly b ∧ t < 2 ^ (e + f + 1) := by
  have hb64 : b < 2 ^ 64 := lt_of_lt_of_le hb (Nat.pow_le_pow_right (by norm_num) (by omega))
  have hm := natPoly_clmul' (a := a) hb64
  have hlt : clmul 64 a b < 2 ^ (e + f + 1) := by
    apply lt_of_natPoly_degree
    rw [hm]
    have h1 := natPoly_degree_lt ha
    have h2 := natPoly_degree_lt hb
    by_cases ha0 : natPoly a = 0
    · rw [ha0, zero_mul, degree_zero]; exact bot_lt_iff_ne_bot.2 (by simp)
    by_cases hb0 : natPoly b = 0
    · rw [hb0, mul_zero, degree_zero]; exact bot_lt_iff_ne_bot.2 (by simp)
    rw [degree_mul, degree_eq_natDegree ha0, degree_eq_natDegree hb0] at *
    norm_cast at *
    omega
  refine ⟨_, ?_, hm, hlt⟩
  unfold p64Mul
  rw [if_pos (lt_of_lt_of_le hlt (Nat.pow_le_pow_right (by norm_num) (by omega)))]

/-- The loop of the extended Euclidean algorithm: no product overflows, and the result is an inverse. -/
theorem euclidP64_spec (A M : (ZMod 2)[X]) (d : Nat) (hd : d < 64) (n r0 r1 s0 s1 e k : Nat) (h0 : HighBit r0 e)
    (he : e ≤ d) (hr : r1 < 2 ^ e) (hk : r1 < 2 ^ k) (hn : k < n) (hs0 : s0 < 2 ^ (d - e + 1))
    (hs1 : s1 < 2 ^ (d - e + 1)) (hcop : IsCoprime (natPoly r0) (natPoly r1))
    (i0 : M ∣ natPoly s0 * A - natPoly r0) (i1 : M ∣ natPoly s1 * A - natPoly r1) :
    ∃ t, euclidP64 n r0 r1 s0 s1 = .ok (1, t) ∧ t < 2 ^ (d + 1) ∧ M ∣ natPoly t * A - 1 := by
  induction n generalizing r0 r1 s0 s1 e k with
  | zero => omega
  | succ n ih =>
    simp only [euclidP64]
    by_cases hz : r1 = 0
    · rw [if_pos hz]
      subst hz
      rw [natPoly_zero] at hcop
      have h1 := natPoly_unit (isCoprime_zero_right.1 hcop)
      have : r0 = 1 := natPoly_injective (by rw [h1, natPoly_one])
      subst this
      exact ⟨s0, rfl, lt_of_lt_of_le hs0 (Nat.pow_le_pow_right (by norm_num) (by omega)), by rw [← h1]; exact i0⟩
    · rw [if_neg hz]
      set e1 := r1.log2 with he1
      have hb1 : HighBit r1 e1 := highBit_log2 hz
      have hlt1 : e1 < e := (Nat.log2_lt hz).2 hr
      have hr0 : r0 < 2 ^ (e1 + 64) := lt_of_lt_of_le h0.2 (Nat.pow_le_pow_right (by norm_num) (by omega))
      obtain ⟨c1, c2⟩ := cldivmod_spec r1 e1 hb1 64 0 r0 hr0
      rw [natPoly_zero, zero_mul, zero_add] at c2
      set q := (p64DivMod r0 r1).1 with hq
      set ρ := (p64DivMod r0 r1).2 with hρ
      have hqe : (cldivmod r1 e1 64 0 r0).1 = q := rfl
      have hρe : (cldivmod r1 e1 64 0 r0).2 = ρ := rfl
      rw [hqe, hρe] at c2
      rw [hρe] at c1
      have hqlt : q < 2 ^ (e - e1 + 1) := by
        apply lt_of_natPoly_degree
        rw [← hqe, (natPoly_cldivmod r1 e1 hb1 64 r0 hr0).2]
        have hm := natPoly_monic hb1
        have := natDegree_divByMonic (natPoly r0) hm
        rw [natPoly_natDegree h0, natPoly_natDegree hb1] at this
        refine lt_of_le_of_lt degree_le_natDegree ?_
        rw [this]
        exact_mod_cast Nat.lt_succ_self _
      obtain ⟨t, et, ht, -⟩ := p64Mul_ok hqlt hb1.2 (by omega)
      obtain ⟨u, eu, hu, hul⟩ := p64Mul_ok hqlt hs1 (by omega)
      rw [et, eu]
      simp only [bind, Except.bind]
      have hnew : natPoly (r0 ^^^ t) = natPoly ρ := by
        rw [natPoly_xor, ht, ← c2]
        have := char_two (natPoly q * natPoly r1)
        linear_combination this
      have hρ' : r0 ^^^ t = ρ := natPoly_injective hnew
      rw [hρ']
      have hmono : ∀ {x a b : Nat}, x < 2 ^ a → a ≤ b → x < 2 ^ b := fun h hab =>
        lt_of_lt_of_le h (Nat.pow_le_pow_right (by norm_num) hab)
      have hk1 : e1 < k := (Nat.log2_lt hz).2 hk
      refine ih r1 ρ s1 (s0 ^^^ u) e1 e1 hb1 (by omega) c1 c1 (by omega) (hmono hs1 (by omega)) ?_ ?_ i1 ?_
      · exact Nat.xor_lt_two_pow (hmono hs0 (by omega)) (hmono hul (by omega))
      · have : natPoly r0 = natPoly ρ + natPoly r1 * natPoly q := by rw [← c2]; ring
        rw [this] at hcop
        exact (hcop.symm).of_add_mul_left_right
      · rw [natPoly_xor, hu, ← hnew, natPoly_xor, ht]
        have := dvd_add i0 (i1.mul_left (natPoly q))
        convert this using 1
        ring

/-- `inv_mod` modulo an irreducible polynomial. -/
theorem invMod_spec (a m d : Nat) (hd : d < 64) (hm : HighBit m d) (hirr : Irreducible (natPoly m)) (ha : a < 2 ^ d)
    (h0 : a ≠ 0) : ∃ t, invMod a m = .ok t ∧ t < 2 ^ 64 ∧ natPoly m ∣ natPoly t * natPoly a - 1 := by
  have hnd : ¬ natPoly m ∣ natPoly a := by
    intro h
    have := degree_le_of_dvd h (fun h => h0 (natPoly_eq_zero.1 h))
    rw [degree_eq_natDegree (natPoly_monic hm).ne_zero, natPoly_natDegree hm] at this
    exact absurd (natPoly_degree_lt ha) (not_lt.2 this)
  obtain ⟨t, e, h1, h2⟩ := euclidP64_spec (natPoly a) (natPoly m) d hd 65 m a 0 1 d 64 hm le_rfl ha
    (lt_of_lt_of_le ha (Nat.pow_le_pow_right (by norm_num) (by omega))) (by norm_num) (by positivity)
    (by rw [Nat.sub_self]; norm_num) ((hirr.coprime_iff_not_dvd).2 hnd)
    (by rw [natPoly_zero, zero_mul, zero_sub]; exact (dvd_refl _).neg_right)
    (by rw [natPoly_one, one_mul, sub_self]; exact dvd_zero _)
  refine ⟨t, ?_, lt_of_lt_of_le h1 (Nat.pow_le_pow_right (by norm_num) (by omega)), h2⟩
  unfold invMod
  rw [e]; rfl

/-! ## Reduction modulo two -/

section

variable {K : Nat}

/-- Reduction of `Z/2^K` modulo two. -/
def bvMod2 (hK : 0 < K) : BitVec K →+* ZMod 2 where
  toFun x := (x.toNat : ZMod 2)
  map_zero' := by simp
  map_one' := by
    show (((1 : BitVec K).toNat : Nat) : ZMod 2) = 1
    rw [show (1 : BitVec K) = 1#K from rfl, BitVec.toNat_ofNat, Nat.mod_eq_of_lt (Nat.one_lt_two_pow (by omega))]
    rfl
  map_add' x y := by
    rw [BitVec.toNat_add, ← Nat.cast_add]
    exact (ZMod.natCast_eq_natCast_iff _ _ _).2 ((Nat.mod_modEq _ _).of_dvd (dvd_pow_self 2 (by omega)))
  map_mul' x y := by
    rw [BitVec.toNat_mul, ← Nat.cast_mul]
    exact (ZMod.natCast_eq_natCast_iff _ _ _).2 ((Nat.mod_modEq _ _).of_dvd (dvd_pow_self 2 (by omega)))

theorem bvMod2_apply (hK : 0 < K) (x : BitVec K) : bvMod2 hK x = (x.toNat : ZMod 2) := rfl

theorem bvMod2_ofBit (hK : 0 < K) (b : Bool) : bvMod2 hK (ofBit K b) = if b then 1 else 0 := by
  cases b
  · exact map_zero (bvMod2 hK)
  · exact map_one (bvMod2 hK)

theorem bvMod2_surjective (hK : 0 < K) : Function.Surjective (bvMod2 hK) := by
  intro x
  have : ∀ x : ZMod 2, x = 0 ∨ x = 1 := by decide
  rcases this x with rfl | rfl
  · exact ⟨0, map_zero _⟩
  · exact ⟨1, map_one _⟩

theorem bvMod2_eq_zero (hK : 0 < K) (x : BitVec K) (h : bvMod2 hK x = 0) : ∃ y, x = 2 * y := by
  rw [bvMod2_apply, ZMod.natCast_eq_zero_iff] at h
  obtain ⟨c, hc⟩ := h
  refine ⟨BitVec.ofNat K c, BitVec.eq_of_toNat_eq ?_⟩
  rw [BitVec.toNat_mul, BitVec.toNat_ofNat, show (2 : BitVec K) = 2#K from rfl, BitVec.toNat_ofNat, ← Nat.mul_mod, ← hc,
    Nat.mod_eq_of_lt x.isLt]

theorem map_mod2_eq_zero (hK : 0 < K) (p : (BitVec K)[X]) (h : p.map (bvMod2 hK) = 0) : ∃ q, p = 2 * q := by
  choose f hf using fun i => bvMod2_eq_zero hK (p.coeff i) (by
    rw [← coeff_map, h, coeff_zero])
  refine ⟨∑ i ∈ Finset.range (p.natDegree + 1), C (f i) * X ^ i, ?_⟩
  conv_lhs => rw [p.as_sum_range_C_mul_X_pow]
  rw [Finset.mul_sum]
  apply Finset.sum_congr rfl
  intro i _
  rw [hf i, C_mul, show (C (2 : BitVec K) : (BitVec K)[X]) = 2 from rfl, mul_assoc]

theorem two_pow_bitVec : (2 : BitVec K) ^ K = 0 := by
  apply BitVec.eq_of_toNat_eq
  have : ∀ n, ((2 : BitVec K) ^ n).toNat = 2 ^ n % 2 ^ K := by
    intro n
    induction n with
    | zero => simp
    | succ n ih =>
      rw [pow_succ, BitVec.toNat_mul, ih, show (2 : BitVec K) = 2#K from rfl, BitVec.toNat_ofNat, ← Nat.mul_mod, pow_succ]
  rw [this]; simp

namespace Poly

theorem toU64Loop_append (acc : Nat) (xs : List (BitVec K)) (c : BitVec K) :
    toU64Loop acc (xs ++ [c]) = ((toU64Loop acc xs <<< 1) % 2 ^ 64 ||| (if (1 &&& c) == 1 then 1 else 0)) := by
  induction xs generalizing acc with
  | nil => rfl
  | cons x xs ih => exact ih _

theorem natPoly_ite (b : Bool) : natPoly (if b then 1 else 0) = if b then 1 else 0 := by
  cases b
  · exact natPoly_zero
  · exact natPoly_one

theorem and_one_eq (hK : 0 < K) (c : BitVec K) : ((1 &&& c) == 1) = c.toNat.testBit 0 := by
  rw [Nat.testBit_zero, Bool.eq_iff_iff, beq_iff_eq, decide_eq_true_iff, ← BitVec.toNat_inj, BitVec.toNat_and,
    show (1 : BitVec K) = 1#K from rfl, BitVec.toNat_ofNat, Nat.mod_eq_of_lt (Nat.one_lt_two_pow (by omega)),
    Nat.and_comm, Nat.and_one_is_mod]

theorem toU64Loop_sem (hK : 0 < K) (cs : List (BitVec K)) (h : cs.length ≤ 64) :
    natPoly (toU64Loop 0 cs.reverse) = (semL cs : (BitVec K)[X]).map (bvMod2 hK) ∧
      toU64Loop 0 cs.reverse < 2 ^ cs.length := by
  induction cs with
  | nil => exact ⟨by simp [toU64Loop, semL, natPoly_zero], by simp [toU64Loop]⟩
  | cons c cs ih =>
    simp only [List.length_cons] at h
    obtain ⟨h1, h2⟩ := ih (by omega)
    rw [List.reverse_cons, toU64Loop_append]
    set v := toU64Loop 0 cs.reverse with hv
    have hlt : v <<< 1 < 2 ^ (cs.length + 1) := by rw [Nat.shiftLeft_eq, pow_succ]; omega
    have hle : 2 ^ (cs.length + 1) ≤ 2 ^ 64 := Nat.pow_le_pow_right (by norm_num) (by omega)
    rw [Nat.mod_eq_of_lt (by omega), and_one_eq hK]
    have hor : (v <<< 1 ||| (if c.toNat.testBit 0 = true then 1 else 0)) =
        (v <<< 1 ^^^ (if c.toNat.testBit 0 = true then 1 else 0)) := by
      apply Nat.eq_of_testBit_eq
      intro i
      rw [Nat.testBit_or, Nat.testBit_xor]
      cases i with
      | zero => simp [Nat.testBit_shiftLeft]
      | succ i =>
        have : (if c.toNat.testBit 0 = true then 1 else 0).testBit (i + 1) = false := by
          split
          · rw [Nat.testBit_succ]; simp
          · simp
        rw [this]; simp
    rw [hor]
    refine ⟨?_, ?_⟩
    · rw [natPoly_xor, natPoly_shift, h1]
      have hone : natPoly (if c.toNat.testBit 0 = true then 1 else 0) = C (bvMod2 hK c) := by
        rw [bvMod2_apply]
        split
        · rename_i hb
          rw [natPoly_one]
          have : (c.toNat : ZMod 2) = 1 := by
            rw [Nat.testBit_zero, decide_eq_true_iff] at hb
            exact (ZMod.natCast_eq_natCast_iff _ 1 _).2 (by rw [Nat.ModEq, hb])
          rw [this, C_1]
        · rename_i hb
          rw [natPoly_zero]
          have : (c.toNat : ZMod 2) = 0 := by
            rw [Nat.testBit_zero, decide_eq_true_iff] at hb
            exact (ZMod.natCast_eq_zero_iff _ _).2 (by omega)
          rw [this, C_0]
      rw [hone]
      simp only [semL, Polynomial.map_add, Polynomial.map_mul, map_C, map_X, sem_bitVec]
      ring
    · simp only [List.length_cons]
      refine Nat.xor_lt_two_pow hlt ?_
      split <;> (rw [pow_succ]; have := Nat.one_le_two_pow (n := cs.length); omega)

/-- Reading a polynomial modulo two. -/
theorem toU64_sem (hK : 0 < K) (h64 : K < 64) (p : Poly (BitVec K)) (h : p.coeffs.length ≤ 64) :
    ∃ a, p.toU64 = .ok a ∧ natPoly a = p.sem.map (bvMod2 hK) ∧ a < 2 ^ p.coeffs.length := by
  refine ⟨_, by unfold toU64; rw [if_pos h64], (toU64Loop_sem hK p.coeffs h).1, (toU64Loop_sem hK p.coeffs h).2⟩

/-- Writing a binary polynomial. -/
theorem fromU64_sem (hK : 0 < K) (h64 : K < 64) (v : Nat) (hv : v < 2 ^ 64) :
    ∃ p, fromU64 K v = .ok p ∧ p.sem.map (bvMod2 hK) = natPoly v := by
  refine ⟨_, by unfold fromU64; rw [if_pos h64], ?_⟩
  rw [sem_shrink]
  ext i
  rw [coeff_map, Poly.sem, semL_coeff, natPoly_coeff]
  simp only [List.getElem?_map]
  by_cases hi : i < 64
  · rw [List.getElem?_range hi]
    simp only [Option.map_some, sem_bitVec, bvMod2_ofBit]
    rw [show (((v >>> i) &&& 1) == 1) = v.testBit i by
      rw [Nat.testBit, Nat.and_comm, Bool.eq_iff_iff, beq_iff_eq, bne_iff_ne, Nat.and_comm, Nat.and_one_is_mod]
      omega]
  · rw [List.getElem?_eq_none (by simpa using hi)]
    rw [Nat.testBit_lt_two_pow (lt_of_lt_of_le hv (Nat.pow_le_pow_right (by norm_num) (by omega)))]
    exact map_zero (bvMod2 hK)

/-! ## Inverses modulo a monic polynomial -/

/-- The ring `(Z/2^K)[X] / (M)`. -/
abbrev QR (M : (BitVec K)[X]) : Type := AdjoinRoot M

theorem rem_mk (hK : 0 < K) (p m : Poly (BitVec K)) {d : Nat} (h : MonicRep d m) :
    ∃ r : Poly (BitVec K), p.rem m = .ok r ∧ AdjoinRoot.mk m.sem r.sem = AdjoinRoot.mk m.sem p.sem := by
  obtain ⟨r, e, -, hs⟩ := rem_spec hK p m h
  refine ⟨_, e, ?_⟩
  rw [sem_shrink, hs, AdjoinRoot.mk_eq_mk, modByMonic_eq_sub_mul_div]
  exact ⟨- (p.sem /ₘ m.sem), by ring⟩

theorem two_pow_quot (M : (BitVec K)[X]) : (2 : QR M) ^ K = 0 := by
  have h : (C ((2 : BitVec K) ^ K) : (BitVec K)[X]) = 0 := by rw [two_pow_bitVec, C_0]
  have : (2 : QR M) = AdjoinRoot.mk M (C (2 : BitVec K)) := by
    rw [show (C (2 : BitVec K) : (BitVec K)[X]) = 2 from rfl, map_ofNat]
  rw [this, ← map_pow, ← C_pow, h, map_zero]

/-- The recursion of `mod_inverse`: an inverse modulo `2^(n+1)` (and the modulus). -/
theorem modInverseInner_spec (hK : 0 < K) (h64 : K < 64) (p m : Poly (BitVec K)) {d : Nat} (hd : d < 64)
    (hm : MonicRep d m) (hirr : Irreducible (m.sem.map (bvMod2 hK))) (hp : p.coeffs.length ≤ d)
    (h0 : p.sem.map (bvMod2 hK) ≠ 0) (n : Nat) :
    ∃ i c, p.modInverseInner m n = .ok i ∧
      AdjoinRoot.mk m.sem i.sem * AdjoinRoot.mk m.sem p.sem - 1 = 2 ^ (n + 1) * c := by
  induction n with
  | zero =>
    have hml : m.coeffs.length = d + 1 := by
      obtain ⟨init, h1, h2⟩ := hm
      rw [h1, List.length_append, h2]; rfl
    obtain ⟨a, ea, ha, hal⟩ := toU64_sem hK h64 p (by omega)
    obtain ⟨b, eb, hb, hbl⟩ := toU64_sem hK h64 m (by omega)
    have hmon := (hm.monic hK)
    have hbh : HighBit b d := by
      refine ⟨?_, by rw [← hml]; exact hbl⟩
      have := congrArg (fun q => coeff q d) hb
      simp only [natPoly_coeff, coeff_map] at this
      have hc : m.sem.coeff d = 1 := by rw [← hmon.2]; exact hmon.1
      rw [hc, map_one] at this
      by_contra h
      rw [Bool.not_eq_true] at h
      rw [h] at this
      simp at this
    rw [← hb] at hirr
    obtain ⟨t, et, ht, hdvd⟩ := invMod_spec a b d hd hbh hirr
      (lt_of_lt_of_le hal (Nat.pow_le_pow_right (by norm_num) hp))
      (fun h => h0 (by rw [← ha, h, natPoly_zero]))
    obtain ⟨i, ei, hi⟩ := fromU64_sem hK h64 t ht
    obtain ⟨q, hq⟩ := hdvd
    obtain ⟨q', rfl⟩ := map_surjective _ (bvMod2_surjective hK) q
    obtain ⟨c, hc⟩ := map_mod2_eq_zero hK (i.sem * p.sem - 1 - m.sem * q') (by
      rw [Polynomial.map_sub, Polynomial.map_sub, Polynomial.map_mul, Polynomial.map_mul, hi, ← ha, ← hb,
        Polynomial.map_one, hq, sub_self])
    refine ⟨i, AdjoinRoot.mk m.sem c, ?_, ?_⟩
    · simp only [modInverseInner, ea, eb, et, bind, Except.bind]
      exact ei
    · have h2 := congrArg (AdjoinRoot.mk m.sem) hc
      simp only [map_sub, map_mul, map_one, map_ofNat, AdjoinRoot.mk_self, zero_mul, sub_zero] at h2
      rw [h2]; ring
  | succ n ih =>
    obtain ⟨i, c, e, hc⟩ := ih
    obtain ⟨r, er, hr⟩ := rem_mk hK ((i.mul p).subT 1) m hm
    obtain ⟨s, es, hs⟩ := rem_mk hK (i.sub (r.mul i)) m hm
    refine ⟨s, - (2 ^ n * c ^ 2), ?_, ?_⟩
    · simp only [modInverseInner, e, er, bind, Except.bind]
      exact es
    · rw [sem_subT, sem_mul, sem_bitVec, map_sub, map_mul, show (C (1 : BitVec K) : (BitVec K)[X]) = 1 from C_1, map_one,
        hc] at hr
      rw [hs, sem_sub, sem_mul, map_sub, map_mul, hr]
      generalize (AdjoinRoot.mk m.sem) i.sem = I at *
      generalize (AdjoinRoot.mk m.sem) p.sem = P at *
      linear_combination (1 - 2 ^ (n + 1) * c) * hc

/-- `mod_inverse`: the inverse modulo a monic polynomial that is irreducible modulo two. -/
theorem modInverse_spec (hK : 0 < K) (h64 : K < 64) (p m : Poly (BitVec K)) {d : Nat} (hd : d < 64)
    (hm : MonicRep d m) (hirr : Irreducible (m.sem.map (bvMod2 hK))) (hp : p.coeffs.length ≤ d)
    (h0 : p.sem.map (bvMod2 hK) ≠ 0) :
    ∃ i, p.modInverse m = .ok i ∧ AdjoinRoot.mk m.sem i.sem * AdjoinRoot.mk m.sem p.sem = 1 := by
  obtain ⟨i, c, e, hc⟩ := modInverseInner_spec hK h64 p m hd hm hirr hp h0 (K - 1)
  refine ⟨i, e, ?_⟩
  rw [show K - 1 + 1 = K by omega, two_pow_quot, zero_mul] at hc
  linear_combination hc

end Poly

end

end Verif
