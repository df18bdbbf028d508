import Verif.Proof.PolyDiv
import Verif.Proof.Lagrange

/-!
# C45, C46, C55: polynomial arithmetic of the zero-knowledge proofs

`p.sem` is the Mathlib polynomial denoted by the coefficient vector `p` (`C45_denotes`): the coefficient of `X^i` is the
`i`-th entry, 0 beyond the end. The theorems hold for every lawful coefficient type; instances are the rings `BitVec K`,
the field `GF2p64` and, nested, polynomials over a lawful type.
-/

namespace Verif

open Polynomial

section

variable {T R : Type} [PolyT T] [CommRing R] [LawfulPolyT T R]

/-! ## C45 -/

/-- What a coefficient vector denotes. -/
theorem C45_denotes (p : Poly T) (i : Nat) :
    (p.sem : R[X]).coeff i = ((p.coeffs.map LawfulPolyT.sem)[i]?).getD 0 := by
  rw [Poly.sem, semL_coeff, List.getElem?_map]
  cases p.coeffs[i]? <;> rfl

/-- Addition, subtraction, negation, multiplication and scaling are those of the polynomial ring. -/
theorem C45_ring (p q : Poly T) (x : T) :
    ((p.add q).sem : R[X]) = p.sem + q.sem ∧ ((p.sub q).sem : R[X]) = p.sem - q.sem ∧
    ((p.neg).sem : R[X]) = -p.sem ∧ ((p.mul q).sem : R[X]) = p.sem * q.sem ∧
    ((p.mulT x).sem : R[X]) = p.sem * C (LawfulPolyT.sem x) ∧
    ((p.addT x).sem : R[X]) = p.sem + C (LawfulPolyT.sem x) ∧
    ((p.subT x).sem : R[X]) = p.sem - C (LawfulPolyT.sem x) ∧
    ((Poly.zero : Poly T).sem : R[X]) = 0 ∧ ((Poly.one : Poly T).sem : R[X]) = 1 ∧
    ((Poly.lift x).sem : R[X]) = C (LawfulPolyT.sem x) :=
  ⟨Poly.sem_add p q, Poly.sem_sub p q, Poly.sem_neg p, Poly.sem_mul p q, Poly.sem_mulT p x, Poly.sem_addT p x,
    Poly.sem_subT p x, Poly.sem_zero, Poly.sem_one, Poly.sem_lift x⟩

/-- `evaluate` evaluates the denoted polynomial; hence it is a homomorphism in the polynomial. -/
theorem C45_evaluate (p q : Poly T) (x : T) :
    LawfulPolyT.sem (p.evaluate x) = (p.sem : R[X]).eval (LawfulPolyT.sem x) ∧
    LawfulPolyT.sem ((p.add q).evaluate x) = (LawfulPolyT.sem (p.evaluate x) + LawfulPolyT.sem (q.evaluate x) : R) ∧
    LawfulPolyT.sem ((p.mul q).evaluate x) = (LawfulPolyT.sem (p.evaluate x) * LawfulPolyT.sem (q.evaluate x) : R) := by
  refine ⟨Poly.sem_evaluate p x, ?_, ?_⟩
  · rw [Poly.sem_evaluate, Poly.sem_evaluate, Poly.sem_evaluate, Poly.sem_add, eval_add]
  · rw [Poly.sem_evaluate, Poly.sem_evaluate, Poly.sem_evaluate, Poly.sem_mul, eval_mul]

/-- `degree` is the degree (0 for the zero polynomial); `shrink` keeps the polynomial and leaves `degree + 1`
coefficients. -/
theorem C45_degree (p : Poly T) :
    p.degree = (p.sem : R[X]).natDegree ∧ (p.shrink.sem : R[X]) = p.sem ∧ p.shrink.coeffs.length = p.degree + 1 :=
  ⟨Poly.degree_eq p, Poly.sem_shrink p, Poly.length_shrink p⟩

end

/-- Interpolation over `GF2p64`: for pairwise different points and as many values, `lagrange_polys` and `interpolate`
succeed and give a polynomial of degree below the number of points which takes the values at the points. -/
theorem C45_interpolate (xs ys : List GF2p64) (hx : xs.Nodup) (hl : ys.length = xs.length) (h0 : xs ≠ []) :
    ∃ ls p, GF2p64.lagrangePolys xs = .ok ls ∧ Poly.interpolate ys ls = .ok p ∧
      p.degree < xs.length ∧ ∀ k (hk : k < xs.length), p.evaluate xs[k] = ys[k]'(by omega) := by
  obtain ⟨ls, e, hll, hlag⟩ := GF2p64.lagrangePolys_spec xs hx
  obtain ⟨p, hp, hps⟩ := Poly.interpolate_sem (R := F64) ys ls (by omega)
  refine ⟨ls, p, e, hp, ?_, fun k hk => ?_⟩
  · rw [Poly.degree_eq (R := F64), hps]
    have hpos : 0 < xs.length := List.length_pos_iff.2 h0
    refine lt_of_le_of_lt (interp_natDegree _ _ (xs.length - 1) fun L hL => ?_) (by omega)
    obtain ⟨q, hq, rfl⟩ := List.mem_map.1 hL
    obtain ⟨j, hj, rfl⟩ := List.mem_iff_getElem.1 hq
    have := (hlag j hj).1
    rw [List.length_map] at this
    omega
  · apply GF2p64.sem_injective
    have h1 := Poly.sem_evaluate (R := F64) p xs[k]
    rw [sem_gf, sem_gf, hps] at h1
    rw [h1]
    have h2 := interp_eval (xs.map GF2p64.sem) (ls.map Poly.sem) (ys.map GF2p64.sem) (by simp [hll]) (by simp [hl])
      (fun j hj => by simpa using hlag j (by simpa using hj)) k (by simpa using hk)
    simp only [List.getElem_map] at h2
    exact h2

/-- With a different number of values and Lagrange polynomials `interpolate` panics. -/
theorem C45_interpolate_panics {T : Type} [PolyT T] (ys : List T) (ls : List (Poly T)) (h : ys.length ≠ ls.length) :
    Poly.interpolate ys ls = .error .panic := by
  unfold Poly.interpolate; rw [if_neg h]

/-- Long division by a divisor whose last coefficient is odd: quotient and remainder, the remainder having fewer
coefficients than the divisor. -/
theorem C45_longDivision (K : Nat) (hK : 0 < K) (p d : Poly (BitVec K)) (lc : BitVec K)
    (hd : d.coeffs.getLast? = some lc) (hlc : lc.toNat % 2 = 1) :
    ∃ q r, p.longDivision d = .ok (q, r) ∧ r.coeffs.length < d.coeffs.length ∧ p.sem = q.sem * d.sem + r.sem := by
  obtain ⟨init, hinit⟩ := List.getLast?_eq_some_iff.1 hd
  obtain ⟨q, r, e, hr, hs⟩ := Poly.longDivision_spec hK p init lc hlc
  have hde : d = ⟨init ++ [lc]⟩ := Poly.ext hinit
  subst hde
  exact ⟨q, r, e, by simp; omega, hs⟩

/-- Division by the empty polynomial panics; a divisor whose leading coefficient is even has no inverse and is
refused. -/
theorem C45_longDivision_errors (K : Nat) (hK : 0 < K) (p d : Poly (BitVec K)) :
    (d.coeffs = [] → p.longDivision d = .error .panic) ∧
    (∀ lc, d.leadingCoeff = .ok lc → lc.toNat % 2 = 0 → p.longDivision d = .error .noInverse) := by
  constructor
  · intro h
    have : d = ⟨[]⟩ := Poly.ext h
    subst this
    rfl
  · intro lc h1 h2
    have := (C05_inverse K hK lc).2 h2
    unfold Poly.longDivision
    rw [h1]
    simp only [bind, Except.bind]
    rw [this]

/-- Finding: with zero coefficients after the leading one (which `sub` and `mul` may leave) the result of
`long_division` is wrong. Witness over `u16`: dividing `X^2` by `X + 1`, stored as `[1, 1, 0]`. -/
theorem C45_longDivision_trailing_zero :
    ∃ (p d q r : Poly (BitVec 16)), d.leadingCoeff = .ok 1 ∧ p.longDivision d = .ok (q, r) ∧
      p.sem ≠ q.sem * d.sem + r.sem := by
  have hinv : ringInverse (1 : BitVec 16) = .ok 1 := by simp [ringInverse, euclidLoop]
  have hl : (⟨[1, 1, 0]⟩ : Poly (BitVec 16)).leadingCoeff = .ok 1 := by decide
  refine ⟨⟨[0, 0, 1]⟩, ⟨[1, 1, 0]⟩, ⟨[1]⟩, ⟨[-1, -1]⟩, hl, ?_, ?_⟩
  · have e : (⟨[0, 0, 1]⟩ : Poly (BitVec 16)).longDivision ⟨[1, 1, 0]⟩ = (do
        let r ← Poly.divLoop (K := 16) [1, 1, 0] 1 3 (List.replicate 1 0) [0, 0, 1]
        pure (⟨r.1⟩, ⟨r.2⟩)) := by
      unfold Poly.longDivision
      rw [hl]
      simp only [bind, Except.bind]
      rw [hinv]
      rfl
    rw [e]
    decide
  · intro h
    have := congrArg (fun f : (BitVec 16)[X] => f.coeff 2) h
    simp only [← Poly.sem_mul, ← Poly.sem_add, C45_denotes] at this
    revert this
    decide

/-- `%` by a monic polynomial (last coefficient one) is the canonical remainder, and the result is shrunk. -/
theorem C45_rem (K : Nat) (hK : 0 < K) (p m : Poly (BitVec K)) (hm : m.coeffs.getLast? = some 1) :
    ∃ r : Poly (BitVec K), p.rem m = .ok r ∧ r.sem = p.sem %ₘ m.sem ∧ r.coeffs.length = r.degree + 1 := by
  obtain ⟨init, hinit⟩ := List.getLast?_eq_some_iff.1 hm
  obtain ⟨r, e, -, hs⟩ := Poly.rem_spec hK p m (d := init.length) ⟨init, hinit, rfl⟩
  refine ⟨r.shrink, e, by rw [Poly.sem_shrink, hs], ?_⟩
  rw [Poly.length_shrink, Poly.degree_eq (R := BitVec K), Poly.degree_eq (R := BitVec K), Poly.sem_shrink]

example : ([⟨1⟩, ⟨2⟩, ⟨77⟩] : List GF2p64).Nodup := by decide
example : (⟨[3, 0, 1]⟩ : Poly (BitVec 16)).coeffs.getLast? = some 1 ∧ (1 : BitVec 16).toNat % 2 = 1 := by decide
example : (⟨[1, 2, 0]⟩ : Poly (BitVec 16)).leadingCoeff = .ok 2 ∧ (2 : BitVec 16).toNat % 2 = 0 := by decide
example : (⟨[1, 2]⟩ : Poly (BitVec 16)).mul ⟨[3, 5, 0]⟩ = ⟨[3, 11, 10, 0]⟩ := by decide

/-! ## C46 -/

/-- `is_zero` holds exactly for the representations of the zero polynomial. -/
theorem C46_isZero {T R : Type} [PolyT T] [CommRing R] [LawfulPolyT T R] (p : Poly T) :
    p.isZero = true ↔ (p.sem : R[X]) = 0 := Poly.isZero_iff p

/-- Finding: `is_one` holds exactly for the monic polynomials of degree one, so never for the one polynomial. Over the
rings `BitVec K`. -/
theorem C46_isOne (K : Nat) (hK : 0 < K) (p : Poly (BitVec K)) :
    (p.isOne = true ↔ ∃ c : BitVec K, p.sem = X + C c) ∧ (p.sem = 1 → p.isOne = false) := by
  have hnt := Poly.nontrivial_bitVec hK
  have hmain : p.isOne = true ↔ ∃ c : BitVec K, p.sem = X + C c := by
    unfold Poly.isOne
    rw [Bool.and_eq_true, beq_iff_eq]
    constructor
    · rintro ⟨h1, h2⟩
      have hd := Poly.degree_eq (R := BitVec K) p
      rw [h1] at hd
      cases hlc : p.leadingCoeff with
      | error e => rw [hlc] at h2; simp at h2
      | ok c =>
        rw [hlc] at h2
        have hc : c = 1 := by simpa [PolyT.isOne] using h2
        unfold Poly.leadingCoeff idx at hlc
        rw [h1] at hlc
        cases hx : p.coeffs[1]? with
        | none => rw [hx] at hlc; simp at hlc
        | some d =>
          rw [hx] at hlc
          have hdc : d = c := by simpa using hlc
          refine ⟨p.sem.coeff 0, ?_⟩
          have := eq_X_add_C_of_natDegree_le_one (p := p.sem) (by omega)
          have h3 : (p.sem : (BitVec K)[X]).coeff 1 = 1 := by
            rw [Poly.sem, semL_coeff, hx, hdc, hc]; rfl
          rw [h3, C_1, one_mul] at this
          exact this
    · rintro ⟨c, hc⟩
      have hd := Poly.degree_eq (R := BitVec K) p
      rw [hc, natDegree_X_add_C] at hd
      refine ⟨hd, ?_⟩
      have h1 : (p.sem : (BitVec K)[X]).coeff 1 = 1 := by rw [hc]; simp [coeff_C]
      rw [Poly.sem, semL_coeff] at h1
      unfold Poly.leadingCoeff idx
      rw [hd]
      cases hx : p.coeffs[1]? with
      | none =>
        rw [hx] at h1
        exact absurd h1.symm (one_ne_zero (α := BitVec K))
      | some d =>
        rw [hx] at h1
        have : d = 1 := h1
        simp [this, PolyT.isOne]
  refine ⟨hmain, fun h => ?_⟩
  rw [← Bool.not_eq_true, hmain]
  rintro ⟨c, hc⟩
  rw [h] at hc
  have := congrArg natDegree hc
  rw [natDegree_one, natDegree_X_add_C] at this
  omega

example : (Poly.one : Poly (BitVec 16)).isOne = false := by decide
example : (⟨[5, 1]⟩ : Poly (BitVec 16)).isOne = true := by decide
example : (⟨[0, 0]⟩ : Poly (BitVec 16)).isZero = true ∧ (⟨[0, 2]⟩ : Poly (BitVec 16)).isZero = false := by decide

/-! ## C55: the moduli -/

/-- `IrreduciblePolys::get d` for `40 ≤ d ≤ 63` returns a polynomial with `d + 1` coefficients, all 0 or 1 and the last
one 1, which is irreducible over `GF(2)`: `f` below is the polynomial over `GF(2)` with the same coefficients. -/
theorem C55_table (K : Nat) (d : Nat) (h1 : 40 ≤ d) (h2 : d ≤ 63) :
    ∃ (p : Poly (BitVec K)) (f : (ZMod 2)[X]), irreduciblePoly K d = .ok p ∧ p.coeffs.length = d + 1 ∧
      p.coeffs.getLast? = some 1 ∧ (∀ i, i ≤ d → p.coeffs[i]? = some (if f.coeff i = 1 then 1 else 0)) ∧
      f.natDegree = d ∧ Irreducible f := by
  obtain ⟨f, hf, hb, hirr⟩ := table_irreducible d h1 h2
  have hbit : ∀ i, (((f >>> i) &&& 1) == 1) = f.testBit i := by
    intro i
    rw [Nat.testBit, Nat.and_comm]
    have : 1 &&& (f >>> i) = 0 ∨ 1 &&& (f >>> i) = 1 := by
      rw [Nat.and_comm, Nat.and_one_is_mod]; omega
    rcases this with h | h <;> rw [h] <;> rfl
  have hget : ∀ i, i ≤ d → ((List.range (d + 1)).map fun i => ofBit K (((f >>> i) &&& 1) == 1))[i]?
      = some (if (natPoly f).coeff i = 1 then 1 else 0) := by
    intro i hi
    rw [List.getElem?_map, List.getElem?_range (by omega)]
    simp only [Option.map_some, hbit, natPoly_coeff, ofBit]
    cases f.testBit i <;> simp
  refine ⟨⟨(List.range (d + 1)).map fun i => ofBit K (((f >>> i) &&& 1) == 1)⟩, natPoly f, ?_, by simp, ?_, hget,
    natPoly_natDegree hb, hirr⟩
  · unfold irreduciblePoly; rw [hf]; rfl
  · have h3 := hget d le_rfl
    rw [List.getLast?_eq_getElem?]
    simp only [List.length_map, List.length_range, Nat.add_sub_cancel]
    rw [h3, natPoly_coeff, hb.1]
    simp

/-- Outside `40..=63` it panics. -/
theorem C55_table_panics (K d : Nat) (h : d < 40 ∨ 63 < d) : irreduciblePoly K d = .error .panic := by
  have : irreducibleInner d = .error .panic := by
    unfold irreducibleInner
    split
    · have hlen : irreducibleTable.length = 24 := rfl
      rw [List.getElem?_eq_none (by omega)]
    · rfl
  unfold irreduciblePoly
  rw [this]; rfl

/-- `GF2p64` is the field with `2^64` elements: through the bijection `sem` its operations are those of
`GF(2)[X] / (X^64 + X^4 + X^3 + X + 1)`, `inverse` is the inverse and panics on 0 only. -/
theorem C55_field :
    Irreducible (X ^ 64 + X ^ 4 + X ^ 3 + X + 1 : (ZMod 2)[X]) ∧
    natPoly GF2p64.modulus = X ^ 64 + X ^ 4 + X ^ 3 + X + 1 ∧
    Function.Bijective GF2p64.sem ∧
    (∀ x y : GF2p64, (x.add y).sem = x.sem + y.sem ∧ (x.sub y).sem = x.sem - y.sem ∧ (x.mul y).sem = x.sem * y.sem ∧
      x.neg.sem = -x.sem) ∧ GF2p64.zero.sem = 0 ∧ GF2p64.one.sem = 1 ∧
    (∀ x : GF2p64, (x = GF2p64.zero → x.inverse = .error .panic) ∧
      (x ≠ GF2p64.zero → ∃ y, x.inverse = .ok y ∧ x.mul y = GF2p64.one)) := by
  have hmod : natPoly GF2p64.modulus = X ^ 64 + X ^ 4 + X ^ 3 + X + 1 := by
    have e : GF2p64.modulus = (1 <<< 64) ^^^ (1 <<< 4) ^^^ (1 <<< 3) ^^^ 2 ^^^ 1 := by decide +kernel
    rw [e]
    simp only [natPoly_xor, natPoly_two_pow, natPoly_two, natPoly_one]
  refine ⟨hmod ▸ irreducible_modulus, hmod, ⟨GF2p64.sem_injective, GF2p64.sem_surjective⟩,
    fun x y => ⟨GF2p64.sem_add x y, GF2p64.sem_sub x y, GF2p64.sem_mul x y, GF2p64.sem_neg x⟩, GF2p64.sem_zero,
    GF2p64.sem_one, fun x => ⟨(GF2p64.inverse_spec x).1, fun hx => ?_⟩⟩
  obtain ⟨y, hy, hys⟩ := (GF2p64.inverse_spec x).2 hx
  refine ⟨y, hy, GF2p64.sem_injective ?_⟩
  rw [GF2p64.sem_mul, hys, GF2p64.sem_one]
  exact mul_inv_cancel₀ fun h => hx ((GF2p64.sem_eq_zero_iff x).1 h)

example : ∃ x : GF2p64, x ≠ GF2p64.zero := ⟨GF2p64.one, by decide⟩
example : (⟨0x8000000000000000#64⟩ : GF2p64).mul ⟨2⟩ = ⟨0x1b⟩ := by decide +kernel

end Verif
