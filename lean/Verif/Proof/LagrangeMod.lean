import Verif.Proof.Euclid
import Verif.Model.ZkProof

/-! # `Poly<Poly<T>>::lagrange_polys`: Lagrange polynomials modulo a monic polynomial over `Z/2^K` -/

namespace Verif

open Polynomial

variable {K : Nat}

namespace Poly

theorem sem_poly (x : Poly (BitVec K)) : LawfulPolyT.sem x = x.sem := rfl

/-- The points are usable with the modulus: short, and the `j`-th differs from the others modulo two. -/
def PointsOk (hK : 0 < K) (d : Nat) (xs : List (Poly (BitVec K))) : Prop :=
  (∀ x ∈ xs, x.coeffs.length ≤ d) ∧ (xs.map fun x => x.sem.map (bvMod2 hK)).Nodup

theorem lagrangeLoop_spec (hK : 0 < K) (h64 : K < 64) (m : Poly (BitVec K)) {d : Nat} (hd : d < 64)
    (hm : MonicRep d m) (hirr : Irreducible (m.sem.map (bvMod2 hK))) (xj : Poly (BitVec K)) (hxj : xj.coeffs.length ≤ d)
    (j i : Nat) (poly : Poly (Poly (BitVec K))) (xs : List (Poly (BitVec K))) (hl : ∀ x ∈ xs, x.coeffs.length ≤ d)
    (h : ∀ k (hk : k < xs.length), i + k ≠ j → xj.sem.map (bvMod2 hK) ≠ xs[k].sem.map (bvMod2 hK)) :
    ∃ p us, lagrangeLoop m xj j i poly xs = .ok p ∧ us.length = xs.length ∧
      (∀ k (hk : k < xs.length) (hk' : k < us.length), i + k ≠ j →
        us[k] * (AdjoinRoot.mk m.sem xj.sem - AdjoinRoot.mk m.sem xs[k].sem) = 1) ∧
      (p.sem : (BitVec K)[X][X]).map (AdjoinRoot.mk m.sem) = (poly.sem : (BitVec K)[X][X]).map (AdjoinRoot.mk m.sem) *
        lagProd j i (xs.map fun x => AdjoinRoot.mk m.sem x.sem) us := by
  induction xs generalizing i poly with
  | nil => exact ⟨poly, [], rfl, rfl, fun k hk => absurd hk (by simp), by simp [lagProd]⟩
  | cons x xs ih =>
    have hrec : ∀ k (hk : k < xs.length), i + 1 + k ≠ j → xj.sem.map (bvMod2 hK) ≠ xs[k].sem.map (bvMod2 hK) :=
      fun k hk hne => by
        have := h (k + 1) (by simpa using hk) (by omega)
        simpa using this
    have hl' : ∀ y ∈ xs, y.coeffs.length ≤ d := fun y hy => hl y (List.mem_cons_of_mem _ hy)
    simp only [lagrangeLoop]
    by_cases hij : i = j
    · rw [if_neg (by simpa using hij)]
      obtain ⟨p, us, e, hlen, hu, hs⟩ := ih (i + 1) poly hl' hrec
      refine ⟨p, 0 :: us, e, by simp [hlen], ?_, ?_⟩
      · intro k hk hk' hne
        cases k with
        | zero => exact absurd hij (by simpa using hne)
        | succ k => simpa using hu k (by simpa using hk) (by simpa using hk') (by omega)
      · rw [hs]; simp only [List.map_cons, lagProd, if_pos hij]; ring
    · rw [if_pos hij]
      have hne : xj.sem.map (bvMod2 hK) ≠ x.sem.map (bvMod2 hK) := by
        have := h 0 (by simp) (by simpa using hij)
        simpa using this
      obtain ⟨y, hy, hys⟩ := modInverse_spec hK h64 (xj.sub x) m hd hm hirr
        (by
          show (zipPad PolyT.sub _ _).length ≤ d
          rw [length_zipPad]
          exact max_le hxj (hl x List.mem_cons_self))
        (by
          rw [sem_sub, Polynomial.map_sub]
          exact sub_ne_zero.2 hne)
      obtain ⟨p, us, e, hlen, hu, hs⟩ := ih (i + 1)
        ((((⟨[x.neg, one]⟩ : Poly (Poly (BitVec K)))).mulT y).mul poly) hl' hrec
      refine ⟨p, AdjoinRoot.mk m.sem y.sem :: us, by rw [hy]; exact e, by simp [hlen], ?_, ?_⟩
      · intro k hk hk' hne'
        cases k with
        | zero =>
          simp only [List.getElem_cons_zero]
          rw [sem_sub, map_sub] at hys
          exact hys
        | succ k => simpa using hu k (by simpa using hk) (by simpa using hk') (by omega)
      · rw [hs]
        simp only [List.map_cons, lagProd, if_neg hij]
        rw [Poly.sem_mul, Poly.sem_mulT]
        have e0 : (((⟨[x.neg, one]⟩ : Poly (Poly (BitVec K))).sem : (BitVec K)[X][X])) = X - C x.sem := by
          simp only [Poly.sem, semL, sem_poly]
          have h1 : x.neg.sem = - x.sem := Poly.sem_neg x
          have h2 : ((one : Poly (BitVec K)).sem) = 1 := Poly.sem_one
          simp only [Poly.sem] at h1 h2
          rw [h1, h2, C_neg, C_1]
          ring
        rw [e0]
        simp only [Polynomial.map_mul, Polynomial.map_sub, map_X, map_C, sem_poly]
        ring

/-- Reducing the coefficients keeps the polynomial over the quotient. -/
theorem reduceCoeffs_spec (hK : 0 < K) (p : Poly (Poly (BitVec K))) (m : Poly (BitVec K)) {d : Nat} (hm : MonicRep d m) :
    ∃ r, p.reduceCoeffs m = .ok r ∧
      (r.sem : (BitVec K)[X][X]).map (AdjoinRoot.mk m.sem) = (p.sem : (BitVec K)[X][X]).map (AdjoinRoot.mk m.sem) := by
  obtain ⟨cs⟩ := p
  have h : ∃ ds, cs.mapM (fun c => c.rem m) = .ok ds ∧
      (semL ds : (BitVec K)[X][X]).map (AdjoinRoot.mk m.sem) = (semL cs : (BitVec K)[X][X]).map (AdjoinRoot.mk m.sem) := by
    induction cs with
    | nil => exact ⟨[], rfl, rfl⟩
    | cons c cs ih =>
      obtain ⟨ds, e, hs⟩ := ih
      obtain ⟨r, er, hr⟩ := rem_mk hK c m hm
      refine ⟨r :: ds, by rw [List.mapM_cons, er, e]; rfl, ?_⟩
      simp only [semL, Polynomial.map_add, Polynomial.map_mul, map_X, map_C, hs, sem_poly, hr]
  obtain ⟨ds, e, hs⟩ := h
  refine ⟨⟨ds⟩, ?_, hs⟩
  unfold reduceCoeffs
  rw [show (cs.mapM fun c => c.rem m) = .ok ds from e]
  rfl

/-- With points that differ modulo two, `lagrange_polys` returns the Lagrange polynomials of the quotient ring. -/
theorem lagrangePolys_spec (hK : 0 < K) (h64 : K < 64) (m : Poly (BitVec K)) {d : Nat} (hd : d < 64)
    (hm : MonicRep d m) (hirr : Irreducible (m.sem.map (bvMod2 hK))) (xs : List (Poly (BitVec K)))
    (hx : PointsOk hK d xs) :
    ∃ ls, lagrangePolys xs m = .ok ls ∧ ls.length = xs.length ∧
      ∀ j (hj : j < ls.length), IsLagrange (xs.map fun x => AdjoinRoot.mk m.sem x.sem) j
        ((ls[j].sem : (BitVec K)[X][X]).map (AdjoinRoot.mk m.sem)) := by
  have hone : ∀ j (hj : j < xs.length), ∃ p r, lagrangeLoop m xs[j] j 0 one xs = .ok p ∧ p.reduceCoeffs m = .ok r ∧
      IsLagrange (xs.map fun x => AdjoinRoot.mk m.sem x.sem) j
        ((r.sem : (BitVec K)[X][X]).map (AdjoinRoot.mk m.sem)) := by
    intro j hj
    obtain ⟨p, us, e, hl, hu, hs⟩ := lagrangeLoop_spec hK h64 m hd hm hirr xs[j] (hx.1 _ (List.getElem_mem _)) j 0 one xs
      hx.1 (fun k hk hne heq => by
        have := (List.Nodup.getElem_inj_iff hx.2 (i := j) (j := k) (hi := by simpa using hj)
          (hj := by simpa using hk)).1 (by simpa using heq)
        omega)
    obtain ⟨r, er, hr⟩ := reduceCoeffs_spec hK p m hm
    refine ⟨p, r, e, er, ?_⟩
    rw [hr, hs, Poly.sem_one, Polynomial.map_one, one_mul]
    refine isLagrange_of_lagProd _ _ j (by simpa using hj) (by simpa using hl) fun k hk hne => ?_
    have := hu k (by simpa using hk) (by rw [hl]; simpa using hk) (by omega)
    simpa using this
  have hall : ∀ n, n ≤ xs.length → ∃ ls, ((xs.zipIdx).drop n).mapM
      (fun x => do
        let p ← lagrangeLoop m x.1 x.2 0 one xs
        p.reduceCoeffs m) = .ok ls ∧ ls.length = xs.length - n ∧
      ∀ j (hj : j < ls.length), IsLagrange (xs.map fun x => AdjoinRoot.mk m.sem x.sem) (n + j)
        ((ls[j].sem : (BitVec K)[X][X]).map (AdjoinRoot.mk m.sem)) := by
    intro n hn
    induction hdd : xs.length - n generalizing n with
    | zero =>
      refine ⟨[], ?_, rfl, fun j hj => absurd hj (by simp)⟩
      rw [List.drop_eq_nil_of_le (by simp; omega)]; rfl
    | succ t ih =>
      have hlt : n < xs.length := by omega
      obtain ⟨ls, e, hl, hlag⟩ := ih (n + 1) (by omega) (by omega)
      obtain ⟨p, r, hp, hr, hpl⟩ := hone n hlt
      refine ⟨r :: ls, ?_, by simp [hl], ?_⟩
      · rw [List.drop_eq_getElem_cons (by simpa using hlt)]
        rw [List.mapM_cons, e]
        simp only [List.getElem_zipIdx, Nat.zero_add]
        rw [hp]
        simp only [bind, Except.bind]
        rw [hr]; rfl
      · intro j hj
        cases j with
        | zero => exact hpl
        | succ j =>
          have := hlag j (by simpa using hj)
          rw [show n + (j + 1) = n + 1 + j by omega]
          simpa using this
  obtain ⟨ls, e, hl, hlag⟩ := hall 0 (Nat.zero_le _)
  refine ⟨ls, by unfold lagrangePolys; simpa using e, by simpa using hl, fun j hj => ?_⟩
  simpa using hlag j hj

/-! ## The points and the modulus that the proofs use -/

theorem toBitsMin_sem (hK : 0 < K) (x : Nat) : (semL (toBitsMin K x) : (BitVec K)[X]).map (bvMod2 hK) = natPoly x := by
  induction x using Nat.strongRecOn with
  | _ x ih =>
    rw [toBitsMin]
    split
    · rename_i h
      simp only [semL, Polynomial.map_add, Polynomial.map_mul, map_X, map_C, sem_bitVec, ih (x / 2) (by omega), bvMod2_ofBit]
      ext i
      cases i with
      | zero => by_cases hx : x % 2 = 1 <;> simp [natPoly_coeff, Nat.testBit_zero, hx]
      | succ i =>
        by_cases hx : x % 2 = 1 <;>
          simp [natPoly_coeff, coeff_X_mul, Nat.testBit_succ, hx, show ((1 : (ZMod 2)[X])).coeff (i + 1) = 0 from by
            rw [coeff_one]; simp]
    · rename_i h
      obtain rfl : x = 0 := by omega
      rw [natPoly_zero]; simp [semL]

theorem toBitsMin_length (x d : Nat) (h : x < 2 ^ d) : (toBitsMin K x).length ≤ d := by
  induction d generalizing x with
  | zero =>
    obtain rfl : x = 0 := by simpa using h
    rw [toBitsMin]; simp
  | succ d ih =>
    rw [toBitsMin]
    split
    · rw [List.length_cons]
      exact Nat.succ_le_succ (ih (x / 2) (by rw [pow_succ] at h; omega))
    · simp

theorem mulPoints_ok (hK : 0 < K) (d num : Nat) (h : num ≤ 2 ^ d) : PointsOk hK d (mulPoints K num) := by
  constructor
  · intro x hx
    obtain ⟨i, hi, rfl⟩ := List.mem_map.1 hx
    exact toBitsMin_length i d (lt_of_lt_of_le (List.mem_range.1 hi) h)
  · unfold mulPoints
    rw [List.map_map]
    have : ((fun x : Poly (BitVec K) => x.sem.map (bvMod2 hK)) ∘ fun i => (⟨toBitsMin K i⟩ : Poly (BitVec K))) = natPoly :=
      funext fun i => toBitsMin_sem hK i
    rw [this]
    exact (List.nodup_range).map natPoly_injective

theorem irreduciblePoly_spec (hK : 0 < K) (d : Nat) (h1 : 40 ≤ d) (h2 : d ≤ 63) :
    ∃ m : Poly (BitVec K), irreduciblePoly K d = .ok m ∧ MonicRep d m ∧ Irreducible (m.sem.map (bvMod2 hK)) := by
  obtain ⟨f, e, hf, hirr⟩ := table_irreducible d h1 h2
  refine ⟨⟨(List.range (d + 1)).map fun i => ofBit K (((f >>> i) &&& 1) == 1)⟩, ?_, ?_, ?_⟩
  · unfold irreduciblePoly; rw [e]; rfl
  · have hbit : ∀ i, (((f >>> i) &&& 1) == 1) = f.testBit i := fun i => by
      rw [Nat.testBit, Nat.and_comm, Bool.eq_iff_iff, beq_iff_eq, bne_iff_ne, Nat.and_comm, Nat.and_one_is_mod]
      omega
    refine ⟨(List.range d).map fun i => ofBit K (((f >>> i) &&& 1) == 1), ?_, by simp⟩
    simp only
    rw [List.range_succ, List.map_append]
    congr 1
    simp only [List.map_cons, List.map_nil, hbit, hf.1]
    rfl
  · have hbit : ∀ i, (((f >>> i) &&& 1) == 1) = f.testBit i := fun i => by
      rw [Nat.testBit, Nat.and_comm, Bool.eq_iff_iff, beq_iff_eq, bne_iff_ne, Nat.and_comm, Nat.and_one_is_mod]
      omega
    rwa [show ((⟨(List.range (d + 1)).map fun i => ofBit K (((f >>> i) &&& 1) == 1)⟩ : Poly (BitVec K)).sem).map (bvMod2 hK)
      = natPoly f from ?_]
    ext i
    rw [coeff_map, Poly.sem, semL_coeff, natPoly_coeff]
    simp only [List.getElem?_map]
    by_cases hi : i < d + 1
    · rw [List.getElem?_range hi]
      simp only [Option.map_some, sem_bitVec, bvMod2_ofBit, hbit]
    · rw [List.getElem?_eq_none (by simpa using hi)]
      rw [Nat.testBit_lt_two_pow (lt_of_lt_of_le hf.2 (Nat.pow_le_pow_right (by norm_num) (by omega)))]
      exact map_zero (bvMod2 hK)

end Poly

end Verif
