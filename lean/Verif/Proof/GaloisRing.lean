import Verif.Proof.ZkMul
import Mathlib.FieldTheory.Finiteness
import Mathlib.RingTheory.AdjoinRoot

/-! # Counting challenges over the Galois ring `(Z/2^K)[X]/(m)`: reduction to its residue field -/

namespace Verif

open Polynomial

/-! ## Linear forms and roots over a field, with challenges that are mapped to the field by a surjective homomorphism -/

section

variable {T F : Type} [AddCommGroup T] [Finite T] [Field F] [Finite F] (s : T →+ F) (hs : Function.Surjective s)

include hs

omit [Finite F] in
/-- A non-zero linear form vanishes on at most a `1/|F|` fraction of the vectors. -/
theorem card_linear_le' {m : Nat} (c : Fin m → F) (k0 : Fin m) (hk : c k0 ≠ 0) :
    Nat.card F * Nat.card {β : Fin m → T // ∑ k, c k * s (β k) = 0} ≤ Nat.card T ^ m := by
  classical
  rw [← Nat.card_prod, show Nat.card T ^ m = Nat.card (Fin m → T) by simp [Nat.card_fun]]
  have hsum : ∀ (β : Fin m → T) (x : T), ∑ k, c k * s (Function.update β k0 x k) =
      ∑ k, c k * s (β k) + c k0 * (s x - s (β k0)) := by
    intro β x
    rw [← Finset.add_sum_erase _ _ (Finset.mem_univ k0), ← Finset.add_sum_erase _ (fun k => c k * s (β k)) (Finset.mem_univ k0)]
    rw [Function.update_self]
    have : ∑ k ∈ Finset.univ.erase k0, c k * s (Function.update β k0 x k) = ∑ k ∈ Finset.univ.erase k0, c k * s (β k) := by
      apply Finset.sum_congr rfl
      intro k hk
      rw [Function.update_of_ne (Finset.ne_of_mem_erase hk)]
    rw [this]; ring
  let inv := fun y => (hs y).choose
  have hinv : ∀ y, s (inv y) = y := fun y => (hs y).choose_spec
  refine Nat.card_le_card_of_injective
    (fun q : F × {β : Fin m → T // ∑ k, c k * s (β k) = 0} => Function.update q.2.1 k0 (q.2.1 k0 + inv q.1)) ?_
  intro ⟨t, β, hβ⟩ ⟨t', β', hβ'⟩ h
  have h : Function.update β k0 (β k0 + inv t) = Function.update β' k0 (β' k0 + inv t') := h
  have e1 := hsum β (β k0 + inv t)
  have e2 := hsum β' (β' k0 + inv t')
  rw [map_add, hinv, hβ] at e1
  rw [map_add, hinv, hβ', ← h, e1] at e2
  have ht : t = t' := mul_left_cancel₀ hk (by linear_combination e2 : c k0 * t = c k0 * t')
  subst ht
  have hb : β = β' := by
    funext k
    have hk' := congrFun h k
    by_cases e : k = k0
    · subst e
      rw [Function.update_self, Function.update_self] at hk'
      exact add_right_cancel hk'
    · rwa [Function.update_of_ne e, Function.update_of_ne e] at hk'
  subst hb
  rfl

/-- The elements that are mapped to a root of a non-zero polynomial of degree at most `d`. -/
theorem card_roots_le' {Rt : Type} [Finite Rt] (ρ : Rt → T) (hρ : Function.Injective ρ) (p : F[X]) (d : Nat) (hp : p ≠ 0)
    (hd : p.natDegree ≤ d) : Nat.card F * Nat.card {r : Rt // p.eval (s (ρ r)) = 0} ≤ d * Nat.card T := by
  classical
  let inv := fun y => (hs y).choose
  have hinv : ∀ y, s (inv y) = y := fun y => (hs y).choose_spec
  have h1 : Nat.card F * Nat.card {r : Rt // p.eval (s (ρ r)) = 0} ≤
      Nat.card {x : F // x ∈ p.roots.toFinset} * Nat.card T := by
    rw [← Nat.card_prod, ← Nat.card_prod]
    refine Nat.card_le_card_of_injective (fun q => (⟨s (ρ q.2.1), ?_⟩, ρ q.2.1 - inv (s (ρ q.2.1)) + inv q.1)) ?_
    · rw [Multiset.mem_toFinset, mem_roots hp]; exact q.2.2
    · intro ⟨t, r, hr⟩ ⟨t', r', hr'⟩ h
      have h := Prod.mk.inj h
      have ha : s (ρ r) = s (ρ r') := congrArg Subtype.val h.1
      have hb := h.2
      simp only at hb
      have hc := congrArg s hb
      simp only [map_add, map_sub, hinv, sub_self, zero_add] at hc
      subst hc
      rw [ha] at hb
      have hb := add_right_cancel hb
      have hb := sub_left_injective hb
      have := hρ hb
      subst this
      rfl
  refine h1.trans (Nat.mul_le_mul_right _ ?_)
  rw [Nat.card_eq_fintype_card, Fintype.card_coe]
  exact (Multiset.toFinset_card_le _).trans ((card_roots' p).trans hd)

/-- The number of accepted challenges `(θ, β, r)` when, for all but the `θ` in a hyperplane, acceptance forces `β` into
a hyperplane or `r` among the roots of a non-zero polynomial of degree at most `d`. -/
theorem count_accept' {Rt : Type} [Finite Rt] (ρ : Rt → T) (hρ : Function.Injective ρ) {l m d : Nat} (hd : 0 < d)
    (c : Fin l → F) (hj : ∃ j, c j ≠ 0)
    (acc : (Fin l → T) → (Fin m → T) → Rt → Prop)
    (h : ∀ θ : Fin l → T, ∑ j, c j * s (θ j) ≠ 0 →
      (∃ e : Fin m → F, (∃ k, e k ≠ 0) ∧ ∀ β r, acc θ β r → ∑ k, e k * s (β k) = 0) ∨
      (∃ p : F[X], p ≠ 0 ∧ p.natDegree ≤ d ∧ ∀ β r, acc θ β r → p.eval (s (ρ r)) = 0)) :
    Nat.card F * Nat.card {x : (Fin l → T) × (Fin m → T) × Rt // acc x.1 x.2.1 x.2.2} ≤
      Nat.card T ^ (l + m) * (Nat.card Rt + d * Nat.card T) := by
  classical
  obtain ⟨j0, hj⟩ := hj
  set N := Nat.card F with hN
  set M := Nat.card Rt with hM
  set t := Nat.card T with ht
  have hMt : M ≤ d * t := (Nat.card_le_card_of_injective ρ hρ).trans (Nat.le_mul_of_pos_left _ hd)
  have hβ : Nat.card (Fin m → T) = t ^ m := by simp [Nat.card_fun, ht]
  have hθ : Nat.card (Fin l → T) = t ^ l := by simp [Nat.card_fun, ht]
  have := Fintype.ofFinite (Fin l → T)
  have hsplit : Nat.card {x : (Fin l → T) × (Fin m → T) × Rt // acc x.1 x.2.1 x.2.2} =
      ∑ θ : Fin l → T, Nat.card {y : (Fin m → T) × Rt // acc θ y.1 y.2} := by
    rw [← Nat.card_sigma]
    refine Nat.card_congr ⟨fun x => ⟨x.1.1, x.1.2, x.2⟩, fun y => ⟨(y.1, y.2.1), y.2.2⟩, fun _ => rfl, fun _ => rfl⟩
  have hone : ∀ θ : Fin l → T, N * Nat.card {y : (Fin m → T) × Rt // acc θ y.1 y.2} ≤
      (if ∑ j, c j * s (θ j) = 0 then N * (t ^ m * M) else 0) + t ^ m * (d * t) := by
    intro θ
    by_cases h0 : ∑ j, c j * s (θ j) = 0
    · rw [if_pos h0]
      refine le_trans ?_ (Nat.le_add_right _ _)
      refine Nat.mul_le_mul_left _ ?_
      have := Nat.card_le_card_of_injective (Subtype.val : {y : (Fin m → T) × Rt // acc θ y.1 y.2} → _) Subtype.val_injective
      rwa [Nat.card_prod, hβ] at this
    · rw [if_neg h0, Nat.zero_add]
      rcases h θ h0 with ⟨e, ⟨k, hk⟩, he⟩ | ⟨p, hp, hpd, hpe⟩
      · have h1 : Nat.card {y : (Fin m → T) × Rt // acc θ y.1 y.2} ≤
            Nat.card ({β : Fin m → T // ∑ k, e k * s (β k) = 0} × Rt) := by
          refine Nat.card_le_card_of_injective (fun y => (⟨y.1.1, he _ _ y.2⟩, y.1.2)) ?_
          intro ⟨⟨b, r⟩, hy⟩ ⟨⟨b', r'⟩, hy'⟩ hh
          have hh := Prod.mk.inj hh
          have := congrArg Subtype.val hh.1
          simp only at this
          exact Subtype.ext (Prod.ext this hh.2)
        rw [Nat.card_prod] at h1
        have h2 := card_linear_le' s hs e k hk
        calc N * Nat.card {y : (Fin m → T) × Rt // acc θ y.1 y.2}
            ≤ N * (Nat.card {β : Fin m → T // ∑ k, e k * s (β k) = 0} * M) := Nat.mul_le_mul_left _ h1
          _ = (N * Nat.card {β : Fin m → T // ∑ k, e k * s (β k) = 0}) * M := by ring
          _ ≤ t ^ m * (d * t) := Nat.mul_le_mul h2 hMt
      · have h1 : Nat.card {y : (Fin m → T) × Rt // acc θ y.1 y.2} ≤
            Nat.card ((Fin m → T) × {r : Rt // p.eval (s (ρ r)) = 0}) := by
          refine Nat.card_le_card_of_injective (fun y => (y.1.1, ⟨y.1.2, hpe _ _ y.2⟩)) ?_
          intro ⟨⟨b, r⟩, hy⟩ ⟨⟨b', r'⟩, hy'⟩ hh
          have hh := Prod.mk.inj hh
          have := congrArg Subtype.val hh.2
          simp only at this
          exact Subtype.ext (Prod.ext hh.1 this)
        rw [Nat.card_prod, hβ] at h1
        have h2 := card_roots_le' s hs ρ hρ p d hp hpd
        calc N * Nat.card {y : (Fin m → T) × Rt // acc θ y.1 y.2}
            ≤ N * (t ^ m * Nat.card {r : Rt // p.eval (s (ρ r)) = 0}) := Nat.mul_le_mul_left _ h1
          _ = t ^ m * (N * Nat.card {r : Rt // p.eval (s (ρ r)) = 0}) := by ring
          _ ≤ t ^ m * (d * t) := Nat.mul_le_mul_left _ h2
  rw [hsplit, Finset.mul_sum]
  refine (Finset.sum_le_sum fun θ _ => hone θ).trans ?_
  rw [Finset.sum_add_distrib, Finset.sum_const, Finset.card_univ, ← Nat.card_eq_fintype_card, hθ, smul_eq_mul,
    ← Finset.sum_filter, Finset.sum_const, smul_eq_mul]
  have hbad : N * (Finset.univ.filter fun θ : Fin l → T => ∑ j, c j * s (θ j) = 0).card ≤ t ^ l := by
    have := card_linear_le' s hs c j0 hj
    rwa [Nat.card_eq_fintype_card (α := {β : Fin l → T // _}), Fintype.card_subtype] at this
  calc _ = (N * (Finset.univ.filter fun θ : Fin l → T => ∑ j, c j * s (θ j) = 0).card) * (t ^ m * M) +
        t ^ l * (t ^ m * (d * t)) := by ring
    _ ≤ t ^ l * (t ^ m * M) + t ^ l * (t ^ m * (d * t)) := Nat.add_le_add_right (Nat.mul_le_mul_right _ hbad) _
    _ = t ^ (l + m) * (M + d * t) := by rw [pow_add]; ring

end

/-! ## From the ring to the field -/

/-- `π` is the reduction modulo two of a ring in which `2^K` is zero, and `2^(K-1) x` vanishes only when `x` does modulo
two. -/
structure ModTwo {A F : Type} [CommRing A] [Field F] (K : Nat) (π : A →+* F) : Prop where
  pos : 0 < K
  nil : (2 : A) ^ K = 0
  even : ∀ x, π x = 0 → ∃ y, x = 2 * y
  top : ∀ x, (2 : A) ^ (K - 1) * x = 0 → π x = 0

section

variable {A F : Type} [CommRing A] [Field F] {K : Nat} {π : A →+* F} (h : ModTwo K π)

include h

/-- A non-zero vector is a power of two times a vector that is non-zero modulo two. -/
theorem ModTwo.content {n : Nat} (c : Fin n → A) (hc : ∃ k, c k ≠ 0) :
    ∃ (t : Nat) (c' : Fin n → A), t < K ∧ (∀ k, c k = 2 ^ t * c' k) ∧ ∃ k, π (c' k) ≠ 0 := by
  by_contra hno
  push Not at hno
  have hall : ∀ t, t ≤ K → ∃ c' : Fin n → A, ∀ k, c k = 2 ^ t * c' k := by
    intro t
    induction t with
    | zero => intro _; exact ⟨c, fun k => by simp⟩
    | succ t ih =>
      intro ht
      obtain ⟨c', hc'⟩ := ih (by omega)
      have hz := hno t c' (by omega) hc'
      choose y hy using fun k => h.even (c' k) (hz k)
      exact ⟨y, fun k => by rw [hc' k, hy k, pow_succ]; ring⟩
  obtain ⟨c', hc'⟩ := hall K le_rfl
  obtain ⟨k, hk⟩ := hc
  exact hk (by rw [hc' k, h.nil, zero_mul])

/-- A non-zero linear form over the ring gives a non-zero linear form over the field, which vanishes wherever the former
does. -/
theorem ModTwo.linear {n : Nat} (c : Fin n → A) (hc : ∃ k, c k ≠ 0) :
    ∃ e : Fin n → F, (∃ k, e k ≠ 0) ∧ ∀ x : Fin n → A, ∑ k, c k * x k = 0 → ∑ k, e k * π (x k) = 0 := by
  obtain ⟨t, c', ht, hc', k, hk⟩ := h.content c hc
  refine ⟨fun k => π (c' k), ⟨k, hk⟩, fun x hx => ?_⟩
  have h1 : (2 : A) ^ t * ∑ k, c' k * x k = 0 := by
    rw [Finset.mul_sum, ← hx]
    apply Finset.sum_congr rfl
    intro k _
    rw [hc' k]; ring
  have h2 := h.top (∑ k, c' k * x k) (by
    rw [show K - 1 = (K - 1 - t) + t by omega, pow_add, mul_assoc, h1, mul_zero])
  simpa [map_sum] using h2

/-- The same for polynomials. -/
theorem ModTwo.poly (p : A[X]) (hp : p ≠ 0) (d : Nat) (hd : p.natDegree ≤ d) :
    ∃ q : F[X], q ≠ 0 ∧ q.natDegree ≤ d ∧ ∀ x, p.eval x = 0 → q.eval (π x) = 0 := by
  have hc : ∃ k : Fin (d + 1), p.coeff k ≠ 0 := by
    refine ⟨⟨p.natDegree, by omega⟩, ?_⟩
    exact leadingCoeff_ne_zero.2 hp
  obtain ⟨e, ⟨k, hk⟩, he⟩ := h.linear (fun k : Fin (d + 1) => p.coeff k) hc
  have hco : ∀ j : Fin (d + 1), (∑ i : Fin (d + 1), monomial i.1 (e i)).coeff j = e j := by
    intro j
    rw [finsetSum_coeff, Finset.sum_eq_single j]
    · simp
    · intro b _ hb
      rw [coeff_monomial, if_neg (fun h => hb (Fin.ext h))]
    · simp
  refine ⟨∑ i : Fin (d + 1), monomial i.1 (e i), ?_, ?_, ?_⟩
  · intro h0
    apply hk
    rw [← hco k, h0, coeff_zero]
  · refine natDegree_sum_le_of_forall_le _ _ fun i _ => ?_
    exact (natDegree_monomial_le _).trans (by omega)
  · intro x hx
    rw [eval_eq_sum_range' (n := d + 1) (by omega), Finset.sum_range] at hx
    have := he (fun k => x ^ k.1) hx
    rw [eval_finsetSum, ← this]
    apply Finset.sum_congr rfl
    intro i _
    rw [eval_monomial, map_pow]

end

/-! ## The Galois ring of the proofs -/

section

variable {K : Nat} (hK : 0 < K) {md : Poly (BitVec K)} {d : Nat}

/-- The residue field. -/
abbrev ResField (hK : 0 < K) (md : Poly (BitVec K)) : Type := AdjoinRoot (md.sem.map (bvMod2 hK))

/-- Reduction modulo two. -/
noncomputable def resMap (hK : 0 < K) (md : Poly (BitVec K)) : Poly.QR md.sem →+* ResField hK md :=
  AdjoinRoot.map (bvMod2 hK) md.sem (md.sem.map (bvMod2 hK)) dvd_rfl

theorem resMap_mk (p : (BitVec K)[X]) :
    resMap hK md (AdjoinRoot.mk md.sem p) = AdjoinRoot.mk (md.sem.map (bvMod2 hK)) (p.map (bvMod2 hK)) := by
  unfold resMap
  rw [AdjoinRoot.map, AdjoinRoot.lift_mk, ← AdjoinRoot.aeval_eq, aeval_def, eval₂_map]
  rfl

theorem mod2_monic (hm : Poly.MonicRep d md) : (md.sem.map (bvMod2 hK)).Monic ∧ (md.sem.map (bvMod2 hK)).natDegree = d := by
  have := Poly.nontrivial_bitVec hK
  have hmon := hm.monic hK
  exact ⟨hmon.1.map _, by rw [hmon.1.natDegree_map, hmon.2]⟩

theorem pow_top_bitVec (x : BitVec K) (h : (2 : BitVec K) ^ (K - 1) * x = 0) : bvMod2 hK x = 0 := by
  rw [bvMod2_apply, ZMod.natCast_eq_zero_iff]
  have h1 := congrArg BitVec.toNat h
  have h2 : (2 : BitVec K) ^ (K - 1) * x = BitVec.ofNat K (2 ^ (K - 1) * x.toNat) := by
    rw [BitVec.ofNat_mul, BitVec.ofNat_toNat, BitVec.setWidth_eq]
    congr 1
    have : BitVec.ofNat K (2 ^ (K - 1)) = ((2 ^ (K - 1) : Nat) : BitVec K) := rfl
    rw [this]; push_cast; rfl
  rw [h2] at h1
  simp only [BitVec.toNat_ofNat, BitVec.ofNat_eq_ofNat, Nat.zero_mod] at h1
  have h3 := Nat.dvd_of_mod_eq_zero h1
  rw [show (2 : Nat) ^ K = 2 ^ (K - 1) * 2 by rw [← pow_succ]; congr 1; omega] at h3
  exact Nat.dvd_of_mul_dvd_mul_left (by positivity) h3

theorem resMap_modTwo (hm : Poly.MonicRep d md) [Fact (Irreducible (md.sem.map (bvMod2 hK)))] :
    ModTwo K (resMap hK md) where
  pos := hK
  nil := by
    have := congrArg (constA md) (two_pow_bitVec (K := K))
    rwa [map_pow, map_ofNat, map_zero] at this
  even x hx := by
    obtain ⟨p, rfl⟩ := AdjoinRoot.mk_surjective x
    rw [resMap_mk, AdjoinRoot.mk_eq_zero] at hx
    obtain ⟨q, hq⟩ := hx
    obtain ⟨q', rfl⟩ := map_surjective _ (bvMod2_surjective hK) q
    obtain ⟨w, hw⟩ := map_mod2_eq_zero hK (p - md.sem * q') (by
      rw [Polynomial.map_sub, hq, Polynomial.map_mul, sub_self])
    refine ⟨AdjoinRoot.mk md.sem w, ?_⟩
    have : p = md.sem * q' + 2 * w := by rw [← hw]; ring
    rw [this, map_add, map_mul, AdjoinRoot.mk_self, zero_mul, zero_add, map_mul, map_ofNat]
  top x hx := by
    have := Poly.nontrivial_bitVec hK
    have hmon := hm.monic hK
    obtain ⟨p0, rfl⟩ := AdjoinRoot.mk_surjective x
    obtain ⟨p, hp, hdeg⟩ : ∃ p, AdjoinRoot.mk md.sem p = AdjoinRoot.mk md.sem p0 ∧ p.degree < d := by
      refine ⟨p0 %ₘ md.sem, ?_, ?_⟩
      · conv_rhs => rw [← modByMonic_add_div p0 md.sem]
        rw [map_add, map_mul, AdjoinRoot.mk_self, zero_mul, add_zero]
      · have := degree_modByMonic_lt p0 hmon.1
        rwa [degree_eq_natDegree hmon.1.ne_zero, hmon.2] at this
    rw [← hp] at hx ⊢
    have h1 : AdjoinRoot.mk md.sem (C ((2 : BitVec K) ^ (K - 1)) * p) = 0 := by
      rw [← hx, map_mul]
      congr 1
      show constA md _ = _
      rw [map_pow, map_ofNat]
    have h2 := (mk_eq_zero_of_degree_lt hK hm _ (lt_of_le_of_lt ((degree_mul_le _ _).trans (by
      refine (add_le_add_left degree_C_le _).trans ?_
      rw [zero_add])) hdeg)).1 h1
    rw [resMap_mk]
    have h3 : p.map (bvMod2 hK) = 0 := by
      ext i
      rw [coeff_map, coeff_zero]
      apply pow_top_bitVec
      rw [← coeff_C_mul, h2, coeff_zero]
    rw [h3, map_zero]

theorem natCard_resField (hm : Poly.MonicRep d md) [Fact (Irreducible (md.sem.map (bvMod2 hK)))] :
    Nat.card (ResField hK md) = 2 ^ d ∧ Finite (ResField hK md) := by
  obtain ⟨hmon, hdeg⟩ := mod2_monic hK hm
  let pb := AdjoinRoot.powerBasis hmon.ne_zero
  have hfin : Module.Finite (ZMod 2) (ResField hK md) := pb.finite
  have hr : Module.finrank (ZMod 2) (ResField hK md) = d := by
    rw [pb.finrank, AdjoinRoot.powerBasis_dim, hdeg]
  refine ⟨?_, Module.finite_of_finite (ZMod 2)⟩
  rw [Module.natCard_eq_pow_finrank (K := ZMod 2), hr, Nat.card_zmod]

theorem semL_ofFn {n : Nat} (t : Fin n → BitVec K) : (semL (List.ofFn t) : (BitVec K)[X]) = ∑ i : Fin n, C (t i) * X ^ i.1 := by
  induction n with
  | zero => simp [semL]
  | succ n ih =>
    rw [List.ofFn_succ, semL, ih, Fin.sum_univ_succ, Finset.mul_sum]
    simp only [sem_bitVec, Fin.val_zero, pow_zero, mul_one, Fin.val_succ, pow_succ]
    congr 1
    apply Finset.sum_congr rfl
    intro i _
    ring

/-- A challenge, in the residue field. -/
noncomputable def chalMap (hK : 0 < K) (md : Poly (BitVec K)) (d : Nat) : (Fin d → BitVec K) →+ ResField hK md where
  toFun t := resMap hK md (AdjoinRoot.mk md.sem (Poly.sem ⟨List.ofFn t⟩))
  map_zero' := by
    have : (Poly.sem ⟨List.ofFn (0 : Fin d → BitVec K)⟩ : (BitVec K)[X]) = 0 := by
      rw [Poly.sem]
      erw [semL_ofFn]
      exact Finset.sum_eq_zero fun i _ => by rw [Pi.zero_apply, C_0, zero_mul]
    rw [this, map_zero, map_zero]
  map_add' t u := by
    rw [← map_add, ← map_add]
    congr 2
    simp only [Poly.sem, semL_ofFn]
    rw [← Finset.sum_add_distrib]
    apply Finset.sum_congr rfl
    intro i _
    rw [Pi.add_apply, C_add]; ring

theorem chalMap_surjective (hd : 0 < d) (hm : Poly.MonicRep d md) : Function.Surjective (chalMap hK md d) := by
  have := Poly.nontrivial_bitVec hK
  have hmon := hm.monic hK
  intro y
  obtain ⟨q, rfl⟩ := AdjoinRoot.mk_surjective y
  obtain ⟨p0, rfl⟩ := map_surjective _ (bvMod2_surjective hK) q
  refine ⟨fun i => (p0 %ₘ md.sem).coeff i, ?_⟩
  show resMap hK md (AdjoinRoot.mk md.sem (Poly.sem ⟨List.ofFn _⟩)) = _
  rw [← resMap_mk]
  congr 1
  conv_rhs => rw [← modByMonic_add_div p0 md.sem]
  rw [map_add, map_mul, AdjoinRoot.mk_self, zero_mul, add_zero]
  congr 1
  rw [Poly.sem, semL_ofFn]
  have hdeg : (p0 %ₘ md.sem).degree < d := by
    have := degree_modByMonic_lt p0 hmon.1
    rwa [degree_eq_natDegree hmon.1.ne_zero, hmon.2] at this
  conv_rhs => rw [as_sum_range_C_mul_X_pow' (p0 %ₘ md.sem) (n := d) (by
    by_cases h0 : p0 %ₘ md.sem = 0
    · rw [h0, natDegree_zero]; exact hd
    · rw [natDegree_lt_iff_degree_lt h0]; exact hdeg)]
  rw [Finset.sum_range]

end

end Verif
