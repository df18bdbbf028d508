import Verif.Proof.ZkTape
import Verif.Proof.GaloisRing

/-! # The proofs for AND gates, multiplications and dot products hide the gates from the predecessor -/

namespace Verif

open Polynomial

/-! ## AND gates -/

theorem and_unit (m : Nat) (hm : m < 2 ^ 64) (L0 : Poly GF2p64) (hL : IsLagrange ((andPoints (m + 1)).map fun x => RingHom.id F64 (sem x)) 0
    ((L0.sem : F64[X]).map (RingHom.id F64))) (r : GF2p64) (hr : m < r.val.toNat) :
    ∃ u, ((L0.sem : F64[X]).map (RingHom.id F64)).eval (RingHom.id F64 (sem r)) * u = 1 := by
  refine lagrange_unit (RingHom.id F64) (fun x hx => IsUnit.mk0 _ hx) _ _ hL ?_ (by simp [andPoints]) _ ?_
  · rw [List.map_map]
    exact (andPoints_nodup (m + 1) (by omega)).map GF2p64.sem_injective
  · intro k hk
    simp only [List.length_map, andPoints_length] at hk
    simp only [List.getElem_map, RingHom.id_apply]
    intro h
    have := GF2p64.sem_injective h
    rw [this] at hr
    simp only [andPoints, List.getElem_map, List.getElem_range, GF2p64.new, BitVec.toNat_ofNat] at hr
    rw [Nat.mod_eq_of_lt (by omega)] at hr
    omega

theorem and_hide_le (f : Bytes → List Bool) (l m : Nat) (hm : m < 2 ^ 64) (p p' vp vp' vn : List (ZInput Bool))
    (h : Gates AndGateOk p vp vn) (h' : Gates AndGateOk p' vp' vn) (hp : p.length = l * m) (hp' : p'.length = l * m)
    (thetas betas : List GF2p64) (hth : thetas.length = l) (hb : betas.length = m) (r : GF2p64) (hr : m < r.val.toNat)
    (n : Nat) (hn : 64 * (6 * l) ≤ n) (out : Bytes × ZkShared GF2p64) :
    tapeCount (andPredecessor f l m p vp thetas betas r) n out ≤ tapeCount (andPredecessor f l m p' vp' thetas betas r) n out := by
  obtain ⟨Ls, eL, hL, hLag⟩ := and_lagrange m hm
  cases Ls with
  | nil => simp at hL
  | cons L0 Ls =>
    obtain ⟨u, hu⟩ := and_unit m hm L0 (hLag 0 (by simp)) r hr
    have hlen := h.length
    have hlen' := h'.length
    have g1 := and_gates (idealPrg f) p
    have g2 := and_gates (idealPrg f) vp
    have g3 := and_gates (idealPrg f) vn
    have g4 := and_gates (idealPrg f) p'
    have g5 := and_gates (idealPrg f) vp'
    rw [hlen.1, hp] at g2
    rw [hlen.2, hp] at g3
    rw [hp] at g1
    rw [hp'] at g4
    rw [hlen'.1, hp'] at g5
    have hs : ∀ {p vp : List (ZInput Bool)}, Gates AndGateOk p vp vn → p.length = l * m → ∀ q < l * m, ∀ i < (andEnv (idealPrg f)).circ.wires,
        RingHom.id F64 (sem (andV vp q i)) + RingHom.id F64 (sem (andV vn q i)) = RingHom.id F64 (sem (andV p q i)) := by
      intro p vp h hp q hq i _
      have hg : p.getD q ⟨false, false, false, false, false, false⟩ = _ := (h.get q ⟨false, false, false, false, false, false⟩ (by omega)).1
      simp only [andV, RingHom.id_apply, sem_gf, sem_lift]
      rw [hg]
      erw [ZInput.bit_xor, bitF_xor]
    have hg : ∀ {p vp : List (ZInput Bool)}, Gates AndGateOk p vp vn → p.length = l * m → ∀ q < l * m,
        mulExpr F64 ((List.range (andEnv (idealPrg f)).circ.wires).map fun i => RingHom.id F64 (sem (andV p q i))) = 0 := by
      intro p vp h hp q hq
      have hg := (h.get q ⟨false, false, false, false, false, false⟩ (by omega)).2
      simp only [andV, RingHom.id_apply, sem_gf, sem_lift]
      exact (mulExpr_zero_iff _).2 hg
    have := ZkEnv.hide_shift (K := 64) (andEnv (idealPrg f)) (RingHom.id F64) (and_redOk _) (fun _ _ _ => trivial)
      (fun x y _ _ hxy => GF2p64.sem_injective hxy) mulCirc_lawful l m p p' vp vp' vn thetas L0 Ls (andPoints (m + 1)) hth
      (by simpa using hL) (andPoints_length _) hLag (andV p) (andV p') (andV vp) (andV vp') (andV vn) g1 g4 g2 g5 g3
      (hs h hp) (hs h' hp') (hg h hp) (hg h' hp') betas r hb u hu (and_draws f) (fun x y => x ^^^ y)
      (fun d x y hxy => by
        have := congrArg (· ^^^ d) hxy
        simpa [BitVec.xor_assoc] using this)
      (fun a => by
        obtain ⟨y, rfl⟩ := GF2p64.sem_surjective a
        refine ⟨[y.val], rfl, fun x hx => ?_⟩
        obtain ⟨x0, rfl⟩ := List.length_eq_one_iff.1 hx
        exact GF2p64.sem_add (GF2p64.new x0) y) n (show 64 * 1 * (6 * l) ≤ n by omega) out
    have e : ∀ p vp : List (ZInput Bool), andPredecessor f l m p vp thetas betas r = (fun t => do
        let (sd, pf, _) ← (andEnv (idealPrg f)).prove l m p thetas (L0 :: Ls) t
        let v ← (andEnv (idealPrg f)).verifyPi l m vp betas r (L0 :: Ls) (andPoints (m + 1)) pf
        pure (sd, v)) := by
      intro p vp
      funext t
      unfold andPredecessor
      rw [eL]
      rfl
    rw [e, e]
    exact this

/-! ## Multiplications and dot products, generically in the circuit -/

variable {K : Nat}

theorem modTwo_unit {A F : Type} [CommRing A] [Field F] {π : A →+* F} (h : ModTwo K π) (hs : Function.Surjective π) (x : A)
    (hx : π x ≠ 0) : IsUnit x := by
  obtain ⟨y, hy⟩ := hs (π x)⁻¹
  obtain ⟨z, hz⟩ := h.even (x * y - 1) (by rw [map_sub, map_mul, hy, mul_inv_cancel₀ hx, map_one, sub_self])
  have hn : IsNilpotent (2 * z) := ⟨K, by rw [mul_pow, h.nil, zero_mul]⟩
  have hu := hn.isUnit_one_add
  rw [← hz, add_sub_cancel] at hu
  exact isUnit_of_mul_isUnit_left hu

theorem resMap_surjective (hK : 0 < K) (md : Poly (BitVec K)) : Function.Surjective (resMap hK md) := by
  intro y
  obtain ⟨q, rfl⟩ := AdjoinRoot.mk_surjective y
  obtain ⟨q', rfl⟩ := map_surjective _ (bvMod2_surjective hK) q
  exact ⟨AdjoinRoot.mk md.sem q', resMap_mk hK q'⟩

theorem sem_zipWith_add (x δ : List (BitVec K)) (h : x.length = δ.length) :
    (Poly.sem ⟨List.zipWith (· + ·) x δ⟩ : (BitVec K)[X]) = Poly.sem ⟨x⟩ + Poly.sem ⟨δ⟩ := by
  refine Polynomial.ext fun i => ?_
  rw [coeff_add]
  simp only [Poly.sem, semL_coeff, List.getElem?_zipWith]
  by_cases hi : i < x.length
  · rw [List.getElem?_eq_getElem hi, List.getElem?_eq_getElem (h ▸ hi)]
    simp [sem_bitVec]
  · rw [List.getElem?_eq_none (by omega), List.getElem?_eq_none (by omega)]
    simp

theorem poly_mask (hK : 0 < K) {md : Poly (BitVec K)} {d : Nat} (hm : Poly.MonicRep d md) (a : Poly.QR md.sem) :
    ∃ δ : List (BitVec K), δ.length = d ∧ ∀ x : List (BitVec K), x.length = d →
      AdjoinRoot.mk md.sem (Poly.sem ⟨List.zipWith (· + ·) x δ⟩) = AdjoinRoot.mk md.sem (Poly.sem ⟨x⟩) + a := by
  have := Poly.nontrivial_bitVec hK
  have hmon := hm.monic hK
  obtain ⟨p0, rfl⟩ := AdjoinRoot.mk_surjective a
  refine ⟨(List.range d).map fun i => (p0 %ₘ md.sem).coeff i, by simp, fun x hx => ?_⟩
  rw [sem_zipWith_add _ _ (by simp [hx]), map_add]
  congr 1
  conv_rhs => rw [← modByMonic_add_div p0 md.sem]
  rw [map_add, map_mul, AdjoinRoot.mk_self, zero_mul, add_zero]
  congr 1
  have hdeg := degree_modByMonic_lt p0 hmon.1
  rw [degree_eq_natDegree hmon.1.ne_zero, hmon.2, degree_lt_iff_coeff_zero] at hdeg
  refine Polynomial.ext fun i => ?_
  simp only [Poly.sem, semL_coeff, List.getElem?_map]
  by_cases hi : i < d
  · rw [List.getElem?_range hi]
    rfl
  · rw [List.getElem?_eq_none (by simp; omega)]
    exact (hdeg i (by omega)).symm

theorem redTo_inj (hK : 0 < K) {md : Poly (BitVec K)} {d : Nat} (hm : Poly.MonicRep d md) (x y : Poly (BitVec K)) (hx : RedTo d x)
    (hy : RedTo d y) (h : AdjoinRoot.mk md.sem x.sem = AdjoinRoot.mk md.sem y.sem) : x = y := by
  have hs : x.sem = y.sem := by
    refine sub_eq_zero.1 ((mk_eq_zero_of_degree_lt hK hm _ (lt_of_le_of_lt (degree_sub_le _ _) (max_lt hx.1 hy.1))).1 ?_)
    rw [map_sub, h, sub_self]
  refine poly_eq_of_sem ?_ hs
  rw [hx.2, hy.2, Poly.degree_eq (R := BitVec K), Poly.degree_eq (R := BitVec K), hs]

theorem avoids_ne (hK : 0 < K) {md : Poly (BitVec K)} {d : Nat} (hm : Poly.MonicRep d md) [Fact (Irreducible (md.sem.map (bvMod2 hK)))]
    {m : Nat} (hmd : m + 1 ≤ 2 ^ d) (r : PolyChallenge K d) (hr : Avoids m r) (k : Nat) (hk : 1 ≤ k) (hk' : k ≤ m) :
    resMap hK md (AdjoinRoot.mk md.sem r.poly.sem) ≠ resMap hK md (AdjoinRoot.mk md.sem (Poly.sem ⟨toBitsMin K k⟩)) := by
  intro h
  rw [resMap_mk, resMap_mk] at h
  have e : (Poly.sem ⟨toBitsMin K k⟩ : (BitVec K)[X]).map (bvMod2 hK) = natPoly k := Poly.toBitsMin_sem hK k
  rw [e] at h
  obtain ⟨hmon, hdeg⟩ := mod2_monic hK hm
  have hl : (r.poly.sem.map (bvMod2 hK)).degree < d := by
    refine lt_of_le_of_lt degree_map_le ?_
    have := semL_degree_lt (R := BitVec K) r.poly.coeffs
    rw [show r.poly.coeffs.length = d by simp [PolyChallenge.poly]] at this
    exact this
  have hn : (natPoly k).degree < d := by
    rw [degree_lt_iff_coeff_zero]
    intro i hi
    rw [natPoly_coeff, if_neg]
    rw [Nat.testBit_lt_two_pow (lt_of_lt_of_le (by omega : k < 2 ^ d) (Nat.pow_le_pow_right (by omega) hi))]
    simp
  have h0 : (r.poly.sem.map (bvMod2 hK)) - natPoly k = 0 := by
    have h1 : (md.sem.map (bvMod2 hK)) ∣ (r.poly.sem.map (bvMod2 hK)) - natPoly k := by
      rw [← AdjoinRoot.mk_eq_zero, map_sub, h, sub_self]
    have h2 : ((r.poly.sem.map (bvMod2 hK)) - natPoly k) %ₘ (md.sem.map (bvMod2 hK)) = (r.poly.sem.map (bvMod2 hK)) - natPoly k :=
      (modByMonic_eq_self_iff hmon).2 (by
        rw [degree_eq_natDegree hmon.ne_zero, hdeg]
        exact lt_of_le_of_lt (degree_sub_le _ _) (max_lt hl hn))
    rw [← h2]
    exact (modByMonic_eq_zero_iff_dvd hmon).2 h1
  obtain ⟨i, hi⟩ := hr k hk hk'
  apply hi
  have h1 := congrArg (fun p => coeff p i.1) (sub_eq_zero.1 h0)
  simp only [coeff_map, natPoly_coeff, Poly.sem, PolyChallenge.poly, semL_coeff] at h1
  rw [List.getElem?_eq_getElem (by simp), List.getElem_ofFn] at h1
  simp only [sem_bitVec, Fin.eta] at h1
  rw [bvMod2_apply] at h1
  have h2 : (r i).getLsbD 0 = ((r i).toNat % 2 == 1) := by
    rw [BitVec.getLsbD, Nat.testBit_zero]
    rcases Nat.mod_two_eq_zero_or_one (r i).toNat with h | h <;> simp [h]
  rw [h2]
  have h3 : (((r i).toNat : ℕ) : ZMod 2) = (((r i).toNat % 2 : ℕ) : ZMod 2) := by simp
  rw [h3] at h1
  cases ht : k.testBit i.1 with
  | true =>
    rw [ht, if_pos rfl] at h1
    rcases Nat.mod_two_eq_zero_or_one (r i).toNat with h | h
    · rw [h] at h1; simp at h1
    · rw [h]; rfl
  | false =>
    rw [ht] at h1
    rcases Nat.mod_two_eq_zero_or_one (r i).toNat with h | h
    · rw [h]; rfl
    · rw [h] at h1; simp at h1

theorem poly_hide_le {I : Type} (hK : 0 < K) (h64 : K < 64) {f : Bytes → List Bool} (E : ZkEnv (idealPrg f) (Poly (BitVec K)) I)
    {md : Poly (BitVec K)} {d : Nat} (hd : d < 64) (hd0 : 0 < d) (hm : Poly.MonicRep d md)
    (hirr : Irreducible (md.sem.map (bvMod2 hK))) (hE : ∀ x, E.red x = x.rem md) (hE' : ∀ s, E.rnd s = Poly.random K (md.degree - 1) s)
    {cR : (A : Type) → [CommRing A] → List A → A} (hc : E.circ.Lawful cR) (val : I → Nat → BitVec K) (d0 : I)
    (l m : Nat) (hmd : m + 1 ≤ 2 ^ d) (p p' vp vp' vn : List I) (hp : p.length = l * m) (hp' : p'.length = l * m) (hvp : vp.length = l * m)
    (hvp' : vp'.length = l * m) (hvn : vn.length = l * m)
    (hw : ∀ inputs ∈ [p, p', vp, vp', vn], ∀ x ∈ inputs, ∀ i < E.circ.wires, E.wire x i = .ok (Poly.lift (val x i)))
    (hsplit : ∀ q < l * m, ∀ i < E.circ.wires, val (p.getD q d0) i = val (vp.getD q d0) i + val (vn.getD q d0) i)
    (hsplit' : ∀ q < l * m, ∀ i < E.circ.wires, val (p'.getD q d0) i = val (vp'.getD q d0) i + val (vn.getD q d0) i)
    (hgate : ∀ q < l * m, cR (BitVec K) ((List.range E.circ.wires).map (val (p.getD q d0))) = 0)
    (hgate' : ∀ q < l * m, cR (BitVec K) ((List.range E.circ.wires).map (val (p'.getD q d0))) = 0)
    (thetas betas : List (Poly (BitVec K))) (hth : thetas.length = l) (hb : betas.length = m) (r : PolyChallenge K d) (hr : Avoids m r)
    (n : Nat) (hn : K * d * (E.circ.wires * l) ≤ n) (out : Bytes × ZkShared (Poly (BitVec K))) :
    ∃ Ls, Poly.lagrangePolys (mulPoints K (m + 1)) md = .ok Ls ∧
      tapeCount (fun t => do
        let (sd, pf, _) ← E.prove l m p thetas Ls t
        let v ← E.verifyPi l m vp betas r.poly Ls (mulPoints K (m + 1)) pf
        pure (sd, v)) n out ≤
      tapeCount (fun t => do
        let (sd, pf, _) ← E.prove l m p' thetas Ls t
        let v ← E.verifyPi l m vp' betas r.poly Ls (mulPoints K (m + 1)) pf
        pure (sd, v)) n out := by
  have : Fact (Irreducible (md.sem.map (bvMod2 hK))) := ⟨hirr⟩
  obtain ⟨Ls, eL, hL, hLag⟩ := Poly.lagrangePolys_spec hK h64 md hd hm hirr _ (Poly.mulPoints_ok hK d (m + 1) hmd)
  have hpl : (mulPoints K (m + 1)).length = m + 1 := by simp [mulPoints]
  rw [hpl] at hL
  refine ⟨Ls, eL, ?_⟩
  cases Ls with
  | nil => simp at hL
  | cons L0 Ls =>
    obtain ⟨u, hu⟩ := lagrange_unit (resMap hK md) (modTwo_unit (resMap_modTwo hK hm) (resMap_surjective hK md)) _ _ (hLag 0 (by simp))
      (by
        rw [List.map_map]
        refine List.Nodup.map_on ?_ ?_
        · intro x hx y hy hxy
          obtain ⟨i, hi, rfl⟩ := List.mem_map.1 hx
          obtain ⟨j, hj, rfl⟩ := List.mem_map.1 hy
          simp only [Function.comp_apply, resMap_mk] at hxy
          have ei : ∀ i, (Poly.sem ⟨toBitsMin K i⟩ : (BitVec K)[X]).map (bvMod2 hK) = natPoly i := Poly.toBitsMin_sem hK
          rw [ei, ei] at hxy
          obtain ⟨hmon, hdeg⟩ := mod2_monic hK hm
          have hn : ∀ k, k < m + 1 → (natPoly k).degree < d := by
            intro k hk
            rw [degree_lt_iff_coeff_zero]
            intro i hi
            rw [natPoly_coeff, if_neg]
            rw [Nat.testBit_lt_two_pow (lt_of_lt_of_le (by omega : k < 2 ^ d) (Nat.pow_le_pow_right (by omega) hi))]
            simp
          have h1 : (md.sem.map (bvMod2 hK)) ∣ natPoly i - natPoly j := by
            rw [← AdjoinRoot.mk_eq_zero, map_sub, hxy, sub_self]
          have h2 : (natPoly i - natPoly j) %ₘ (md.sem.map (bvMod2 hK)) = natPoly i - natPoly j :=
            (modByMonic_eq_self_iff hmon).2 (by
              rw [degree_eq_natDegree hmon.ne_zero, hdeg]
              exact lt_of_le_of_lt (degree_sub_le _ _) (max_lt (hn i (List.mem_range.1 hi)) (hn j (List.mem_range.1 hj))))
          rw [(modByMonic_eq_zero_iff_dvd hmon).2 h1] at h2
          rw [natPoly_injective (sub_eq_zero.1 h2.symm)]
        · have := (Poly.mulPoints_ok hK d (m + 1) hmd).2
          exact List.Nodup.of_map _ this)
      (by intro h; have := congrArg List.length h; simp [hpl] at this) (AdjoinRoot.mk md.sem r.poly.sem)
      (by
        intro k hk
        simp only [List.length_map, hpl] at hk
        simp only [List.getElem_map, mulPoints, List.getElem_range]
        exact avoids_ne hK hm hmd r hr (k + 1) (by omega) (by omega))
    have g1 := lift_gates E val d0 p (hw p (by simp))
    have g2 := lift_gates E val d0 vp (hw vp (by simp))
    have g3 := lift_gates E val d0 vn (hw vn (by simp))
    have g4 := lift_gates E val d0 p' (hw p' (by simp))
    have g5 := lift_gates E val d0 vp' (hw vp' (by simp))
    rw [hp] at g1
    rw [hvp] at g2
    rw [hvn] at g3
    rw [hp'] at g4
    rw [hvp'] at g5
    have hdeg : md.degree = d := by
      have := Poly.nontrivial_bitVec hK
      rw [Poly.degree_eq (R := BitVec K), (hm.monic hK).2]
    have hgt : ∀ {p : List I}, (∀ q < l * m, cR (BitVec K) ((List.range E.circ.wires).map (val (p.getD q d0))) = 0) → ∀ q < l * m,
        cR (Poly.QR md.sem) ((List.range E.circ.wires).map fun i => AdjoinRoot.mk md.sem (sem (liftV val d0 p q i))) = 0 := by
      intro p hgate q hq
      have h1 := hc.map (constA md) ((List.range E.circ.wires).map (val (p.getD q d0))) (by simp)
      rw [hgate q hq, map_zero, List.map_map] at h1
      rw [← h1]
      congr 1
      apply List.map_congr_left
      intro i _
      exact sem_liftV md val d0 p q i
    refine ZkEnv.hide_shift E (AdjoinRoot.mk md.sem) (mul_redOk hK E hm hE) ?_ (redTo_inj hK hm) hc l m p p' vp vp' vn thetas L0 Ls
      (mulPoints K (m + 1)) hth (by simpa using hL) hpl hLag _ _ _ _ _ g1 g4 g2 g5 g3 ?_ ?_ (hgt hgate) (hgt hgate')
      betas r.poly hb u hu (e := d) (mk := fun ws => ⟨ws⟩) ?_ (· + ·) (fun d x y hxy => by simpa using hxy) (poly_mask hK hm) n hn out
    · intro x y h
      obtain ⟨y', e, -, h'⟩ := (mul_redOk hK E hm hE).red x
      rw [h] at e
      cases e
      exact h'
    · intro q hq i hi
      rw [sem_liftV, sem_liftV, sem_liftV, hsplit q hq i hi, map_add]
    · intro q hq i hi
      rw [sem_liftV, sem_liftV, sem_liftV, hsplit' q hq i hi, map_add]
    · intro t
      have := poly_draws (K := K) f (md.degree - 1) t
      rw [hdeg, Nat.sub_add_cancel hd0] at this
      exact (hE' t).trans (by rw [hdeg]; exact this)

end Verif
