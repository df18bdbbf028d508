import Verif.Proof.GaloisRing
import Verif.Spec.Swift3Verify

/-! # Soundness of the proofs for multiplications and dot products -/

namespace Verif

open Polynomial ZkEnv

variable {K : Nat}

instance : Finite (BitVec K) :=
  Finite.of_injective (fun x : BitVec K => x.toFin) fun _ _ h => BitVec.eq_of_toFin_eq h

theorem natCard_bitVec : Nat.card (BitVec K) = 2 ^ K := by
  have e : BitVec K ≃ Fin (2 ^ K) := ⟨BitVec.toFin, BitVec.ofFin, fun _ => rfl, fun _ => rfl⟩
  rw [Nat.card_congr e, Nat.card_eq_fintype_card, Fintype.card_fin]

theorem constA_eq_zero (hK : 0 < K) {md : Poly (BitVec K)} {d : Nat} (hd : 0 < d) (hm : Poly.MonicRep d md) (x : BitVec K)
    (h : constA md x = 0) : x = 0 := by
  have := (mk_eq_zero_of_degree_lt hK hm (C x) (lt_of_le_of_lt degree_C_le (by exact_mod_cast hd))).1 h
  exact C_eq_zero.1 this

theorem sem_poly_ofFn (t : List (BitVec K)) :
    (LawfulPolyT.sem (⟨t⟩ : Poly (BitVec K)) : (BitVec K)[X]) = Poly.sem ⟨t⟩ := rfl

/-- Soundness count for one prover, generically in the circuit. -/
theorem poly_sound {G : Prg} {I : Type} (hK : 0 < K) (h64 : K < 64) (E : ZkEnv G (Poly (BitVec K)) I)
    {md : Poly (BitVec K)} {d : Nat} (hd0 : 0 < d) (hd : d < 64) (hm : Poly.MonicRep d md)
    (hirr : Irreducible (md.sem.map (bvMod2 hK))) (hE : ∀ x, E.red x = x.rem md)
    {cR : (A : Type) → [CommRing A] → List A → A} (hc : E.circ.Lawful cR) (val : I → Nat → BitVec K) (d0 : I)
    (l m : Nat) (hmd : m + 1 ≤ 2 ^ d) (vp vn : List I) (hvp : vp.length = l * m) (hvn : vn.length = l * m)
    (hw : ∀ inputs ∈ [vp, vn], ∀ x ∈ inputs, ∀ i < E.circ.wires, E.wire x i = .ok (Poly.lift (val x i)))
    (q : Nat) (hq : q < l * m)
    (hbad : cR (BitVec K) ((List.range E.circ.wires).map fun i => val (vp.getD q d0) i + val (vn.getD q d0) i) ≠ 0)
    {Rt : Type} [Finite Rt] (ρ : Rt → Fin d → BitVec K) (hρ : Function.Injective ρ)
    (pf1 pf2 : (Fin l → Fin d → BitVec K) → ZkPf (Poly (BitVec K))) :
    2 ^ d * Nat.card {x : (Fin l → Fin d → BitVec K) × (Fin m → Fin d → BitVec K) × Rt //
      ∃ Ls v1 v2, Poly.lagrangePolys (mulPoints K (m + 1)) md = .ok Ls ∧
        E.verifyPi l m vp (List.ofFn fun k => ⟨List.ofFn (x.2.1 k)⟩) ⟨List.ofFn (ρ x.2.2)⟩ Ls (mulPoints K (m + 1))
          (pf1 x.1) = .ok v1 ∧
        E.verifyPi l m vn (List.ofFn fun k => ⟨List.ofFn (x.2.1 k)⟩) ⟨List.ofFn (ρ x.2.2)⟩ Ls (mulPoints K (m + 1))
          (pf2 x.1) = .ok v2 ∧
        E.combine l (List.ofFn fun j => ⟨List.ofFn (x.1 j)⟩) v1 v2 = .ok ()} ≤
      Nat.card (Fin d → BitVec K) ^ (l + m) * (Nat.card Rt + 2 * m * Nat.card (Fin d → BitVec K)) := by
  obtain ⟨Ls, eL, hL, hLag⟩ := Poly.lagrangePolys_spec hK h64 md hd hm hirr _ (Poly.mulPoints_ok hK d (m + 1) hmd)
  have hpl : (mulPoints K (m + 1)).length = m + 1 := by simp [mulPoints]
  rw [hpl] at hL
  have : Fact (Irreducible (md.sem.map (bvMod2 hK))) := ⟨hirr⟩
  obtain ⟨hcard, hfin⟩ := natCard_resField hK hm
  have hmod := resMap_modTwo hK hm
  have hm0 : 0 < m := by
    rcases Nat.eq_zero_or_pos m with rfl | h
    · simp at hq
    · exact h
  have g2 := lift_gates E val d0 vp (hw vp (by simp))
  have g3 := lift_gates E val d0 vn (hw vn (by simp))
  rw [hvp] at g2
  rw [hvn] at g3
  have hxs : ((mulPoints K (m + 1)).map fun x => AdjoinRoot.mk md.sem x.sem).length = m + 1 := by
    simp [hpl]
  set ψ : (BitVec K)[X] →+* Poly.QR md.sem := AdjoinRoot.mk md.sem with hψ
  set j0 := q / m with hj0
  set k0 := q % m with hk0
  have hj : j0 < l := Nat.div_lt_of_lt_mul (by rwa [Nat.mul_comm])
  have hk : k0 < m := Nat.mod_lt _ hm0
  have hqe : j0 * m + k0 = q := by rw [Nat.mul_comm]; exact Nat.div_add_mod q m
  -- the value of a gate
  set gv : Nat → Poly.QR md.sem := fun q => cR (Poly.QR md.sem) ((List.range E.circ.wires).map fun i =>
    ψ (sem (liftV val d0 vp q i)) + ψ (sem (liftV val d0 vn q i))) with hgv
  have hvq : gv q ≠ 0 := by
    have e : gv q = constA md (cR (BitVec K) ((List.range E.circ.wires).map fun i =>
        val (vp.getD q d0) i + val (vn.getD q d0) i)) := by
      rw [hgv, ← hc.map (constA md) _ (by simp), List.map_map]
      simp only
      congr 1
      apply List.map_congr_left
      intro i _
      rw [hψ, sem_liftV, sem_liftV, Function.comp_apply, map_add]
    rw [e]
    exact fun h => hbad (constA_eq_zero hK hd0 hm _ h)
  obtain ⟨c, hcne, hcsum⟩ := hmod.linear (fun j : Fin l => gv (j.1 * m + k0)) ⟨⟨j0, hj⟩, by
    simp only; rw [hqe]; exact hvq⟩
  rw [← hcard]
  refine count_accept' (chalMap hK md d) (chalMap_surjective hK hd0 hm) ρ hρ (d := 2 * m) (by omega) c hcne
    (fun θ β r => ∃ Ls v1 v2, Poly.lagrangePolys (mulPoints K (m + 1)) md = .ok Ls ∧
        E.verifyPi l m vp (List.ofFn fun k => ⟨List.ofFn (β k)⟩) ⟨List.ofFn (ρ r)⟩ Ls (mulPoints K (m + 1))
          (pf1 θ) = .ok v1 ∧
        E.verifyPi l m vn (List.ofFn fun k => ⟨List.ofFn (β k)⟩) ⟨List.ofFn (ρ r)⟩ Ls (mulPoints K (m + 1))
          (pf2 θ) = .ok v2 ∧
        E.combine l (List.ofFn fun j => ⟨List.ofFn (θ j)⟩) v1 v2 = .ok ()) ?_
  intro θ hθ
  set thetas : List (Poly (BitVec K)) := List.ofFn fun j => ⟨List.ofFn (θ j)⟩ with hthetas
  set Gp : (Poly.QR md.sem)[X] := polyA ψ (pf1 θ).a + polyA ψ (pf2 θ).a with hGp
  set W : (Poly.QR md.sem)[X] := rowSum cR E.circ.wires l (fun j => C (ψ (sem (thetas.getD j PolyT.zero))))
      (wireA ψ Ls l m (fun q => ψ (sem ((pf1 θ).w.getD q PolyT.zero)) + ψ (sem ((pf2 θ).w.getD q PolyT.zero)))
        (fun q i => ψ (sem (liftV val d0 vp q i)) + ψ (sem (liftV val d0 vn q i)))) with hW
  have hθ' : ∑ j : Fin l, gv (j.1 * m + k0) * ψ (Poly.sem ⟨List.ofFn (θ j)⟩) ≠ 0 := by
    intro h0
    exact hθ (hcsum (fun j => ψ (Poly.sem ⟨List.ofFn (θ j)⟩)) h0)
  have hacc : ∀ (β : Fin m → Fin d → BitVec K) (r : Rt), (∃ Ls v1 v2, Poly.lagrangePolys (mulPoints K (m + 1)) md = .ok Ls ∧
        E.verifyPi l m vp (List.ofFn fun k => ⟨List.ofFn (β k)⟩) ⟨List.ofFn (ρ r)⟩ Ls (mulPoints K (m + 1))
          (pf1 θ) = .ok v1 ∧
        E.verifyPi l m vn (List.ofFn fun k => ⟨List.ofFn (β k)⟩) ⟨List.ofFn (ρ r)⟩ Ls (mulPoints K (m + 1))
          (pf2 θ) = .ok v2 ∧
        E.combine l thetas v1 v2 = .ok ()) →
        (∑ k : Fin m, Gp.eval (ψ (sem ((mulPoints K (m + 1))[k.1 + 1]'(by rw [hpl]; omega)))) *
          ψ (Poly.sem ⟨List.ofFn (β k)⟩)) = 0 ∧
        W.eval (ψ (Poly.sem ⟨List.ofFn (ρ r)⟩)) = Gp.eval (ψ (Poly.sem ⟨List.ofFn (ρ r)⟩)) ∧
        (pf1 θ).a.length = 2 * m + 1 ∧ (pf2 θ).a.length = 2 * m + 1 := by
    rintro β r ⟨Ls', v1, v2, eL', e1, e2, ec⟩
    obtain rfl : Ls = Ls' := Except.ok.inj (eL.symm.trans eL')
    have := E.accept_eqs ψ (mul_redOk hK E hm hE) hc l m vp vn thetas Ls (mulPoints K (m + 1)) (by simp [hthetas]) hL hpl
      (liftV val d0 vp) (liftV val d0 vn) g2 g3 (pf1 θ) (pf2 θ) (List.ofFn fun k => ⟨List.ofFn (β k)⟩)
      ⟨List.ofFn (ρ r)⟩ (by simp) v1 v2 e1 e2 ec
    refine ⟨?_, this.2.1, this.2.2⟩
    rw [← this.1]
    apply Finset.sum_congr rfl
    intro k _
    congr 2
    rw [List.getElem_ofFn]
    rfl
  by_cases hz : ∀ k (hk : k < m), Gp.eval (ψ (sem ((mulPoints K (m + 1))[k + 1]'(by rw [hpl]; omega)))) = 0
  · right
    have hWk : W.eval (ψ (sem ((mulPoints K (m + 1))[k0 + 1]'(by rw [hpl]; omega)))) ≠ 0 := by
      rw [hW, rowSum_eval hc]
      have : rowSum cR E.circ.wires l (fun j => ψ (sem (thetas.getD j PolyT.zero)))
          (fun j i => (wireA ψ Ls l m (fun q => ψ (sem ((pf1 θ).w.getD q PolyT.zero)) +
              ψ (sem ((pf2 θ).w.getD q PolyT.zero)))
            (fun q i => ψ (sem (liftV val d0 vp q i)) + ψ (sem (liftV val d0 vn q i))) j i).eval
              (ψ (sem ((mulPoints K (m + 1))[k0 + 1]'(by rw [hpl]; omega))))) =
          ∑ j : Fin l, gv (j.1 * m + k0) * ψ (Poly.sem ⟨List.ofFn (θ j)⟩) := by
        rw [rowSum, ← List.sum_ofFn]
        congr 1
        apply List.ext_getElem
        · simp
        · intro j h1 h2
          simp only [List.length_map, List.length_range] at h1
          simp only [List.getElem_map, List.getElem_range, List.getElem_ofFn]
          have e : thetas.getD j PolyT.zero = ⟨List.ofFn (θ ⟨j, h1⟩)⟩ := by
            rw [hthetas, List.getD_eq_getElem?_getD, List.getElem?_eq_getElem (by simpa using h1), Option.getD_some,
              List.getElem_ofFn]
          rw [e, mul_comm]
          congr 1
          rw [hgv]
          congr 1
          apply List.map_congr_left
          intro i _
          have := wireA_eval ψ Ls l m _ hxs hL hLag
            (fun q => ψ (sem ((pf1 θ).w.getD q PolyT.zero)) + ψ (sem ((pf2 θ).w.getD q PolyT.zero)))
            (fun q i => ψ (sem (liftV val d0 vp q i)) + ψ (sem (liftV val d0 vn q i))) j i k0 hk
          rw [List.getElem_map] at this
          exact this
      rw [this]
      exact hθ'
    by_cases hlen : (pf1 θ).a.length = 2 * m + 1 ∧ (pf2 θ).a.length = 2 * m + 1
    · obtain ⟨p, hp0, hpd, hp⟩ := hmod.poly (W - Gp) (by
          intro h0
          apply hWk
          have := congrArg (fun p => Polynomial.eval (ψ (sem ((mulPoints K (m + 1))[k0 + 1]'(by rw [hpl]; omega)))) p) h0
          simp only [eval_sub, hz k0 hk, sub_zero, eval_zero] at this
          exact this) (2 * m) (by
        refine natDegree_sub_le' ?_ ?_
        · rw [hW]
          exact rowSum_natDegree hc l m _ _ fun j i => wireA_natDegree _ _ _ _ _ hxs hLag _ _ _ _
        · have hdeg : ∀ a : List (Poly (BitVec K)), a.length = 2 * m + 1 → (polyA ψ a).natDegree ≤ 2 * m := by
            intro a ha
            unfold polyA
            refine natDegree_map_le.trans ?_
            have := semL_degree_lt (R := (BitVec K)[X]) a
            rw [ha] at this
            exact Nat.lt_succ_iff.1 (by
              by_cases h0 : (semL a : (BitVec K)[X][X]) = 0
              · rw [h0]; simp
              · rw [natDegree_lt_iff_degree_lt h0]; exact this)
          exact natDegree_add_le' (hdeg _ hlen.1) (hdeg _ hlen.2))
      refine ⟨p, hp0, hpd, fun β r h => ?_⟩
      have := (hacc β r h).2.1
      exact hp _ (by rw [eval_sub, this, sub_self])
    · refine ⟨1, one_ne_zero, by simp, fun β r h => ?_⟩
      exact absurd (hacc β r h).2.2 hlen
  · left
    push Not at hz
    obtain ⟨k, hk, hne⟩ := hz
    obtain ⟨e, hne', he⟩ := hmod.linear
      (fun k : Fin m => Gp.eval (ψ (sem ((mulPoints K (m + 1))[k.1 + 1]'(by rw [hpl]; omega))))) ⟨⟨k, hk⟩, hne⟩
    exact ⟨e, hne', fun β r h => he (fun k => ψ (Poly.sem ⟨List.ofFn (β k)⟩)) (hacc β r h).1⟩

/-! ## The challenges -/

theorem natCard_challenge {d : Nat} : Nat.card (Fin d → BitVec K) = 2 ^ (K * d) := by
  rw [Nat.card_fun, natCard_bitVec, Nat.card_eq_fintype_card, Fintype.card_fin, pow_mul]

theorem natCard_point {d : Nat} (hd : 0 < d) : 2 ^ K * Nat.card (PolyPoint K d) = (2 ^ K - 1) * 2 ^ (K * d) := by
  obtain ⟨n, rfl⟩ : ∃ n, d = n + 1 := ⟨d - 1, by omega⟩
  have hne : Nat.card {x : BitVec K // x ≠ 0} = 2 ^ K - 1 := by
    classical
    have := Fintype.ofFinite (BitVec K)
    rw [Nat.card_eq_fintype_card, Fintype.card_subtype_compl, ← Nat.card_eq_fintype_card, natCard_bitVec]
    simp
  have e : PolyPoint K (n + 1) ≃ {x : BitVec K // x ≠ 0} × (Fin n → BitVec K) :=
    { toFun := fun r => (⟨r.1 0, by
        have := r.2
        rw [List.ofFn_succ] at this
        exact fun h => this (by rw [List.head?_cons, h])⟩, Fin.tail r.1)
      invFun := fun q => ⟨Fin.cons q.1.1 q.2, by
        rw [List.ofFn_succ, List.head?_cons]
        simpa using q.1.2⟩
      left_inv := fun r => by
        apply Subtype.ext
        exact Fin.cons_self_tail r.1
      right_inv := fun q => by simp }
  rw [Nat.card_congr e, Nat.card_prod, hne, natCard_challenge, Nat.mul_succ, pow_add]
  ring

theorem random_shape {G : Prg} (n : Nat) (s : G.S) : ∃ t : Fin (n + 1) → BitVec K, (Poly.random K n s).1 = ⟨List.ofFn t⟩ := by
  have h : (Poly.random K n s).1.coeffs.length = n + 1 := by
    unfold Poly.random
    have : ∀ (l : List Nat) (acc : List (BitVec K) × G.S), (l.foldl (fun (acc : List (BitVec K) × G.S) _ =>
        let x := G.gen K acc.2
        (acc.1 ++ [x.1], x.2)) acc).1.length = acc.1.length + l.length := by
      intro l
      induction l with
      | nil => intro acc; rfl
      | cons a l ih => intro acc; rw [List.foldl_cons, ih]; simp; omega
    rw [this]; simp
  generalize (Poly.random K n s).1 = p at h
  refine ⟨fun i => p.coeffs[i.1], ?_⟩
  apply Poly.ext
  apply List.ext_getElem
  · simp [h]
  · intro i h1 h2; rw [List.getElem_ofFn]

theorem redraw_good {S T : Type} (draw : S → T × S) (bad : T → Bool) (P : T → Prop) (hP : ∀ s, P (draw s).1) :
    ∀ x s y s', P x → redraw draw bad x s = some (y, s') → P y ∧ bad y = false := by
  have := redraw.partial_correctness draw bad
    (fun x s o => ∀ y s', o = (y, s') → P x → P y ∧ bad y = false) (by
    intro f hf x s o h
    split at h
    · intro y s' ho hx
      exact hf _ _ _ h y s' ho (hP _)
    · intro y s' ho hx
      cases h
      cases ho
      rename_i hb
      exact ⟨hx, by simpa using hb⟩)
  intro x s y s' hx h
  exact this x s (y, s') h y s' rfl hx

theorem randoms_shape {G : Prg} {I : Type} (E : ZkEnv G (Poly (BitVec K)) I) (P : Poly (BitVec K) → Prop)
    (hP : ∀ s, P (E.rnd s).1) (n : Nat) (s : G.S) : ∀ x ∈ (E.randoms n s).1, P x := by
  induction n generalizing s with
  | zero => intro x hx; cases hx
  | succ n ih =>
    intro x hx
    simp only [ZkEnv.randoms, List.mem_cons] at hx
    rcases hx with rfl | hx
    · exact hP s
    · exact ih _ x hx

theorem list_shape {d n : Nat} (l : List (Poly (BitVec K))) (hl : l.length = n)
    (h : ∀ x ∈ l, ∃ t : Fin d → BitVec K, x = ⟨List.ofFn t⟩) :
    ∃ θ : Fin n → PolyChallenge K d, l = List.ofFn fun j => (θ j).poly := by
  choose f hf using fun j : Fin n => h (l[j.1]'(by omega)) (List.getElem_mem _)
  refine ⟨f, ?_⟩
  apply List.ext_getElem
  · simp [hl]
  · intro i h1 h2
    rw [List.getElem_ofFn]
    exact hf ⟨i, by omega⟩

theorem challenges_shape {G : Prg} {I : Type} (hK : 0 < K) {md : Poly (BitVec K)} {d : Nat} (hm : Poly.MonicRep d md)
    (hd : 0 < d) (E : ZkEnv G (Poly (BitVec K)) I) (hE : ∀ s, E.rnd s = Poly.random K (md.degree - 1) s) (l m : Nat) (pp : G.S) (rng : Party → G.S)
    (ch : Challenges (Poly (BitVec K))) (h : zkChallenges E mulBad l m pp rng = some ch) (i : Party) :
    ∃ (θ : Fin l → PolyChallenge K d) (β : Fin m → PolyChallenge K d) (r : PolyPoint K d),
      ch.thetas i = List.ofFn (fun j => (θ j).poly) ∧ ch.betas i = List.ofFn (fun k => (β k).poly) ∧
        ch.r i = PolyChallenge.poly r.1 := by
  have hdeg : md.degree = d := by
    have := Poly.nontrivial_bitVec hK
    rw [Poly.degree_eq (R := BitVec K), (hm.monic hK).2]
  have hP : ∀ s, ∃ t : Fin d → BitVec K, (E.rnd s).1 = ⟨List.ofFn t⟩ := by
    intro s
    rw [hE, hdeg]
    have := random_shape (K := K) (G := G) (d - 1) s
    rwa [show d - 1 + 1 = d by omega] at this
  unfold zkChallenges at h
  rw [Option.map_eq_some_iff] at h
  obtain ⟨r, hr, rfl⟩ := h
  have hr3 : ∀ i, (∃ t : Fin d → BitVec K, r i = ⟨List.ofFn t⟩) ∧ mulBad (r i) = false := by
    unfold redraw3 at hr
    simp only [Option.bind_eq_bind, Option.bind_eq_some_iff, Option.pure_def, Option.some.injEq] at hr
    obtain ⟨⟨a0, b0⟩, h0, ⟨a1, b1⟩, h1, ⟨a2, b2⟩, h2, rfl⟩ := hr
    intro i
    match i with
    | 0 => exact redraw_good _ _ (fun x => ∃ t : Fin d → BitVec K, x = ⟨List.ofFn t⟩) hP _ _ _ _ (hP _) h0
    | 1 => exact redraw_good _ _ (fun x => ∃ t : Fin d → BitVec K, x = ⟨List.ofFn t⟩) hP _ _ _ _ (hP _) h1
    | 2 => exact redraw_good _ _ (fun x => ∃ t : Fin d → BitVec K, x = ⟨List.ofFn t⟩) hP _ _ _ _ (hP _) h2
  have h3 : ∀ (n : Nat) (s : G.S) (i : Party), ∃ θ : Fin n → PolyChallenge K d,
      (E.rands3 n s).1 i = List.ofFn fun j => (θ j).poly := by
    intro n s i
    match i with
    | 0 => exact list_shape _ (ZkEnv.randoms_length E n _) (randoms_shape E _ hP n _)
    | 1 => exact list_shape _ (ZkEnv.randoms_length E n _) (randoms_shape E _ hP n _)
    | 2 => exact list_shape _ (ZkEnv.randoms_length E n _) (randoms_shape E _ hP n _)
  obtain ⟨θ, hθ⟩ := h3 l (G.ofSeed (G.genSeed pp).1) i
  obtain ⟨β, hβ⟩ := h3 m (G.ofSeed (xor3
    (G.genSeed (G.genSeed (E.randoms (E.circ.wires * l) (rng 0)).2).2).1
    (G.genSeed (G.genSeed (E.randoms (E.circ.wires * l) (rng 1)).2).2).1
    (G.genSeed (G.genSeed (E.randoms (E.circ.wires * l) (rng 2)).2).2).1)) i
  obtain ⟨⟨t, ht⟩, hb⟩ := hr3 i
  refine ⟨θ, β, ⟨t, ?_⟩, hθ, hβ, ht⟩
  rw [ht] at hb
  intro h0
  unfold mulBad at hb
  rw [h0] at hb
  simp at hb

end Verif
