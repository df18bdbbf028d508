import Verif.Proof.ZkMulSound
import Verif.Proof.ZkAnd
import Verif.Spec.DzkpTwo

/-! # Soundness of the proofs when the two verifiers use different challenges -/

namespace Verif

open Polynomial

/-! ## Counting -/

section

variable {T F : Type} [Finite T] [Field F] (s : T → F)

/-- The number of accepted challenges `(θ, β, r, β', r')` when, for all but the `θ` in a hyperplane, acceptance forces
`(β, β')` into a hyperplane, or, for all but the `r'` among the roots of a non-zero polynomial, `r` among the roots of a
non-zero polynomial. -/
theorem count_accept_two {Rt : Type} [Finite Rt] (ρ : Rt → T) {N l m d : Nat}
    (hlin : ∀ (n : Nat) (c : Fin n → F) (k : Fin n), c k ≠ 0 →
      N * Nat.card {β : Fin n → T // ∑ k, c k * s (β k) = 0} ≤ Nat.card T ^ n)
    (hroot : ∀ p : F[X], p ≠ 0 → p.natDegree ≤ d → N * Nat.card {r : Rt // p.eval (s (ρ r)) = 0} ≤ d * Nat.card T)
    (hM : Nat.card Rt ≤ d * Nat.card T) (c : Fin l → F) (hj : ∃ j, c j ≠ 0)
    (acc : (Fin l → T) → ((Fin m → T) × Rt) → ((Fin m → T) × Rt) → Prop)
    (h : ∀ θ : Fin l → T, ∑ j, c j * s (θ j) ≠ 0 →
      (∃ e : Fin (m + m) → F, (∃ k, e k ≠ 0) ∧ ∀ x x', acc θ x x' → ∑ k, e k * s (Fin.append x.1 x'.1 k) = 0) ∨
      (∃ p' : F[X], p' ≠ 0 ∧ p'.natDegree ≤ d ∧ ∀ r', p'.eval (s (ρ r')) ≠ 0 →
        ∃ p : F[X], p ≠ 0 ∧ p.natDegree ≤ d ∧ ∀ x x', x'.2 = r' → acc θ x x' → p.eval (s (ρ x.2)) = 0)) :
    N * Nat.card {x : (Fin l → T) × ((Fin m → T) × Rt) × ((Fin m → T) × Rt) // acc x.1 x.2.1 x.2.2} ≤
      Nat.card T ^ (l + 2 * m) * Nat.card Rt * (Nat.card Rt + 2 * d * Nat.card T) := by
  classical
  obtain ⟨j0, hj⟩ := hj
  set M := Nat.card Rt with hMd
  set t := Nat.card T with ht
  have hβ : ∀ n : Nat, Nat.card (Fin n → T) = t ^ n := fun n => by simp [Nat.card_fun, ht]
  have := Fintype.ofFinite (Fin l → T)
  have := Fintype.ofFinite Rt
  have hsplit : Nat.card {x : (Fin l → T) × ((Fin m → T) × Rt) × ((Fin m → T) × Rt) // acc x.1 x.2.1 x.2.2} =
      ∑ θ : Fin l → T, Nat.card {y : ((Fin m → T) × Rt) × ((Fin m → T) × Rt) // acc θ y.1 y.2} := by
    rw [← Nat.card_sigma]
    refine Nat.card_congr ⟨fun x => ⟨x.1.1, x.1.2, x.2⟩, fun y => ⟨(y.1, y.2.1), y.2.2⟩, fun _ => rfl, fun _ => rfl⟩
  have hone : ∀ θ : Fin l → T, N * Nat.card {y : ((Fin m → T) × Rt) × ((Fin m → T) × Rt) // acc θ y.1 y.2} ≤
      (if ∑ j, c j * s (θ j) = 0 then N * (t ^ (2 * m) * M * M) else 0) + t ^ (2 * m) * M * (2 * d * t) := by
    intro θ
    by_cases h0 : ∑ j, c j * s (θ j) = 0
    · rw [if_pos h0]
      refine le_trans ?_ (Nat.le_add_right _ _)
      refine Nat.mul_le_mul_left _ ?_
      have := Nat.card_le_card_of_injective
        (Subtype.val : {y : ((Fin m → T) × Rt) × ((Fin m → T) × Rt) // acc θ y.1 y.2} → _) Subtype.val_injective
      rw [Nat.card_prod, Nat.card_prod, hβ] at this
      calc _ ≤ _ := this
        _ = _ := by rw [two_mul, pow_add]; ring
    · rw [if_neg h0, Nat.zero_add]
      rcases h θ h0 with ⟨e, ⟨k, hk⟩, he⟩ | ⟨p', hp', hpd', hpe⟩
      · have h1 : Nat.card {y : ((Fin m → T) × Rt) × ((Fin m → T) × Rt) // acc θ y.1 y.2} ≤
            Nat.card ({γ : Fin (m + m) → T // ∑ k, e k * s (γ k) = 0} × Rt × Rt) := by
          refine Nat.card_le_card_of_injective
            (fun y => (⟨Fin.append y.1.1.1 y.1.2.1, he _ _ y.2⟩, y.1.1.2, y.1.2.2)) ?_
          intro ⟨⟨⟨b, r⟩, b', r'⟩, hy⟩ ⟨⟨⟨b1, r1⟩, b1', r1'⟩, hy'⟩ hh
          have hh := Prod.mk.inj hh
          have ha := congrArg Subtype.val hh.1
          have hr := Prod.mk.inj hh.2
          dsimp only at ha hr
          obtain ⟨rfl, rfl⟩ := hr
          have hb : b = b1 := by
            funext k
            have := congrFun ha (Fin.castAdd m k)
            rwa [Fin.append_left, Fin.append_left] at this
          have hb' : b' = b1' := by
            funext k
            have := congrFun ha (Fin.natAdd m k)
            rwa [Fin.append_right, Fin.append_right] at this
          subst hb hb'
          rfl
        rw [Nat.card_prod, Nat.card_prod] at h1
        have h2 := hlin _ e k hk
        calc N * Nat.card {y : ((Fin m → T) × Rt) × ((Fin m → T) × Rt) // acc θ y.1 y.2}
            ≤ N * (Nat.card {γ : Fin (m + m) → T // ∑ k, e k * s (γ k) = 0} * (M * M)) := Nat.mul_le_mul_left _ h1
          _ = (N * Nat.card {γ : Fin (m + m) → T // ∑ k, e k * s (γ k) = 0}) * (M * M) := by ring
          _ ≤ t ^ (m + m) * (M * (2 * d * t)) := Nat.mul_le_mul h2 (Nat.mul_le_mul_left _ (by nlinarith))
          _ = _ := by rw [two_mul m]; ring
      · -- the points
        choose! p hp hpd hpz using hpe
        let bad : Rt → Rt → Prop := fun r r' => p'.eval (s (ρ r')) = 0 ∨ (p r').eval (s (ρ r)) = 0
        have h1 : Nat.card {y : ((Fin m → T) × Rt) × ((Fin m → T) × Rt) // acc θ y.1 y.2} ≤
            Nat.card ((Fin m → T) × (Fin m → T) × {r : Rt × Rt // p'.eval (s (ρ r.2)) = 0 ∨
              p'.eval (s (ρ r.2)) ≠ 0 ∧ (p r.2).eval (s (ρ r.1)) = 0}) := by
          refine Nat.card_le_card_of_injective
            (fun y => (y.1.1.1, y.1.2.1, ⟨(y.1.1.2, y.1.2.2), ?_⟩)) ?_
          · by_cases hz : p'.eval (s (ρ y.1.2.2)) = 0
            · exact .inl hz
            · exact .inr ⟨hz, hpz _ hz _ _ rfl y.2⟩
          · intro ⟨⟨⟨b, r⟩, b', r'⟩, hy⟩ ⟨⟨⟨b1, r1⟩, b1', r1'⟩, hy'⟩ hh
            simp only [Prod.mk.injEq, Subtype.mk.injEq] at hh
            obtain ⟨rfl, rfl, rfl, rfl⟩ := hh
            rfl
        rw [Nat.card_prod, Nat.card_prod, hβ] at h1
        have h2 : N * Nat.card {r : Rt × Rt // p'.eval (s (ρ r.2)) = 0 ∨
              p'.eval (s (ρ r.2)) ≠ 0 ∧ (p r.2).eval (s (ρ r.1)) = 0} ≤ M * (2 * d * t) := by
          have e1 : Nat.card {r : Rt × Rt // p'.eval (s (ρ r.2)) = 0 ∨
              p'.eval (s (ρ r.2)) ≠ 0 ∧ (p r.2).eval (s (ρ r.1)) = 0} =
              ∑ r' : Rt, Nat.card {r : Rt // p'.eval (s (ρ r')) = 0 ∨
                p'.eval (s (ρ r')) ≠ 0 ∧ (p r').eval (s (ρ r)) = 0} := by
            rw [← Nat.card_sigma]
            exact Nat.card_congr ⟨fun x => ⟨x.1.2, x.1.1, x.2⟩, fun y => ⟨(y.2.1, y.1), y.2.2⟩, fun _ => rfl, fun _ => rfl⟩
          rw [e1, Finset.mul_sum]
          have e2 : ∀ r' : Rt, N * Nat.card {r : Rt // p'.eval (s (ρ r')) = 0 ∨
                p'.eval (s (ρ r')) ≠ 0 ∧ (p r').eval (s (ρ r)) = 0} ≤
              (if p'.eval (s (ρ r')) = 0 then N * M else 0) + d * t := by
            intro r'
            by_cases hz : p'.eval (s (ρ r')) = 0
            · rw [if_pos hz]
              refine le_trans (Nat.mul_le_mul_left _ ?_) (Nat.le_add_right _ _)
              exact Nat.card_le_card_of_injective Subtype.val Subtype.val_injective
            · rw [if_neg hz, Nat.zero_add]
              refine le_trans (Nat.mul_le_mul_left _ ?_) (hroot (p r') (hp _ hz) (hpd _ hz))
              refine Nat.card_le_card_of_injective (fun r => ⟨r.1, (r.2.resolve_left hz).2⟩) ?_
              intro a b hab
              have := congrArg Subtype.val hab
              exact Subtype.ext this
          refine (Finset.sum_le_sum fun r' _ => e2 r').trans ?_
          rw [Finset.sum_add_distrib, Finset.sum_const, Finset.card_univ, ← Nat.card_eq_fintype_card, smul_eq_mul,
            ← Finset.sum_filter, Finset.sum_const, smul_eq_mul]
          have e3 : N * (Finset.univ.filter fun r' : Rt => p'.eval (s (ρ r')) = 0).card ≤ d * t := by
            have := hroot p' hp' hpd'
            rwa [Nat.card_eq_fintype_card (α := {r : Rt // _}), Fintype.card_subtype] at this
          calc _ = (N * (Finset.univ.filter fun r' : Rt => p'.eval (s (ρ r')) = 0).card) * M + M * (d * t) := by ring
            _ ≤ (d * t) * M + M * (d * t) := Nat.add_le_add_right (Nat.mul_le_mul_right _ e3) _
            _ = _ := by ring
        calc N * Nat.card {y : ((Fin m → T) × Rt) × ((Fin m → T) × Rt) // acc θ y.1 y.2}
            ≤ N * (t ^ m * (t ^ m * _)) := Nat.mul_le_mul_left _ h1
          _ = t ^ m * t ^ m * (N * _) := by ring
          _ ≤ t ^ m * t ^ m * (M * (2 * d * t)) := Nat.mul_le_mul_left _ h2
          _ = _ := by rw [two_mul m, pow_add]; ring
  rw [hsplit, Finset.mul_sum]
  refine (Finset.sum_le_sum fun θ _ => hone θ).trans ?_
  rw [Finset.sum_add_distrib, Finset.sum_const, Finset.card_univ, ← Nat.card_eq_fintype_card, hβ, smul_eq_mul,
    ← Finset.sum_filter, Finset.sum_const, smul_eq_mul]
  have hbad : N * (Finset.univ.filter fun θ : Fin l → T => ∑ j, c j * s (θ j) = 0).card ≤ t ^ l := by
    have := hlin l c j0 hj
    rwa [Nat.card_eq_fintype_card (α := {β : Fin l → T // _}), Fintype.card_subtype] at this
  calc _ = (N * (Finset.univ.filter fun θ : Fin l → T => ∑ j, c j * s (θ j) = 0).card) * (t ^ (2 * m) * M * M) +
        t ^ l * (t ^ (2 * m) * M * (2 * d * t)) := by ring
    _ ≤ t ^ l * (t ^ (2 * m) * M * M) + t ^ l * (t ^ (2 * m) * M * (2 * d * t)) :=
        Nat.add_le_add_right (Nat.mul_le_mul_right _ hbad) _
    _ = t ^ (l + 2 * m) * M * (M + 2 * d * t) := by rw [pow_add]; ring

end

namespace ZkEnv

variable {G : Prg} {T I R A : Type} [PolyT T] [CommRing R] [LawfulPolyT T R] [CommRing A]

/-- What the two verifiers' equations say when they accept, for arbitrary gates and an arbitrary proof, with different
challenges. -/
theorem accept_eqs_two [DecidableEq T] (E : ZkEnv G T I) (ψ : R →+* A) {Red : T → Prop} (hr : E.RedOk ψ Red)
    {cR : (A : Type) → [CommRing A] → List A → A} (hc : E.circ.Lawful cR) (l m : Nat)
    (inputsP inputsN : List I) (thetas : List T) (Ls : List (Poly T)) (coords : List T)
    (hth : thetas.length = l) (hL : Ls.length = m + 1) (hco : coords.length = m + 1)
    (Vp Vn : Nat → Nat → T) (hVp : E.Gates (l * m) inputsP Vp) (hVn : E.Gates (l * m) inputsN Vn) (pf1 pf2 : ZkPf T)
    (betas betas' : List T) (r r' : T) (hb : betas.length = m) (hb' : betas'.length = m) (v1 v2 : ZkShared T)
    (h1 : E.verifyPi l m inputsP betas r Ls coords pf1 = .ok v1)
    (h2 : E.verifyPi l m inputsN betas' r' Ls coords pf2 = .ok v2) (hok : E.combine l thetas v1 v2 = .ok ()) :
    (∑ k : Fin m, (polyA ψ pf1.a).eval (ψ (sem (coords[k.1 + 1]'(by omega)))) * ψ (sem (betas[k.1]'(by omega)))) +
      (∑ k : Fin m, (polyA ψ pf2.a).eval (ψ (sem (coords[k.1 + 1]'(by omega)))) * ψ (sem (betas'[k.1]'(by omega)))) = 0 ∧
    rowSum cR E.circ.wires l (fun j => ψ (sem (thetas.getD j PolyT.zero)))
      (fun j i => (wireA ψ Ls l m (fun q => ψ (sem (pf1.w.getD q PolyT.zero))) (fun q i => ψ (sem (Vp q i))) j i).eval (ψ (sem r)) +
        (wireA ψ Ls l m (fun q => ψ (sem (pf2.w.getD q PolyT.zero))) (fun q i => ψ (sem (Vn q i))) j i).eval (ψ (sem r'))) =
      (polyA ψ pf1.a).eval (ψ (sem r)) + (polyA ψ pf2.a).eval (ψ (sem r')) ∧
    pf1.a.length = 2 * m + 1 ∧ pf2.a.length = 2 * m + 1 := by
  have hlen : ∀ (inp : List I) (bs : List T) (r : T) (pf : ZkPf T) (v : ZkShared T),
      E.verifyPi l m inp bs r Ls coords pf = .ok v → pf.w.length = E.circ.wires * l ∧ pf.a.length = 2 * m + 1 := by
    intro inp bs r pf v h
    unfold verifyPi at h
    by_cases hcnd : m = bs.length ∧ m + 1 = Ls.length ∧ m * l = inp.length ∧ m + 1 = coords.length
    · rw [if_pos hcnd] at h
      by_cases hc2 : pf.w.length ≠ E.circ.wires * l ∨ pf.a.length ≠ 2 * m + 1
      · rw [if_pos hc2] at h; cases h
      · push Not at hc2; exact hc2
    · rw [if_neg hcnd] at h; cases h
  obtain ⟨vp, F1, e1, f1, hF1, hpr1, hb1, r1, s1⟩ := E.verifyPi_sem ψ hr l m inputsP betas r Ls coords pf1 hb hL hco
    (hlen _ _ _ _ _ h1).1 (hlen _ _ _ _ _ h1).2 Vp hVp
  obtain ⟨vn, F2, e2, f2, hF2, hpr2, hb2, r2, s2⟩ := E.verifyPi_sem ψ hr l m inputsN betas' r' Ls coords pf2 hb' hL hco
    (hlen _ _ _ _ _ h2).1 (hlen _ _ _ _ _ h2).2 Vn hVn
  obtain rfl : vp = v1 := by rw [e1] at h1; exact Except.ok.inj h1
  obtain rfl : vn = v2 := by rw [e2] at h2; exact Except.ok.inj h2
  obtain ⟨g, hg, ec⟩ := E.combine_sem ψ hc l thetas hth vp vn F1 F2 f1 f2
  obtain ⟨y, ey, hy, ry⟩ := hr.red g
  rw [ec] at hok
  by_cases hbz : PolyT.isZero (PolyT.add vp.b vn.b) = false
  · rw [if_pos hbz] at hok; cases hok
  rw [if_neg hbz, ey] at hok
  have hyeq : y = PolyT.add vp.pr vn.pr := by
    by_contra hne
    have : (if y ≠ PolyT.add vp.pr vn.pr then (.error .dzkpVerify : Except Err Unit) else pure ()) = .ok () := hok
    rw [if_pos hne] at this; cases this
  refine ⟨?_, ?_, (hlen _ _ _ _ _ h1).2, (hlen _ _ _ _ _ h2).2⟩
  · have : PolyT.isZero (PolyT.add vp.b vn.b) = true := by simpa using hbz
    rw [hr.zero _ _ s1 s2, hb1, hb2, zip_drop_sum betas coords m hb hco, zip_drop_sum betas' coords m hb' hco] at this
    rw [← this]
  · rw [← hpr1, ← hpr2]
    have e3 : ψ (sem vp.pr) + ψ (sem vn.pr) = ψ (sem g) := by rw [← hy, hyeq, sem_add, map_add]
    rw [e3, hg]
    apply rowSum_congr
    intro j hj i hi
    rw [hF1 j hj i hi, hF2 j hj i hi]

theorem polyA_natDegree (ψ : R →+* A) (a : List T) (n : Nat) (ha : a.length = n + 1) : (polyA ψ a).natDegree ≤ n := by
  unfold polyA
  refine natDegree_map_le.trans ?_
  have := semL_degree_lt (R := R) a
  rw [ha] at this
  exact Nat.lt_succ_iff.1 (by
    by_cases h0 : (semL a : R[X]) = 0
    · rw [h0]; simp
    · rw [natDegree_lt_iff_degree_lt h0]; exact this)

/-- Soundness count for one prover, generically in the circuit, when the two verifiers use different challenges. -/
theorem sound_two [DecidableEq T] (E : ZkEnv G T I) (ψ : R →+* A) {Red : T → Prop} (hr : E.RedOk ψ Red)
    {cR : (A : Type) → [CommRing A] → List A → A} (hc : E.circ.Lawful cR) (l m : Nat)
    (vp vn : List I) (Ls : List (Poly T)) (coords : List T) (hL : Ls.length = m + 1) (hco : coords.length = m + 1)
    (hLag : ∀ j (hj : j < Ls.length), IsLagrange (coords.map fun x => ψ (sem x)) j ((Ls[j].sem : R[X]).map ψ))
    (Vp Vn : Nat → Nat → T) (hVp : E.Gates (l * m) vp Vp) (hVn : E.Gates (l * m) vn Vn)
    {F : Type} [Field F] {π : A →+* F} {K : Nat} (hmod : ModTwo K π) {Ch : Type} [Finite Ch] (ch : Ch → T)
    {Rt : Type} [Finite Rt] (ρ : Rt → Ch) {N : Nat}
    (hlin : ∀ (n : Nat) (c : Fin n → F) (k : Fin n), c k ≠ 0 →
      N * Nat.card {β : Fin n → Ch // ∑ k, c k * π (ψ (sem (ch (β k)))) = 0} ≤ Nat.card Ch ^ n)
    (hroot : ∀ p : F[X], p ≠ 0 → p.natDegree ≤ 2 * m →
      N * Nat.card {r : Rt // p.eval (π (ψ (sem (ch (ρ r))))) = 0} ≤ 2 * m * Nat.card Ch)
    (hM : Nat.card Rt ≤ 2 * m * Nat.card Ch) (q : Nat) (hq : q < l * m)
    (hbad : cR A ((List.range E.circ.wires).map fun i => ψ (sem (Vp q i)) + ψ (sem (Vn q i))) ≠ 0)
    (pf1 pf2 : (Fin l → Ch) → ZkPf T) :
    N * Nat.card {x : (Fin l → Ch) × ((Fin m → Ch) × Rt) × ((Fin m → Ch) × Rt) // ∃ v1 v2,
        E.verifyPi l m vp (List.ofFn fun k => ch (x.2.1.1 k)) (ch (ρ x.2.1.2)) Ls coords (pf1 x.1) = .ok v1 ∧
        E.verifyPi l m vn (List.ofFn fun k => ch (x.2.2.1 k)) (ch (ρ x.2.2.2)) Ls coords (pf2 x.1) = .ok v2 ∧
        E.combine l (List.ofFn fun j => ch (x.1 j)) v1 v2 = .ok ()} ≤
      Nat.card Ch ^ (l + 2 * m) * Nat.card Rt * (Nat.card Rt + 2 * (2 * m) * Nat.card Ch) := by
  have hm0 : 0 < m := by
    rcases Nat.eq_zero_or_pos m with rfl | h
    · simp at hq
    · exact h
  have hxs : (coords.map fun x => ψ (sem x)).length = m + 1 := by simp [hco]
  set j0 := q / m with hj0
  set k0 := q % m with hk0
  have hj : j0 < l := Nat.div_lt_of_lt_mul (by rwa [Nat.mul_comm])
  have hk : k0 < m := Nat.mod_lt _ hm0
  have hqe : j0 * m + k0 = q := by rw [Nat.mul_comm]; exact Nat.div_add_mod q m
  set gv : Nat → A := fun q => cR A ((List.range E.circ.wires).map fun i => ψ (sem (Vp q i)) + ψ (sem (Vn q i))) with hgv
  obtain ⟨c, hcne, hcsum⟩ := hmod.linear (fun j : Fin l => gv (j.1 * m + k0)) ⟨⟨j0, hj⟩, by
    simp only; rw [hqe]; exact hbad⟩
  refine count_accept_two (fun x => π (ψ (sem (ch x)))) ρ hlin hroot hM c hcne
    (fun θ x x' => ∃ v1 v2,
        E.verifyPi l m vp (List.ofFn fun k => ch (x.1 k)) (ch (ρ x.2)) Ls coords (pf1 θ) = .ok v1 ∧
        E.verifyPi l m vn (List.ofFn fun k => ch (x'.1 k)) (ch (ρ x'.2)) Ls coords (pf2 θ) = .ok v2 ∧
        E.combine l (List.ofFn fun j => ch (θ j)) v1 v2 = .ok ()) ?_
  intro θ hθ
  have hθ' : ∑ j : Fin l, gv (j.1 * m + k0) * ψ (sem (ch (θ j))) ≠ 0 := fun h0 => hθ (hcsum (fun j => ψ (sem (ch (θ j)))) h0)
  set th : Nat → A := fun j => ψ (sem ((List.ofFn fun j => ch (θ j)).getD j PolyT.zero)) with hth
  set P1 : A[X] := polyA ψ (pf1 θ).a with hP1
  set P2 : A[X] := polyA ψ (pf2 θ).a with hP2
  set W1 : Nat → Nat → A[X] := wireA ψ Ls l m (fun q => ψ (sem ((pf1 θ).w.getD q PolyT.zero))) (fun q i => ψ (sem (Vp q i))) with hW1
  set W2 : Nat → Nat → A[X] := wireA ψ Ls l m (fun q => ψ (sem ((pf2 θ).w.getD q PolyT.zero))) (fun q i => ψ (sem (Vn q i))) with hW2
  set pt : Nat → A := fun k => ψ (sem (coords.getD (k + 1) PolyT.zero)) with hpt
  have hpt' : ∀ k (hk : k < m), ψ (sem (coords[k + 1]'(by omega))) = pt k := by
    intro k hk
    simp only [hpt]
    rw [List.getD_eq_getElem?_getD, List.getElem?_eq_getElem (by omega), Option.getD_some]
  have hacc : ∀ (x x' : (Fin m → Ch) × Rt), (∃ v1 v2,
        E.verifyPi l m vp (List.ofFn fun k => ch (x.1 k)) (ch (ρ x.2)) Ls coords (pf1 θ) = .ok v1 ∧
        E.verifyPi l m vn (List.ofFn fun k => ch (x'.1 k)) (ch (ρ x'.2)) Ls coords (pf2 θ) = .ok v2 ∧
        E.combine l (List.ofFn fun j => ch (θ j)) v1 v2 = .ok ()) →
      ((∑ k : Fin m, P1.eval (pt k) * ψ (sem (ch (x.1 k)))) + ∑ k : Fin m, P2.eval (pt k) * ψ (sem (ch (x'.1 k)))) = 0 ∧
      rowSum cR E.circ.wires l th (fun j i => (W1 j i).eval (ψ (sem (ch (ρ x.2)))) + (W2 j i).eval (ψ (sem (ch (ρ x'.2))))) =
        P1.eval (ψ (sem (ch (ρ x.2)))) + P2.eval (ψ (sem (ch (ρ x'.2)))) ∧
      (pf1 θ).a.length = 2 * m + 1 ∧ (pf2 θ).a.length = 2 * m + 1 := by
    rintro x x' ⟨v1, v2, e1, e2, ec⟩
    have := E.accept_eqs_two ψ hr hc l m vp vn (List.ofFn fun j => ch (θ j)) Ls coords (by simp) hL hco Vp Vn hVp hVn (pf1 θ) (pf2 θ)
      _ _ _ _ (by simp) (by simp) v1 v2 e1 e2 ec
    refine ⟨?_, this.2⟩
    rw [← this.1]
    congr 1 <;>
    · apply Finset.sum_congr rfl
      intro k _
      rw [hpt' k.1 k.2, List.getElem_ofFn]
  by_cases hz : ∀ k < m, P1.eval (pt k) = 0 ∧ P2.eval (pt k) = 0
  · right
    by_cases hlen : (pf1 θ).a.length = 2 * m + 1 ∧ (pf2 θ).a.length = 2 * m + 1
    swap
    · refine ⟨1, one_ne_zero, by simp, fun r' _ => ⟨1, one_ne_zero, by simp, fun x x' _ h => ?_⟩⟩
      exact absurd (hacc x x' h).2.2 hlen
    -- at the point of the wrong gate the check fails
    have hval : rowSum cR E.circ.wires l th (fun j i => (W1 j i).eval (pt k0) + (W2 j i).eval (pt k0)) ≠ 0 := by
      have : rowSum cR E.circ.wires l th (fun j i => (W1 j i).eval (pt k0) + (W2 j i).eval (pt k0)) =
          ∑ j : Fin l, gv (j.1 * m + k0) * ψ (sem (ch (θ j))) := by
        rw [rowSum, ← List.sum_ofFn]
        congr 1
        apply List.ext_getElem
        · simp
        · intro j h1 h2
          simp only [List.length_map, List.length_range] at h1
          simp only [List.getElem_map, List.getElem_range, List.getElem_ofFn]
          have e : th j = ψ (sem (ch (θ ⟨j, h1⟩))) := by
            simp only [hth]
            rw [List.getD_eq_getElem?_getD, List.getElem?_eq_getElem (by simpa using h1), Option.getD_some,
              List.getElem_ofFn]
          rw [e, mul_comm]
          congr 1
          rw [hgv]
          congr 1
          apply List.map_congr_left
          intro i _
          have w1 := wireA_eval ψ Ls l m _ hxs hL hLag (fun q => ψ (sem ((pf1 θ).w.getD q PolyT.zero)))
            (fun q i => ψ (sem (Vp q i))) j i k0 hk
          have w2 := wireA_eval ψ Ls l m _ hxs hL hLag (fun q => ψ (sem ((pf2 θ).w.getD q PolyT.zero)))
            (fun q i => ψ (sem (Vn q i))) j i k0 hk
          rw [List.getElem_map, hpt' k0 hk] at w1 w2
          rw [hW1, hW2, w1, w2]
      rw [this]
      exact hθ'
    have hdC : ∀ (p : A[X]) (x : A), p.natDegree ≤ m → (p + C x).natDegree ≤ m := fun p x h =>
      natDegree_add_le' h (by simp)
    -- as a polynomial in the point of the second verifier, the first one being at the wrong gate
    obtain ⟨p', hp0, hpd, hp'⟩ := hmod.poly
      (rowSum cR E.circ.wires l (fun j => C (th j)) (fun j i => W2 j i + C ((W1 j i).eval (pt k0))) -
        (P2 + C (P1.eval (pt k0)))) (by
        intro h0
        apply hval
        have := congrArg (fun p => Polynomial.eval (pt k0) p) h0
        simp only [eval_sub, eval_add, eval_C, (hz k0 hk).1, (hz k0 hk).2, add_zero, sub_zero, eval_zero] at this
        rw [rowSum_eval hc] at this
        rw [← this]
        apply rowSum_congr
        intro j _ i _
        rw [eval_add, eval_C, add_comm]) (2 * m) (by
      refine natDegree_sub_le' ?_ (natDegree_add_le' (polyA_natDegree ψ _ _ hlen.2) (by simp))
      exact rowSum_natDegree hc l m _ _ fun j i => hdC _ _ (wireA_natDegree _ _ _ _ _ hxs hLag _ _ _ _))
    refine ⟨p', hp0, hpd, fun r' hr' => ?_⟩
    set y := ψ (sem (ch (ρ r'))) with hy
    obtain ⟨p, hq0, hqd, hq'⟩ := hmod.poly
      (rowSum cR E.circ.wires l (fun j => C (th j)) (fun j i => W1 j i + C ((W2 j i).eval y)) -
        (P1 + C (P2.eval y))) (by
        intro h0
        apply hr'
        apply hp'
        have := congrArg (fun p => Polynomial.eval (pt k0) p) h0
        simp only [eval_sub, eval_add, eval_C, eval_zero] at this ⊢
        rw [rowSum_eval hc] at this ⊢
        rw [← this]
        congr 1
        · apply rowSum_congr
          intro j _ i _
          simp only [eval_add, eval_C]
          rw [add_comm]
        · rw [add_comm]) (2 * m) (by
      refine natDegree_sub_le' ?_ (natDegree_add_le' (polyA_natDegree ψ _ _ hlen.1) (by simp))
      exact rowSum_natDegree hc l m _ _ fun j i => hdC _ _ (wireA_natDegree _ _ _ _ _ hxs hLag _ _ _ _))
    refine ⟨p, hq0, hqd, fun x x' hx h => ?_⟩
    subst hx
    have := (hacc x x' h).2.1
    apply hq'
    rw [eval_sub, rowSum_eval hc, eval_add, eval_C, hy, ← this, sub_eq_zero]
    apply rowSum_congr
    intro j _ i _
    rw [eval_add, eval_C]
  · left
    obtain ⟨e, hne, he⟩ := hmod.linear (Fin.append (fun k : Fin m => P1.eval (pt k)) (fun k : Fin m => P2.eval (pt k))) (by
      push Not at hz
      obtain ⟨k, hk, hne⟩ := hz
      by_cases h1 : P1.eval (pt k) = 0
      · exact ⟨Fin.natAdd m ⟨k, hk⟩, by rw [Fin.append_right]; exact hne h1⟩
      · exact ⟨Fin.castAdd m ⟨k, hk⟩, by rw [Fin.append_left]; exact h1⟩)
    refine ⟨e, hne, fun x x' h => ?_⟩
    have h2 := he (fun k => ψ (sem (ch (Fin.append x.1 x'.1 k)))) (by
      rw [Fin.sum_univ_add]
      simp only [Fin.append_left, Fin.append_right]
      exact (hacc x x' h).1)
    exact h2

end ZkEnv

/-! ## AND gates -/

/-- A field of characteristic two. -/
theorem modTwo_id {F : Type} [Field F] (h2 : (2 : F) = 0) : ModTwo 1 (RingHom.id F) where
  pos := by norm_num
  nil := by rw [h2]; norm_num
  even x hx := ⟨0, by simpa using hx⟩
  top x hx := by simpa using hx

open ZkEnv in
/-- Soundness count for one prover of AND gates, when the two verifiers use different challenges. -/
theorem and_sound_two (G : Prg) (l m : Nat) (hm : m < 2 ^ 63) (vp vn : List (ZInput Bool)) (hp : vp.length = l * m)
    (hn : vn.length = l * m) (d0 : ZInput Bool) (q : Nat) (hq : q < l * m)
    (hbad : ¬ AndOk ((vp.getD q d0).xor (vn.getD q d0)))
    (pf1 pf2 : (Fin l → GF2p64) → ZkPf GF2p64) :
    Nat.card GF2p64 * Nat.card {x : (Fin l → GF2p64) × ((Fin m → GF2p64) × AndR m) × ((Fin m → GF2p64) × AndR m) //
      AndAcceptsTwo G l m vp vn (List.ofFn x.1) (List.ofFn x.2.1.1) x.2.1.2.1 (List.ofFn x.2.2.1) x.2.2.2.1
        (pf1 x.1) (pf2 x.1)} ≤
      Nat.card GF2p64 ^ (l + 2 * m) * Nat.card (AndR m) * (Nat.card (AndR m) + 2 * (2 * m) * Nat.card GF2p64) := by
  obtain ⟨Ls, eL, hL, hLag⟩ := and_lagrange m (by omega)
  have hm0 : 0 < m := by
    rcases Nat.eq_zero_or_pos m with rfl | h
    · simp at hq
    · exact h
  have g2 := and_gates G vp
  have g3 := and_gates G vn
  rw [hp] at g2
  rw [hn] at g3
  have hsb : Function.Bijective GF2p64.sem := ⟨GF2p64.sem_injective, GF2p64.sem_surjective⟩
  have := (andEnv G).sound_two (RingHom.id F64) (and_redOk G) mulCirc_lawful l m vp vn Ls (andPoints (m + 1)) hL
    (andPoints_length _) hLag (andV vp) (andV vn) g2 g3 (modTwo_id two_F64) (id : GF2p64 → GF2p64)
    (Subtype.val : AndR m → GF2p64) (N := Nat.card GF2p64)
    (fun n c k hk => card_linear_le GF2p64.sem hsb c k hk)
    (fun p hp0 hpd => by
      rw [Nat.mul_comm]
      exact Nat.mul_le_mul_right _ (card_roots_le GF2p64.sem hsb (Subtype.val : AndR m → GF2p64) Subtype.val_injective p _ hp0 hpd))
    (by
      show Nat.card (AndR m) ≤ _
      rw [natCard_AndR m (by omega), natCard_GF2p64]
      calc 2 ^ 64 - m - 1 ≤ 1 * 2 ^ 64 := by omega
        _ ≤ 2 * m * 2 ^ 64 := Nat.mul_le_mul_right _ (by omega)) q hq (by
      have e : mulExpr F64 ((List.range 6).map fun i => RingHom.id F64 (sem (andV vp q i)) + RingHom.id F64 (sem (andV vn q i))) =
          mulExpr F64 ((List.range 6).map fun i => bitF (((vp.getD q d0).xor (vn.getD q d0)).bit i)) := by
        simp only [andV, RingHom.id_apply, sem_gf, sem_lift, ZInput.bit_xor, bitF_xor]
        simp only [List.getD_eq_getElem?_getD]
        rw [List.getElem?_eq_getElem (by omega), List.getElem?_eq_getElem (by omega)]
        rfl
      exact fun h => hbad ((mulExpr_zero_iff _).1 (e.symm.trans h))) pf1 pf2
  refine le_trans (Nat.mul_le_mul_left _ ?_) this
  refine Nat.card_le_card_of_injective (fun c => ⟨c.1, ?_⟩) ?_
  · obtain ⟨Ls', v1, v2, e2, e3, e4, e5⟩ := c.2
    obtain rfl : Ls = Ls' := Except.ok.inj (eL.symm.trans e2)
    exact ⟨v1, v2, e3, e4, e5⟩
  · intro a b h
    have h := congrArg Subtype.val h
    exact Subtype.ext h

/-! ## Multiplications and dot products -/

open ZkEnv in
/-- Soundness count for one prover, generically in the circuit, when the two verifiers use different challenges. -/
theorem poly_sound_two {K : Nat} {G : Prg} {I : Type} (hK : 0 < K) (h64 : K < 64) (E : ZkEnv G (Poly (BitVec K)) I)
    {md : Poly (BitVec K)} {d : Nat} (hd0 : 0 < d) (hd : d < 64) (hm : Poly.MonicRep d md)
    (hirr : Irreducible (md.sem.map (bvMod2 hK))) (hE : ∀ x, E.red x = x.rem md)
    {cR : (A : Type) → [CommRing A] → List A → A} (hc : E.circ.Lawful cR) (val : I → Nat → BitVec K) (d0 : I)
    (l m : Nat) (hmd : m + 1 ≤ 2 ^ d) (vp vn : List I) (hvp : vp.length = l * m) (hvn : vn.length = l * m)
    (hw : ∀ inputs ∈ [vp, vn], ∀ x ∈ inputs, ∀ i < E.circ.wires, E.wire x i = .ok (Poly.lift (val x i)))
    (q : Nat) (hq : q < l * m)
    (hbad : cR (BitVec K) ((List.range E.circ.wires).map fun i => val (vp.getD q d0) i + val (vn.getD q d0) i) ≠ 0)
    {Rt : Type} [Finite Rt] (ρ : Rt → Fin d → BitVec K) (hρ : Function.Injective ρ)
    (pf1 pf2 : (Fin l → Fin d → BitVec K) → ZkPf (Poly (BitVec K))) :
    2 ^ d * Nat.card {x : (Fin l → Fin d → BitVec K) × ((Fin m → Fin d → BitVec K) × Rt) × ((Fin m → Fin d → BitVec K) × Rt) //
      ∃ Ls v1 v2, Poly.lagrangePolys (mulPoints K (m + 1)) md = .ok Ls ∧
        E.verifyPi l m vp (List.ofFn fun k => ⟨List.ofFn (x.2.1.1 k)⟩) ⟨List.ofFn (ρ x.2.1.2)⟩ Ls (mulPoints K (m + 1))
          (pf1 x.1) = .ok v1 ∧
        E.verifyPi l m vn (List.ofFn fun k => ⟨List.ofFn (x.2.2.1 k)⟩) ⟨List.ofFn (ρ x.2.2.2)⟩ Ls (mulPoints K (m + 1))
          (pf2 x.1) = .ok v2 ∧
        E.combine l (List.ofFn fun j => ⟨List.ofFn (x.1 j)⟩) v1 v2 = .ok ()} ≤
      Nat.card (Fin d → BitVec K) ^ (l + 2 * m) * Nat.card Rt *
        (Nat.card Rt + 2 * (2 * m) * Nat.card (Fin d → BitVec K)) := by
  obtain ⟨Ls, eL, hL, hLag⟩ := Poly.lagrangePolys_spec hK h64 md hd hm hirr _ (Poly.mulPoints_ok hK d (m + 1) hmd)
  have hpl : (mulPoints K (m + 1)).length = m + 1 := by simp [mulPoints]
  rw [hpl] at hL
  have : Fact (Irreducible (md.sem.map (bvMod2 hK))) := ⟨hirr⟩
  obtain ⟨hcard, hfin⟩ := natCard_resField hK hm
  have hmod := resMap_modTwo hK hm
  have hm0 : 0 < m := by
    rcases Nat.eq_zero_or_pos m with rfl | h
    · simp at hq
    · exact h
  have g2 := lift_gates E val d0 vp (hw vp (by simp))
  have g3 := lift_gates E val d0 vn (hw vn (by simp))
  rw [hvp] at g2
  rw [hvn] at g3
  rw [← hcard]
  have := E.sound_two (AdjoinRoot.mk md.sem) (mul_redOk hK E hm hE) hc l m vp vn Ls (mulPoints K (m + 1)) hL hpl hLag
    (liftV val d0 vp) (liftV val d0 vn) g2 g3 hmod (fun t : Fin d → BitVec K => (⟨List.ofFn t⟩ : Poly (BitVec K)))
    ρ (N := Nat.card (ResField hK md))
    (fun n c k hk => card_linear_le' (chalMap hK md d) (chalMap_surjective hK hd0 hm) c k hk)
    (fun p hp0 hpd => card_roots_le' (chalMap hK md d) (chalMap_surjective hK hd0 hm) ρ hρ p _ hp0 hpd)
    ((Nat.card_le_card_of_injective ρ hρ).trans (Nat.le_mul_of_pos_left _ (by omega))) q hq (by
      have e : cR (Poly.QR md.sem) ((List.range E.circ.wires).map fun i =>
          AdjoinRoot.mk md.sem (sem (liftV val d0 vp q i)) + AdjoinRoot.mk md.sem (sem (liftV val d0 vn q i))) =
          constA md (cR (BitVec K) ((List.range E.circ.wires).map fun i => val (vp.getD q d0) i + val (vn.getD q d0) i)) := by
        rw [← hc.map (constA md) _ (by simp), List.map_map]
        congr 1
        apply List.map_congr_left
        intro i _
        rw [sem_liftV, sem_liftV, Function.comp_apply, map_add]
      exact fun h => hbad (constA_eq_zero hK hd0 hm _ (e.symm.trans h))) pf1 pf2
  refine le_trans (Nat.mul_le_mul_left _ ?_) this
  refine Nat.card_le_card_of_injective (fun c => ⟨c.1, ?_⟩) ?_
  · obtain ⟨Ls', v1, v2, e2, e3, e4, e5⟩ := c.2
    obtain rfl : Ls = Ls' := Except.ok.inj (eL.symm.trans e2)
    exact ⟨v1, v2, e3, e4, e5⟩
  · intro a b h
    have h := congrArg Subtype.val h
    exact Subtype.ext h

end Verif
