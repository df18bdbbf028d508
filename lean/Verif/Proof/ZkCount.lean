import Mathlib.Algebra.Polynomial.Roots
import Mathlib.SetTheory.Cardinal.Finite
import Mathlib.Data.Fintype.Pi
import Mathlib.Algebra.BigOperators.Pi
import Mathlib.Tactic.LinearCombination

/-! # Counting challenges: linear forms and roots over a finite field -/

namespace Verif

open Polynomial

section

variable {F K : Type} [Field K] [Finite F] (s : F → K) (hs : Function.Bijective s)

include hs

/-- A non-zero linear form vanishes on at most a `1/|F|` fraction of the vectors. -/
theorem card_linear_le {m : Nat} (c : Fin m → K) (k0 : Fin m) (hk : c k0 ≠ 0) :
    Nat.card F * Nat.card {β : Fin m → F // ∑ k, c k * s (β k) = 0} ≤ Nat.card F ^ m := by
  classical
  rw [← Nat.card_prod, show Nat.card F ^ m = Nat.card (Fin m → F) by simp [Nat.card_fun]]
  have hsum : ∀ (β : Fin m → F) (x : F), ∑ k, c k * s (Function.update β k0 x k) =
      ∑ k, c k * s (β k) + c k0 * (s x - s (β k0)) := by
    intro β x
    rw [← Finset.add_sum_erase _ _ (Finset.mem_univ k0), ← Finset.add_sum_erase _ (fun k => c k * s (β k)) (Finset.mem_univ k0)]
    rw [Function.update_self]
    have : ∑ k ∈ Finset.univ.erase k0, c k * s (Function.update β k0 x k) = ∑ k ∈ Finset.univ.erase k0, c k * s (β k) := by
      apply Finset.sum_congr rfl
      intro k hk
      rw [Function.update_of_ne (Finset.ne_of_mem_erase hk)]
    rw [this]; ring
  let inv := fun y => (hs.2 y).choose
  have hinv : ∀ y, s (inv y) = y := fun y => (hs.2 y).choose_spec
  refine Nat.card_le_card_of_injective
    (fun q : F × {β : Fin m → F // ∑ k, c k * s (β k) = 0} => Function.update q.2.1 k0 (inv (s (q.2.1 k0) + s q.1))) ?_
  intro ⟨t, β, hβ⟩ ⟨t', β', hβ'⟩ h
  have h : Function.update β k0 (inv (s (β k0) + s t)) = Function.update β' k0 (inv (s (β' k0) + s t')) := h
  have e1 := hsum β (inv (s (β k0) + s t))
  have e2 := hsum β' (inv (s (β' k0) + s t'))
  rw [hinv, hβ] at e1
  rw [hinv, hβ', ← h, e1] at e2
  have ht : s t = s t' := by
    have := mul_left_cancel₀ hk (by linear_combination e2 : c k0 * s t = c k0 * s t')
    exact this
  have htt := hs.1 ht
  subst htt
  have hb : β = β' := by
    funext k
    have hk' := congrFun h k
    by_cases e : k = k0
    · subst e
      rw [Function.update_self, Function.update_self] at hk'
      have := congrArg s hk'
      rw [hinv, hinv] at this
      exact hs.1 (by linear_combination this)
    · rwa [Function.update_of_ne e, Function.update_of_ne e] at hk'
  subst hb
  rfl

omit [Finite F] in
/-- A non-zero polynomial of degree at most `d` has at most `d` roots. -/
theorem card_roots_le {Rt : Type} [Finite Rt] (ρ : Rt → F) (hρ : Function.Injective ρ) (p : K[X]) (d : Nat) (hp : p ≠ 0)
    (hd : p.natDegree ≤ d) : Nat.card {r : Rt // p.eval (s (ρ r)) = 0} ≤ d := by
  classical
  have : Nat.card {r : Rt // p.eval (s (ρ r)) = 0} ≤ Nat.card {x : K // x ∈ p.roots.toFinset} := by
    refine Nat.card_le_card_of_injective (fun r => ⟨s (ρ r.1), ?_⟩) ?_
    · rw [Multiset.mem_toFinset, mem_roots hp]; exact r.2
    · intro ⟨r, hr⟩ ⟨r', hr'⟩ h
      have := congrArg Subtype.val h
      exact Subtype.ext (hρ (hs.1 this))
  refine this.trans ?_
  rw [Nat.card_eq_fintype_card, Fintype.card_coe]
  exact (Multiset.toFinset_card_le _).trans ((card_roots' p).trans hd)

/-- The number of accepted challenges `(θ, β, r)` when, for all but the `θ` in a hyperplane, acceptance forces `β` into
a hyperplane or `r` among the roots of a non-zero polynomial of degree at most `d`. -/
theorem count_accept {Rt : Type} [Finite Rt] (ρ : Rt → F) (hρ : Function.Injective ρ) {l m d : Nat}
    (hd : Nat.card Rt ≤ d * Nat.card F) (c : Fin l → K) (j0 : Fin l) (hj : c j0 ≠ 0)
    (acc : (Fin l → F) → (Fin m → F) → Rt → Prop)
    (h : ∀ θ : Fin l → F, ∑ j, c j * s (θ j) ≠ 0 →
      (∃ e : Fin m → K, (∃ k, e k ≠ 0) ∧ ∀ β r, acc θ β r → ∑ k, e k * s (β k) = 0) ∨
      (∃ p : K[X], p ≠ 0 ∧ p.natDegree ≤ d ∧ ∀ β r, acc θ β r → p.eval (s (ρ r)) = 0)) :
    Nat.card F * Nat.card {x : (Fin l → F) × (Fin m → F) × Rt // acc x.1 x.2.1 x.2.2} ≤
      Nat.card F ^ (l + m) * (Nat.card Rt + d * Nat.card F) := by
  classical
  set N := Nat.card F with hN
  set M := Nat.card Rt with hM
  have hβ : Nat.card (Fin m → F) = N ^ m := by simp [Nat.card_fun, hN]
  have hθ : Nat.card (Fin l → F) = N ^ l := by simp [Nat.card_fun, hN]
  have := Fintype.ofFinite (Fin l → F)
  have hsplit : Nat.card {x : (Fin l → F) × (Fin m → F) × Rt // acc x.1 x.2.1 x.2.2} =
      ∑ θ : Fin l → F, Nat.card {y : (Fin m → F) × Rt // acc θ y.1 y.2} := by
    rw [← Nat.card_sigma]
    refine Nat.card_congr ⟨fun x => ⟨x.1.1, x.1.2, x.2⟩, fun y => ⟨(y.1, y.2.1), y.2.2⟩, fun _ => rfl, fun _ => rfl⟩
  have hone : ∀ θ : Fin l → F, N * Nat.card {y : (Fin m → F) × Rt // acc θ y.1 y.2} ≤
      (if ∑ j, c j * s (θ j) = 0 then N * (N ^ m * M) else 0) + N ^ m * (d * N) := by
    intro θ
    by_cases h0 : ∑ j, c j * s (θ j) = 0
    · rw [if_pos h0]
      refine le_trans ?_ (Nat.le_add_right _ _)
      refine Nat.mul_le_mul_left _ ?_
      have := Nat.card_le_card_of_injective (Subtype.val : {y : (Fin m → F) × Rt // acc θ y.1 y.2} → _) Subtype.val_injective
      rwa [Nat.card_prod, hβ] at this
    · rw [if_neg h0, Nat.zero_add]
      rcases h θ h0 with ⟨e, ⟨k, hk⟩, he⟩ | ⟨p, hp, hpd, hpe⟩
      · have h1 : Nat.card {y : (Fin m → F) × Rt // acc θ y.1 y.2} ≤
            Nat.card ({β : Fin m → F // ∑ k, e k * s (β k) = 0} × Rt) := by
          refine Nat.card_le_card_of_injective (fun y => (⟨y.1.1, he _ _ y.2⟩, y.1.2)) ?_
          intro ⟨⟨b, r⟩, hy⟩ ⟨⟨b', r'⟩, hy'⟩ hh
          have hh := Prod.mk.inj hh
          have := congrArg Subtype.val hh.1
          simp only at this
          exact Subtype.ext (Prod.ext this hh.2)
        rw [Nat.card_prod] at h1
        have h2 := card_linear_le s hs e k hk
        calc N * Nat.card {y : (Fin m → F) × Rt // acc θ y.1 y.2}
            ≤ N * (Nat.card {β : Fin m → F // ∑ k, e k * s (β k) = 0} * M) := Nat.mul_le_mul_left _ h1
          _ = (N * Nat.card {β : Fin m → F // ∑ k, e k * s (β k) = 0}) * M := by ring
          _ ≤ N ^ m * (d * N) := Nat.mul_le_mul h2 hd
      · have h1 : Nat.card {y : (Fin m → F) × Rt // acc θ y.1 y.2} ≤
            Nat.card ((Fin m → F) × {r : Rt // p.eval (s (ρ r)) = 0}) := by
          refine Nat.card_le_card_of_injective (fun y => (y.1.1, ⟨y.1.2, hpe _ _ y.2⟩)) ?_
          intro ⟨⟨b, r⟩, hy⟩ ⟨⟨b', r'⟩, hy'⟩ hh
          have hh := Prod.mk.inj hh
          have := congrArg Subtype.val hh.2
          simp only at this
          exact Subtype.ext (Prod.ext hh.1 this)
        rw [Nat.card_prod, hβ] at h1
        have h2 := card_roots_le s hs ρ hρ p d hp hpd
        calc N * Nat.card {y : (Fin m → F) × Rt // acc θ y.1 y.2}
            ≤ N * (N ^ m * d) := Nat.mul_le_mul_left _ (h1.trans (Nat.mul_le_mul_left _ h2))
          _ = N ^ m * (d * N) := by ring
  rw [hsplit, Finset.mul_sum]
  refine (Finset.sum_le_sum fun θ _ => hone θ).trans ?_
  rw [Finset.sum_add_distrib, Finset.sum_const, Finset.card_univ, ← Nat.card_eq_fintype_card, hθ, smul_eq_mul,
    ← Finset.sum_filter, Finset.sum_const, smul_eq_mul]
  have hbad : N * (Finset.univ.filter fun θ : Fin l → F => ∑ j, c j * s (θ j) = 0).card ≤ N ^ l := by
    have := card_linear_le s hs c j0 hj
    rwa [Nat.card_eq_fintype_card (α := {β : Fin l → F // _}), Fintype.card_subtype] at this
  calc _ = (N * (Finset.univ.filter fun θ : Fin l → F => ∑ j, c j * s (θ j) = 0).card) * (N ^ m * M) +
        N ^ l * (N ^ m * (d * N)) := by ring
    _ ≤ N ^ l * (N ^ m * M) + N ^ l * (N ^ m * (d * N)) := Nat.add_le_add_right (Nat.mul_le_mul_right _ hbad) _
    _ = N ^ (l + m) * (M + d * N) := by rw [pow_add]; ring

end

end Verif
