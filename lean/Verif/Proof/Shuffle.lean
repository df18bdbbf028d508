import Verif.Spec.Shuffle
import Verif.Proof.Permute
import Mathlib.Data.Nat.Choose.Basic
import Mathlib.Algebra.Order.BigOperators.Group.Finset
import Mathlib.Order.Interval.Finset.Nat

/-!
# The shuffle: uniformity, and the number of shuffles that move a pattern of errors to a given one
-/

namespace Verif

theorem shuffleDraws_length {G : Prg} (n : Nat) (s : G.S) : (shuffleDraws G n s).length = n := by
  induction n generalizing s with
  | zero => rfl
  | succ n ih => simp [shuffleDraws, ih]

theorem cons_mem_drawSeqs {n d : Nat} {ds : List Nat} : d :: ds ∈ drawSeqs (n + 1) ↔ d < n + 1 ∧ ds ∈ drawSeqs n := by
  simp only [drawSeqs, Finset.mem_image, Finset.mem_product, Finset.mem_range, Prod.exists, List.cons.injEq]
  constructor
  · rintro ⟨a, b, h, rfl, rfl⟩; exact h
  · intro h; exact ⟨d, ds, h, rfl, rfl⟩

theorem mem_drawSeqs_succ {n : Nat} {l : List Nat} : l ∈ drawSeqs (n + 1) ↔
    ∃ d ds, l = d :: ds ∧ d < n + 1 ∧ ds ∈ drawSeqs n := by
  simp only [drawSeqs, Finset.mem_image, Finset.mem_product, Finset.mem_range, Prod.exists]
  constructor
  · rintro ⟨a, b, h, rfl⟩; exact ⟨a, b, rfl, h⟩
  · rintro ⟨d, ds, rfl, h⟩; exact ⟨d, ds, h, rfl⟩

theorem shuffleDraws_mem {G : Prg} (n : Nat) (s : G.S) : shuffleDraws G n s ∈ drawSeqs n := by
  induction n generalizing s with
  | zero => simp [shuffleDraws, drawSeqs]
  | succ n ih => exact cons_mem_drawSeqs.2 ⟨G.genRange_lt _ _ (by omega), ih _⟩

theorem card_drawSeqs (n : Nat) : (drawSeqs n).card = n.factorial := by
  induction n with
  | zero => rfl
  | succ n ih =>
    rw [drawSeqs, Finset.card_image_of_injective, Finset.card_product, Finset.card_range, ih, Nat.factorial_succ]
    rintro ⟨a, b⟩ ⟨c, d⟩ h
    simpa using h

theorem permIdx_eq {G : Prg} (n j : Nat) (s : G.S) : permIdx G n j s = shuffleOf j (shuffleDraws G n s) := by
  induction n generalizing j s with
  | zero => rfl
  | succ n ih => rw [permIdx, ih]; rfl

theorem shuffleOf_lt {j : Nat} {ds : List Nat} {k : Nat} (h : k < j) : ∀ {n : Nat}, ds ∈ drawSeqs n → shuffleOf j ds k = k := by
  induction ds generalizing j with
  | nil => intro _ _; rfl
  | cons d ds ih =>
    intro n hm
    cases n with
    | zero => simp [drawSeqs] at hm
    | succ n =>
      obtain ⟨-, hds⟩ := cons_mem_drawSeqs.1 hm
      rw [shuffleOf, Equiv.Perm.mul_apply, ih (by omega) hds, Equiv.swap_apply_of_ne_of_ne (by omega) (by omega)]

theorem shuffleOf_ge {j k : Nat} {ds : List Nat} : ∀ {n : Nat}, ds ∈ drawSeqs n → j + n ≤ k → shuffleOf j ds k = k := by
  induction ds generalizing j with
  | nil => intro _ _ _; rfl
  | cons d ds ih =>
    intro n hm hk
    cases n with
    | zero => simp [drawSeqs] at hm
    | succ n =>
      obtain ⟨hd, hds⟩ := cons_mem_drawSeqs.1 hm
      rw [shuffleOf, Equiv.Perm.mul_apply, ih hds (by omega), Equiv.swap_apply_of_ne_of_ne (by omega) (by omega)]

/-- Every permutation of the `n` positions from `j` on comes from exactly one sequence of draws. -/
theorem shuffleOf_bijective (n j : Nat) (π : Equiv.Perm Nat) (h1 : ∀ k, k < j → π k = k) (h2 : ∀ k, j + n ≤ k → π k = k) :
    ∃! ds, ds ∈ drawSeqs n ∧ shuffleOf j ds = π := by
  induction n generalizing j π with
  | zero =>
    refine ⟨[], ⟨by simp [drawSeqs], ?_⟩, ?_⟩
    · ext k
      show k = π k
      by_cases hk : k < j
      · exact (h1 k hk).symm
      · exact (h2 k (by omega)).symm
    · rintro ds ⟨hd, -⟩
      simpa [drawSeqs] using hd
  | succ n ih =>
    have hj : j ≤ π j := by
      by_contra hlt
      have := h1 (π j) (by omega)
      have := π.injective this
      omega
    have hj2 : π j < j + (n + 1) := by
      by_contra hge
      have := h2 (π j) (by omega)
      have := π.injective this
      omega
    obtain ⟨d, hd⟩ : ∃ d, π j = j + d := ⟨π j - j, by omega⟩
    obtain ⟨ds, ⟨hds, he⟩, hu⟩ := ih (j + 1) (Equiv.swap (j + d) j * π) (by
        intro k hk
        rw [Equiv.Perm.mul_apply]
        by_cases hkj : k = j
        · subst hkj; rw [hd, Equiv.swap_apply_left]
        · rw [h1 k (by omega), Equiv.swap_apply_of_ne_of_ne (by omega) (by omega)]) (by
        intro k hk
        rw [Equiv.Perm.mul_apply, h2 k (by omega), Equiv.swap_apply_of_ne_of_ne (by omega) (by omega)])
    refine ⟨d :: ds, ⟨cons_mem_drawSeqs.2 ⟨by omega, hds⟩, ?_⟩, ?_⟩
    · rw [shuffleOf, he, ← mul_assoc, Equiv.swap_mul_self, one_mul]
    · rintro l ⟨hl, hl2⟩
      obtain ⟨d', ds', rfl, hd', hds'⟩ := mem_drawSeqs_succ.1 hl
      have hjj : π j = j + d' := by
        rw [← hl2, shuffleOf, Equiv.Perm.mul_apply, shuffleOf_lt (by omega) hds', Equiv.swap_apply_right]
      obtain rfl : d' = d := by omega
      have := hu ds' ⟨hds', by rw [← hl2, shuffleOf, ← mul_assoc, Equiv.swap_mul_self, one_mul]⟩
      rw [this]

/-! ## Counting -/

/-- The number of marked positions among the `n` from `j` on. -/
def weight (f : Nat → Bool) (j n : Nat) : Nat := ((Finset.Ico j (j + n)).filter fun k => f k = true).card

theorem weight_succ (f : Nat → Bool) (j n : Nat) :
    weight f j (n + 1) = (if f j = true then 1 else 0) + weight f (j + 1) n := by
  unfold weight
  rw [show j + (n + 1) = j + 1 + n by omega, show Finset.Ico j (j + 1 + n) = insert j (Finset.Ico (j + 1) (j + 1 + n)) by ext k; simp only [Finset.mem_insert, Finset.mem_Ico]; omega, Finset.filter_insert]
  split
  · rw [Finset.card_insert_of_notMem (by simp)]; simp [add_comm]
  · simp

theorem weight_le (f : Nat → Bool) (j n : Nat) : weight f j n ≤ n := by
  unfold weight
  refine (Finset.card_filter_le _ _).trans ?_
  simp

theorem weight_swap (f : Nat → Bool) {j n d : Nat} (hd : d < n) :
    weight (fun k => f (Equiv.swap (j + d) j k)) j n = weight f j n := by
  unfold weight
  refine Finset.card_equiv (Equiv.swap (j + d) j) ?_
  intro k
  simp only [Finset.mem_filter, Finset.mem_Ico]
  refine and_congr_left fun _ => ?_
  by_cases h1 : k = j + d
  · subst h1; rw [Equiv.swap_apply_left]; omega
  by_cases h2 : k = j
  · subst h2; rw [Equiv.swap_apply_right]; omega
  · rw [Equiv.swap_apply_of_ne_of_ne h1 h2]

/-- The draws whose shuffle moves the marks `f` to the marks `g`. -/
def movers (g f : Nat → Bool) (j n : Nat) : Finset (List Nat) :=
  (drawSeqs n).filter fun ds => ∀ k ∈ Finset.Ico j (j + n), g k = f (shuffleOf j ds k)

theorem card_choices (f : Nat → Bool) (b : Bool) (j n : Nat) :
    ((Finset.range n).filter fun d => f (j + d) = b).card = if b then weight f j n else n - weight f j n := by
  have key : ((Finset.range n).filter fun d => f (j + d) = true).card = weight f j n := by
    unfold weight
    refine Finset.card_bij (fun d _ => j + d) ?_ ?_ ?_
    · intro d hd; simp only [Finset.mem_filter, Finset.mem_range, Finset.mem_Ico] at hd ⊢; exact ⟨by omega, hd.2⟩
    · intro a _ b _ h; omega
    · intro k hk
      simp only [Finset.mem_filter, Finset.mem_Ico] at hk
      refine ⟨k - j, ?_, by omega⟩
      simp only [Finset.mem_filter, Finset.mem_range]
      exact ⟨by omega, by rw [show j + (k - j) = k by omega]; exact hk.2⟩
  cases b with
  | true => simpa using key
  | false =>
    have h := Finset.card_filter_add_card_filter_not (s := Finset.range n) (fun d => f (j + d) = true)
    simp only [Bool.not_eq_true, key, Finset.card_range] at h
    simp only [Bool.false_eq_true, if_false]
    omega

theorem card_movers (n : Nat) : ∀ (g f : Nat → Bool) (j : Nat),
    (movers g f j n).card ≤ (weight f j n).factorial * (n - weight f j n).factorial := by
  induction n with
  | zero =>
    intro g f j
    refine (Finset.card_filter_le _ _).trans ?_
    simp only [drawSeqs, Finset.card_singleton]
    exact Nat.mul_pos (Nat.factorial_pos _) (Nat.factorial_pos _)
  | succ n ih =>
    intro g f j
    have hsub : movers g f j (n + 1) ⊆ ((Finset.range (n + 1)).filter fun d => f (j + d) = g j).biUnion fun d =>
        (movers g (fun k => f (Equiv.swap (j + d) j k)) (j + 1) n).image fun ds => d :: ds := by
      intro l hl
      simp only [movers, Finset.mem_filter] at hl
      obtain ⟨d, ds, rfl, hd, hds⟩ := mem_drawSeqs_succ.1 hl.1
      simp only [Finset.mem_biUnion, Finset.mem_filter, Finset.mem_range, Finset.mem_image, movers, List.cons.injEq]
      refine ⟨d, ⟨hd, ?_⟩, ds, ⟨hds, ?_⟩, rfl, rfl⟩
      · have := hl.2 j (by simp)
        rw [shuffleOf, Equiv.Perm.mul_apply, shuffleOf_lt (by omega) hds, Equiv.swap_apply_right] at this
        exact this.symm
      · intro k hk
        simp only [Finset.mem_Ico] at hk
        exact hl.2 k (by simp only [Finset.mem_Ico]; omega)
    refine (Finset.card_le_card hsub).trans (Finset.card_biUnion_le.trans ?_)
    have hw := weight_le f j (n + 1)
    have hb : ∀ d ∈ (Finset.range (n + 1)).filter (fun d => f (j + d) = g j),
        ((movers g (fun k => f (Equiv.swap (j + d) j k)) (j + 1) n).image fun ds => d :: ds).card ≤
        (weight f j (n + 1) - if g j = true then 1 else 0).factorial *
          (n - (weight f j (n + 1) - if g j = true then 1 else 0)).factorial := by
      intro d hd
      simp only [Finset.mem_filter, Finset.mem_range] at hd
      refine Finset.card_image_le.trans ((ih _ _ _).trans ?_)
      have h1 := weight_swap f hd.1 (j := j)
      rw [weight_succ] at h1
      simp only [Equiv.swap_apply_right, hd.2] at h1
      have h2 : weight (fun k => f (Equiv.swap (j + d) j k)) (j + 1) n =
          weight f j (n + 1) - if g j = true then 1 else 0 := by omega
      rw [h2]
    refine (Finset.sum_le_card_nsmul _ _ _ hb).trans ?_
    rw [card_choices, smul_eq_mul]
    cases hg : g j with
    | true =>
      simp only [if_true]
      rcases Nat.eq_zero_or_pos (weight f j (n + 1)) with h0 | h0
      · rw [h0]; simp
      · rw [← mul_assoc, Nat.mul_factorial_pred (by omega), show n - (weight f j (n + 1) - 1) = n + 1 - weight f j (n + 1) by omega]
    | false =>
      simp only [Bool.false_eq_true, if_false, Nat.sub_zero]
      rcases Nat.eq_or_lt_of_le hw with h0 | h0
      · rw [h0]; simp
      · rw [show n - weight f j (n + 1) = n + 1 - weight f j (n + 1) - 1 by omega, mul_left_comm,
          Nat.mul_factorial_pred (by omega)]

theorem le_choose {n w : Nat} (h1 : 1 ≤ w) (h2 : w < n) : n ≤ n.choose w := by
  induction n generalizing w with
  | zero => omega
  | succ n ih =>
    obtain ⟨w, rfl⟩ : ∃ v, w = v + 1 := ⟨w - 1, by omega⟩
    rw [Nat.choose_succ_succ]
    rcases Nat.eq_or_lt_of_le (show w + 1 ≤ n by omega) with h | h
    · subst h; simp
    · have := ih h1 h
      have := Nat.choose_pos (show w ≤ n by omega)
      simp only [Nat.succ_eq_add_one]; omega

/-- At most one in `n` shuffles moves a pattern `f` to a pattern `g` with marked and unmarked positions. -/
theorem movers_few {g f : Nat → Bool} {n : Nat} (h1 : ∃ k < n, g k = true) (h2 : ∃ k < n, g k = false) :
    (movers g f 0 n).card * n ≤ n.factorial := by
  by_cases he : movers g f 0 n = ∅
  · rw [he]; simp
  obtain ⟨ds, hds⟩ := Finset.nonempty_iff_ne_empty.2 he
  simp only [movers, Finset.mem_filter, Finset.mem_Ico] at hds
  have himg : ∀ k < n, shuffleOf 0 ds k < n := by
    intro k hk
    by_contra hge
    have := shuffleOf_ge (j := 0) hds.1 (k := shuffleOf 0 ds k) (by omega)
    have := (shuffleOf 0 ds).injective this
    omega
  have hw1 : 1 ≤ weight f 0 n := by
    obtain ⟨k, hk, hg⟩ := h1
    refine Finset.card_pos.2 ⟨shuffleOf 0 ds k, ?_⟩
    simp only [Finset.mem_filter, Finset.mem_Ico]
    have := himg k hk
    exact ⟨by omega, by rw [← hds.2 k (by omega), hg]⟩
  have hw2 : weight f 0 n < n := by
    obtain ⟨k, hk, hg⟩ := h2
    have : weight f 0 n < (Finset.Ico 0 (0 + n)).card := by
      refine Finset.card_lt_card ⟨Finset.filter_subset _ _, fun hs => ?_⟩
      have h3 := himg k hk
      have := hs (x := shuffleOf 0 ds k) (by simp only [Finset.mem_Ico]; omega)
      simp only [Finset.mem_filter] at this
      rw [← hds.2 k (by omega), hg] at this
      simp at this
    simpa using this
  calc (movers g f 0 n).card * n ≤ ((weight f 0 n).factorial * (n - weight f 0 n).factorial) * n.choose (weight f 0 n) :=
        Nat.mul_le_mul (card_movers n g f 0) (le_choose hw1 hw2)
    _ = n.factorial := by
        rw [mul_comm, ← mul_assoc, Nat.choose_mul_factorial_mul_factorial (weight_le _ _ _)]

end Verif
