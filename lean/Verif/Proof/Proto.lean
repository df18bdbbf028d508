import Verif.Spec.Joint
import Verif.Proof.Net
import Verif.Proof.Ring
import Mathlib.Data.List.Forall2

/-! # Joint program logic for stateful protocols, and joint lists of shares -/

namespace Verif

variable {σ α β X Y Z B C D : Type}

/-- Joint success specification of stateful protocol code: from states `st` every party succeeds (in every
schedule, see `WP.allSchedules`), with results and new states satisfying `Q`. -/
def WPS (p : Party → Proto σ α) (st : Party → σ) (Q : (Party → α) → (Party → σ) → Prop) : Prop :=
  WP (fun i => p i (st i)) (fun r => Q (fun i => (r i).1) (fun i => (r i).2))

theorem WPS.mono {p : Party → Proto σ α} {st : Party → σ} {Q Q' : (Party → α) → (Party → σ) → Prop}
    (h : WPS p st Q) (hQ : ∀ a s, Q a s → Q' a s) : WPS p st Q' :=
  WP.mono h fun _ hr => hQ _ _ hr

theorem WPS.bind {p : Party → Proto σ α} {k : Party → α → Proto σ β} {st : Party → σ}
    {Q : (Party → β) → (Party → σ) → Prop}
    (h : WPS p st (fun a s => WPS (fun i => k i (a i)) s Q)) : WPS (fun i => p i >>= k i) st Q :=
  WP.bind (k := fun i (r : α × σ) => k i r.1 r.2) h

theorem WPS.pure {a : Party → α} {st : Party → σ} {Q : (Party → α) → (Party → σ) → Prop}
    (h : Q a st) : WPS (fun i => Pure.pure (a i)) st Q :=
  WP.ret (a := fun i => (a i, st i)) h

theorem WPS.net {p : Party → Prog α} {st : Party → σ} {Q : (Party → α) → (Party → σ) → Prop}
    (h : WP p (fun a => Q a st)) : WPS (fun i => Proto.net (p i)) st Q :=
  WP.bind (k := fun i (a : α) => Prog.ret (a, st i)) (h.mono fun a ha => WP.ret (a := fun i => (a i, st i)) ha)

theorem WPS.lift {r : Party → Except Err α} {a : Party → α} {st : Party → σ}
    {Q : (Party → α) → (Party → σ) → Prop} (hr : ∀ i, r i = .ok (a i)) (h : Q a st) :
    WPS (fun i => Proto.lift (r i)) st Q := by
  have : r = fun i => .ok (a i) := funext hr
  subst this
  exact WPS.net (p := fun i => Prog.ofExcept (.ok (a i))) (WP.ret h)

theorem WPS.step {f : Party → σ → α × σ} {st : Party → σ} {Q : (Party → α) → (Party → σ) → Prop}
    (h : Q (fun i => (f i (st i)).1) (fun i => (f i (st i)).2)) :
    WPS (fun i => Proto.step (f i)) st Q :=
  WP.ret (a := fun i => f i (st i)) h

theorem WPS.ite_neg {c : Party → Prop} [∀ i, Decidable (c i)] {p q : Party → Proto σ α}
    {st : Party → σ} {Q : (Party → α) → (Party → σ) → Prop} (hc : ∀ i, ¬ c i) (h : WPS q st Q) :
    WPS (fun i => if c i then p i else q i) st Q := by
  have : (fun i => if c i then p i else q i) = q := funext fun i => if_neg (hc i)
  rw [this]; exact h

theorem WPS.ite_pos {c : Party → Prop} [∀ i, Decidable (c i)] {p q : Party → Proto σ α}
    {st : Party → σ} {Q : (Party → α) → (Party → σ) → Prop} (hc : ∀ i, c i) (h : WPS p st Q) :
    WPS (fun i => if c i then p i else q i) st Q := by
  have : (fun i => if c i then p i else q i) = p := funext fun i => if_pos (hc i)
  rw [this]; exact h

theorem WPS.congr {p q : Party → Proto σ α} {st : Party → σ} {Q : (Party → α) → (Party → σ) → Prop}
    (hpq : ∀ i, p i = q i) (h : WPS q st Q) : WPS p st Q := by
  have : p = q := funext hpq
  rw [this]; exact h

/-- The final theorem form: under every schedule the parties succeed. -/
theorem WPS.allSchedules {p : Party → Proto σ α} {st : Party → σ}
    {Q : (Party → α) → (Party → σ) → Prop} (h : WPS p st Q) :
    EverySchedule p st Q := by
  obtain ⟨r, hr, hq⟩ := WP.anyCapacity h
  exact ⟨_, _, hr, hq⟩

/-! ## Joint lists -/

namespace Rels

variable {R : X → (Party → B) → Prop} {S : Y → (Party → C) → Prop} {T : Z → (Party → D) → Prop}

theorem length {xs : List X} {ls : Party → List B} (h : Rels R xs ls) (i : Party) :
    (ls i).length = xs.length := by
  obtain ⟨js, h1, rfl⟩ := h
  simp [h1.length_eq]

theorem nil : Rels R [] (fun _ => ([] : List B)) := ⟨[], .nil, rfl⟩

theorem cons {x : X} {b : Party → B} {xs : List X} {ls : Party → List B} (hx : R x b)
    (h : Rels R xs ls) : Rels R (x :: xs) (fun i => b i :: ls i) := by
  obtain ⟨js, h1, rfl⟩ := h
  exact ⟨b :: js, .cons hx h1, rfl⟩

theorem singleton {x : X} {b : Party → B} (hx : R x b) : Rels R [x] (fun i => [b i]) :=
  cons hx nil

theorem append {xs ys : List X} {ls ms : Party → List B} (h : Rels R xs ls) (h' : Rels R ys ms) :
    Rels R (xs ++ ys) (fun i => ls i ++ ms i) := by
  obtain ⟨js, h1, rfl⟩ := h
  obtain ⟨ks, h2, rfl⟩ := h'
  exact ⟨js ++ ks, List.rel_append h1 h2, by simp⟩

theorem forall₂_take {P : X → B → Prop} {xs : List X} {ys : List B} (h : List.Forall₂ P xs ys) (n : Nat) :
    List.Forall₂ P (xs.take n) (ys.take n) := by
  induction h generalizing n with
  | nil => simp
  | cons hx _ ih => cases n with
    | zero => simp
    | succ n => simp [hx, ih]

theorem forall₂_drop {P : X → B → Prop} {xs : List X} {ys : List B} (h : List.Forall₂ P xs ys) (n : Nat) :
    List.Forall₂ P (xs.drop n) (ys.drop n) := by
  induction h generalizing n with
  | nil => simp
  | cons hx h' ih => cases n with
    | zero => simp [hx, h']
    | succ n => simp [ih]

theorem take {xs : List X} {ls : Party → List B} (h : Rels R xs ls) (n : Nat) :
    Rels R (xs.take n) (fun i => (ls i).take n) := by
  obtain ⟨js, h1, rfl⟩ := h
  exact ⟨js.take n, forall₂_take h1 n, by simp⟩

theorem drop {xs : List X} {ls : Party → List B} (h : Rels R xs ls) (n : Nat) :
    Rels R (xs.drop n) (fun i => (ls i).drop n) := by
  obtain ⟨js, h1, rfl⟩ := h
  exact ⟨js.drop n, forall₂_drop h1 n, by simp⟩

theorem map {f : X → Y} {g : Party → B → C} (hf : ∀ x b, R x b → S (f x) (fun i => g i (b i)))
    {xs : List X} {ls : Party → List B} (h : Rels R xs ls) :
    Rels S (xs.map f) (fun i => (ls i).map (g i)) := by
  obtain ⟨js, h1, rfl⟩ := h
  refine ⟨js.map (fun s i => g i (s i)), ?_, by simp [Function.comp_def]⟩
  rw [List.forall₂_map_left_iff, List.forall₂_map_right_iff]
  exact h1.imp fun _ _ h => hf _ _ h

theorem imp {R' : X → (Party → B) → Prop} (hf : ∀ x b, R x b → R' x b)
    {xs : List X} {ls : Party → List B} (h : Rels R xs ls) : Rels R' xs ls := by
  obtain ⟨js, h1, rfl⟩ := h
  exact ⟨js, h1.imp fun _ _ h => hf _ _ h, rfl⟩

theorem zipWith {f : X → Y → Z} {g : Party → B → C → D}
    (hf : ∀ x y b c, R x b → S y c → T (f x y) (fun i => g i (b i) (c i)))
    {xs : List X} {ys : List Y} {ls : Party → List B} {ms : Party → List C}
    (h : Rels R xs ls) (h' : Rels S ys ms) :
    Rels T (List.zipWith f xs ys) (fun i => List.zipWith (g i) (ls i) (ms i)) := by
  obtain ⟨js, h1, rfl⟩ := h
  obtain ⟨ks, h2, rfl⟩ := h'
  refine ⟨List.zipWith (fun s t i => g i (s i) (t i)) js ks, ?_, ?_⟩
  · induction h1 generalizing ys ks with
    | nil => simp
    | cons hx _ ih => cases h2 with
      | nil => simp
      | cons hy h2' => simp only [List.zipWith_cons_cons]; exact .cons (hf _ _ _ _ hx hy) (ih _ h2')
  · funext i
    rw [List.zipWith_map, List.map_zipWith]

theorem uncons {x : X} {xs : List X} {ls : Party → List B} (h : Rels R (x :: xs) ls) :
    ∃ (b : Party → B) (ls' : Party → List B), R x b ∧ Rels R xs ls' ∧ ls = fun i => b i :: ls' i := by
  obtain ⟨js, h1, rfl⟩ := h
  cases h1 with
  | @cons _ b _ js' hx h1' => exact ⟨b, fun i => js'.map (fun s => s i), hx, ⟨js', h1', rfl⟩, rfl⟩

theorem eq_nil {ls : Party → List B} (h : Rels R ([] : List X) ls) : ls = fun _ => [] := by
  obtain ⟨js, h1, rfl⟩ := h
  cases h1; rfl

theorem get? {xs : List X} {ls : Party → List B} (h : Rels R xs ls) {n : Nat} {x : X}
    (hx : xs[n]? = some x) : ∃ b : Party → B, R x b ∧ ∀ i, (ls i)[n]? = some (b i) := by
  induction xs generalizing ls n with
  | nil => simp at hx
  | cons y ys ih =>
    obtain ⟨b, ls', hb, h', rfl⟩ := h.uncons
    cases n with
    | zero =>
      simp only [List.getElem?_cons_zero, Option.some.injEq] at hx
      subst hx
      exact ⟨b, hb, fun i => rfl⟩
    | succ n =>
      simp only [List.getElem?_cons_succ] at hx ⊢
      exact ih h' hx

theorem of_get? {xs : List X} {ls : Party → List B} (hl : ∀ i, (ls i).length = xs.length)
    (h : ∀ (n : Nat) (x : X), xs[n]? = some x → ∃ b : Party → B, R x b ∧ ∀ i, (ls i)[n]? = some (b i)) :
    Rels R xs ls := by
  induction xs generalizing ls with
  | nil =>
    have : ls = fun _ => [] := funext fun i => List.eq_nil_of_length_eq_zero (by simpa using hl i)
    subst this; exact nil
  | cons x xs ih =>
    obtain ⟨b, hb, hb'⟩ := h 0 x rfl
    have h2 : Rels R xs (fun i => (ls i).tail) := by
      apply ih
      · intro i; simp [hl i]
      · intro n y hy
        obtain ⟨c, hc, hc'⟩ := h (n + 1) y (by simpa using hy)
        exact ⟨c, hc, fun i => by rw [List.getElem?_tail]; exact hc' i⟩
    have h3 : ls = fun i => b i :: (ls i).tail := by
      funext i
      have := hb' i
      cases hli : ls i with
      | nil => rw [hli] at this; simp at this
      | cons a l => rw [hli] at this; simp at this; simp [this]
    rw [h3]
    exact cons hb h2

theorem idx {xs : List X} {ls : Party → List B} (h : Rels R xs ls) {n : Nat} {x : X}
    (hx : xs[n]? = some x) : ∃ b : Party → B, R x b ∧ ∀ i, Verif.idx (ls i) n = .ok (b i) := by
  obtain ⟨b, hb, hb'⟩ := h.get? hx
  exact ⟨b, hb, fun i => by simp [Verif.idx, hb' i]⟩

theorem flatten {xss : List (List X)} {lss : Party → List (List B)}
    (h : Rels (Rels R) xss lss) : Rels R xss.flatten (fun i => (lss i).flatten) := by
  induction xss generalizing lss with
  | nil => rw [h.eq_nil]; exact nil
  | cons xs xss ih =>
    obtain ⟨b, ls', hb, h', rfl⟩ := h.uncons
    exact append hb (ih h')

theorem chunksOf {xs : List X} {ls : Party → List B} (h : Rels R xs ls) (n : Nat) :
    Rels (Rels R) (Verif.chunksOf n xs) (fun i => Verif.chunksOf n (ls i)) := by
  induction hk : xs.length using Nat.strong_induction_on generalizing xs ls with
  | _ k ih =>
    by_cases hc : n = 0 ∨ xs = []
    · have h1 : Verif.chunksOf n xs = [] := by unfold Verif.chunksOf; rw [dif_pos hc]
      have h2 : (fun i => Verif.chunksOf n (ls i)) = fun _ => [] := by
        funext i
        have : n = 0 ∨ ls i = [] := by
          rcases hc with hc | hc
          · exact .inl hc
          · subst hc; rw [h.eq_nil]; exact .inr rfl
        unfold Verif.chunksOf; rw [dif_pos this]
      rw [h1, h2]; exact nil
    · have h1 : Verif.chunksOf n xs = xs.take n :: Verif.chunksOf n (xs.drop n) := by
        rw [Verif.chunksOf, dif_neg hc]
      have h2 : (fun i => Verif.chunksOf n (ls i))
          = fun i => (ls i).take n :: Verif.chunksOf n ((ls i).drop n) := by
        funext i
        rw [Verif.chunksOf, dif_neg]
        push Not at hc ⊢
        refine ⟨hc.1, fun hl => hc.2 ?_⟩
        have := h.length i
        rw [hl] at this
        exact List.eq_nil_of_length_eq_zero this.symm
      rw [h1, h2]
      push Not at hc
      have : 0 < xs.length := List.length_pos_iff.2 hc.2
      exact cons (h.take n) (ih _ (by simp only [List.length_drop]; omega) (h.drop n) rfl)

theorem chunksE {xs : List X} {ls : Party → List B} (h : Rels R xs ls) {n : Nat} (hn : n ≠ 0) :
    ∃ lss : Party → List (List B), Rels (Rels R) (Verif.chunksOf n xs) lss ∧
      ∀ i, Verif.chunksE n (ls i) = .ok (lss i) :=
  ⟨_, h.chunksOf n, fun i => by simp [Verif.chunksE, hn]⟩

end Rels

/-! ## Chunks -/

theorem chunksOf_flatten {α : Type} {n : Nat} (hn : n ≠ 0) (l : List α) : (chunksOf n l).flatten = l := by
  fun_induction chunksOf n l with
  | case1 l h =>
    rcases h with h | h
    · exact absurd h hn
    · simp [h]
  | case2 l h ih => simp [ih]

theorem chunksOf_length {α : Type} {n : Nat} (hn : n ≠ 0) (l : List α) :
    (chunksOf n l).length = (l.length + n - 1) / n := by
  fun_induction chunksOf n l with
  | case1 l h =>
    rcases h with h | h
    · exact absurd h hn
    · subst h
      simp
      rw [Nat.div_eq_of_lt (by omega)]
  | case2 l h ih =>
    push Not at h
    have hl : 0 < l.length := List.length_pos_iff.2 h.2
    have hn' : 0 < n := by omega
    simp only [List.length_cons, ih, List.length_drop]
    by_cases hc : n ≤ l.length
    · rw [show l.length + n - 1 = (l.length - n + n - 1) + n by omega, Nat.add_div_right _ hn']
    · rw [show l.length - n = 0 by omega, Nat.div_eq_of_lt (by omega),
        show l.length + n - 1 = (l.length - 1) + n by omega, Nat.add_div_right _ hn',
        Nat.div_eq_of_lt (by omega)]

theorem chunksOf_nil {α : Type} (n : Nat) : chunksOf n ([] : List α) = [] := by
  unfold chunksOf; simp

theorem chunksOf_cons {α : Type} {n : Nat} (hn : n ≠ 0) {l : List α} (hl : l ≠ []) :
    chunksOf n l = l.take n :: chunksOf n (l.drop n) := by
  rw [chunksOf, dif_neg]; push Not; exact ⟨hn, hl⟩

end Verif
