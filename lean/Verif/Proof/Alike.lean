import Verif.Spec.Traffic
import Verif.Proof.Proto

/-!
# Programs with the same traffic: a relational calculus
-/

namespace Verif

/-- Two programs that perform the same actions whatever they receive, until one of them gives up; results are related by `R`. -/
inductive Alike {α β : Type} (R : α → β → Prop) : Prog α → Prog β → Prop
  | ret {a b} (h : R a b) : Alike R (.ret a) (.ret b)
  | failL {e q} : Alike R (.fail e) q
  | failR {p e} : Alike R p (.fail e)
  | send {d m m' k k'} (h : m.length = m'.length) (t : Alike R k k') : Alike R (.send d m k) (.send d m' k')
  | recv {s k k'} (t : ∀ m m', Alike R (k m) (k' m')) : Alike R (.recv s k) (.recv s k')

namespace Alike

theorem looksLike {α β : Type} {R : α → β → Prop} {p : Prog α} {q : Prog β} (h : Alike R p q) :
    ∀ i i', (p.traffic i).LooksLike (q.traffic i') := by
  induction h with
  | ret h => intro i i'; simp [Prog.traffic, Traffic.LooksLike]
  | failL => intro i i'; simp [Prog.traffic, Traffic.LooksLike]
  | failR => intro i i'; simp [Prog.traffic, Traffic.LooksLike]
  | send h t ih =>
      intro i i'
      have := ih i i'
      simpa [Prog.traffic, Traffic.LooksLike, h, List.cons_prefix_cons] using this
  | recv t ih =>
      intro i i'
      have := ih (i 0) (i' 0) (fun n => i (n + 1)) (fun n => i' (n + 1))
      simpa [Prog.traffic, Traffic.LooksLike, List.cons_prefix_cons] using this

theorem bind {α β α' β' : Type} {R : α → β → Prop} {R' : α' → β' → Prop} {p : Prog α} {q : Prog β} {f : α → Prog α'}
    {g : β → Prog β'} (h : Alike R p q) (hf : ∀ a b, R a b → Alike R' (f a) (g b)) : Alike R' (p >>= f) (q >>= g) := by
  induction h with
  | ret h => exact hf _ _ h
  | failL => exact .failL
  | failR => exact .failR
  | send h t ih => exact .send h ih
  | recv t ih => exact .recv ih

theorem mono {α β : Type} {R R' : α → β → Prop} {p : Prog α} {q : Prog β} (h : Alike R p q) (hr : ∀ a b, R a b → R' a b) :
    Alike R' p q := by
  induction h with
  | ret h => exact .ret (hr _ _ h)
  | failL => exact .failL
  | failR => exact .failR
  | send h t ih => exact .send h ih
  | recv t ih => exact .recv ih

theorem ofExcept {α β : Type} {R : α → β → Prop} {x : Except Err α} {y : Except Err β}
    (h : ∀ a b, x = .ok a → y = .ok b → R a b) : Alike R (Prog.ofExcept x) (Prog.ofExcept y) := by
  cases x with
  | error e => exact .failL
  | ok a => cases y with
    | error e => exact .failR
    | ok b => exact .ret (h a b rfl rfl)

theorem unwrap {α β : Type} {R : α → β → Prop} {p : Prog α} {q : Prog β} (h : Alike R p q) : Alike R p.unwrap q.unwrap := by
  induction h with
  | ret h => exact .ret h
  | failL => exact .failL
  | failR => exact .failR
  | send h t ih => exact .send h ih
  | recv t ih => exact .recv ih

end Alike

/-- The same for stateful code; `S` relates the local states. -/
def PA {σ τ α β : Type} (S : σ → τ → Prop) (R : α → β → Prop) (p : Proto σ α) (q : Proto τ β) : Prop :=
  ∀ s t, S s t → Alike (fun x y => R x.1 y.1 ∧ S x.2 y.2) (p s) (q t)

/-- No constraint. -/
abbrev Any {α β : Type} : α → β → Prop := fun _ _ => True

/-- Lists of equal length. -/
abbrev SL {α β : Type} (x : List α) (y : List β) : Prop := x.length = y.length

/-- Lists of lists of the same shape. -/
abbrev Shape {α β : Type} (x : List (List α)) (y : List (List β)) : Prop := List.Forall₂ SL x y

namespace PA

variable {σ τ α β α' β' : Type} {S : σ → τ → Prop} {R : α → β → Prop} {R' : α' → β' → Prop}

theorem bind {p : Proto σ α} {q : Proto τ β} {f : α → Proto σ α'} {g : β → Proto τ β'} (h : PA S R p q)
    (hf : ∀ a b, R a b → PA S R' (f a) (g b)) : PA S R' (p >>= f) (q >>= g) := by
  intro s t hst
  exact (h s t hst).bind fun a b hab => hf a.1 b.1 hab.1 a.2 b.2 hab.2

theorem pure {a : α} {b : β} (h : R a b) : PA S R (pure a : Proto σ α) (pure b : Proto τ β) := fun _ _ hst => .ret ⟨h, hst⟩

theorem throwL {e : Err} {q : Proto τ β} : PA S R (Proto.throw e : Proto σ α) q := fun _ _ _ => .failL
theorem throwR {p : Proto σ α} {e : Err} : PA S R p (Proto.throw e : Proto τ β) := fun _ _ _ => .failR

theorem net {p : Prog α} {q : Prog β} (h : Alike R p q) : PA S R (Proto.net p : Proto σ α) (Proto.net q : Proto τ β) :=
  fun _ _ hst => h.bind fun _ _ hab => .ret ⟨hab, hst⟩

theorem lift {x : Except Err α} {y : Except Err β} (h : ∀ a b, x = .ok a → y = .ok b → R a b) :
    PA S R (Proto.lift x : Proto σ α) (Proto.lift y : Proto τ β) := net (Alike.ofExcept h)

theorem step {f : σ → α × σ} {g : τ → β × τ} (h : ∀ s t, S s t → R (f s).1 (g t).1 ∧ S (f s).2 (g t).2) :
    PA S R (Proto.step f) (Proto.step g) := fun s t hst => .ret (h s t hst)

theorem get : PA S S (get : Proto σ σ) (get : Proto τ τ) := fun _ _ hst => .ret ⟨hst, hst⟩

theorem mono {R₂ : α → β → Prop} {p : Proto σ α} {q : Proto τ β} (h : PA S R p q) (hr : ∀ a b, R a b → R₂ a b) :
    PA S R₂ p q := fun s t hst => (h s t hst).mono fun _ _ hab => ⟨hr _ _ hab.1, hab.2⟩

theorem unwrap {p : Proto σ α} {q : Proto τ β} (h : PA S R p q) : PA S R p.unwrap q.unwrap :=
  fun s t hst => (h s t hst).unwrap

theorem zoom {σ' τ' : Type} {S' : σ' → τ' → Prop} {gt : σ → σ'} {st : σ → σ' → σ} {gt' : τ → τ'} {st' : τ → τ' → τ}
    {p : Proto σ' α} {q : Proto τ' β} (h : PA S' R p q) (hg : ∀ s t, S s t → S' (gt s) (gt' t))
    (hs : ∀ s t x y, S s t → S' x y → S (st s x) (st' t y)) : PA S R (Proto.zoom gt st p) (Proto.zoom gt' st' q) :=
  fun s t hst => (h _ _ (hg s t hst)).bind fun _ _ hab => .ret ⟨hab.1, hs _ _ _ _ hst hab.2⟩

/-- A test whose failure ends the function. -/
theorem guard {c c' : Prop} [Decidable c] [Decidable c'] {e e' : Err} {p : Proto σ α} {q : Proto τ β}
    (h : ¬ c → ¬ c' → PA S R p q) : PA S R (if c then Proto.throw e else p) (if c' then Proto.throw e' else q) := by
  by_cases hc : c
  · simp only [hc, if_true]; exact throwL
  · by_cases hc' : c'
    · simp only [hc', if_true]; exact throwR
    · simpa only [hc, hc', if_false] using h hc hc'

end PA

/-! ## Executions of the three parties -/

theorem Watched.traffic {α : Type} {c c' : Config α} {es : List (Party × WireEvent)} (h : Watched c es c') (i : Party)
    (hr : ∃ a, c'.prog i = .ret a) : ∃ inbox, (c.prog i).traffic inbox = ⟨actionsOf i es, true⟩ := by
  induction h with
  | nil c => obtain ⟨a, ha⟩ := hr; exact ⟨fun _ => [], by simp [ha, Prog.traffic, actionsOf]⟩
  | @send c c' es j d m k h t ih =>
      obtain ⟨inbox, hi⟩ := ih hr
      by_cases hj : j = i
      · subst hj
        refine ⟨inbox, ?_⟩
        simp only [Function.update_self] at hi
        rw [h]; simp [Prog.traffic, hi, actionsOf]
      · refine ⟨inbox, ?_⟩
        simp only [Function.update_of_ne (Ne.symm hj)] at hi
        rw [hi]; simp [actionsOf, hj]
  | @recv c c' es j s m k rest h hc t ih =>
      obtain ⟨inbox, hi⟩ := ih hr
      by_cases hj : j = i
      · subst hj
        refine ⟨fun n => match n with | 0 => m | n + 1 => inbox n, ?_⟩
        simp only [Function.update_self] at hi
        rw [h]; simp [Prog.traffic, hi, actionsOf]
      · refine ⟨inbox, ?_⟩
        simp only [Function.update_of_ne (Ne.symm hj)] at hi
        rw [hi]; simp [actionsOf, hj]

theorem SameOnWire.of_looksLike {α β : Type} {p : Party → Prog α} {q : Party → Prog β}
    (h : ∀ i inbox inbox', ((p i).traffic inbox).LooksLike ((q i).traffic inbox')) : SameOnWire p q := by
  intro es es' c c' hw hw' hr hr' i
  obtain ⟨u, hu⟩ := hw.traffic i (hr i)
  obtain ⟨v, hv⟩ := hw'.traffic i (hr' i)
  have := h i u v
  simp only [Config.init] at hu hv
  rw [hu, hv] at this
  exact (this.2.2 rfl).eq_of_length_le (this.2.1 rfl).length_le

end Verif
