import Verif.Spec.Tamper
import Verif.Spec.Adversary
import Verif.Props.Spdz

/-!
# C58: the value opened by the SPDZ-wise backend is not protected

Negative result: the MAC check in `open` and `open_many` precedes the exchange of the components, and the exchange is
that of semi-honest ABY3. Any one corrupt party `c` can make its successor accept any value, while the third party
accepts the right one.
-/

namespace Verif

open Spdz

variable {G : Prg} {H : Hash} {K V : Nat}

theorem corrupt_run_at {σ α : Type} {c : Party} {p p' q : Party → Proto σ α} {st : Party → σ}
    {Q : (Party → α) → (Party → σ) → Prop} (h : WPS p st Q) (h0 : p c = q c) (h1 : ∀ i, i ≠ c → p i = p' i) :
    ∃ (a : Party → α) (st' : Party → σ),
      AllSchedules (corrupt (fun i => p' i (st i)) c (q c (st c))) (fun i => (a i, st' i)) ∧ Q a st' := by
  obtain ⟨a, st', h, hq⟩ := h.allSchedules
  refine ⟨a, st', ?_, hq⟩
  convert h.1 using 1
  funext i
  unfold corrupt
  by_cases hi : i = c
  · subst hi; rw [if_pos rfl, h0]
  · rw [if_neg hi, h1 i hi]

theorem openList_off {xs : List (BitVec V)} {s : Party → List (SShare V)} {key : BitVec V} (hs : Rels (MacSharesOf key) xs s)
    (c i : Party) (hi : i ≠ c) (es : List (BitVec V)) (he : es.length = xs.length) :
    List.zipWith (fun (s : AShare V) b => b + s.a + s.b) ((s i).map (·.value))
      ((if i.prev = c then List.zipWith (fun (s : SShare V) e => (⟨s.value.a, s.value.b + e⟩ : AShare V)) (s i.prev) es
        else (s i.prev).map (·.value)).map (·.b)) =
      if i = c.next then List.zipWith (· + ·) xs es else xs := by
  induction xs generalizing s es with
  | nil =>
    rw [hs.eq_nil]
    split <;> simp
  | cons x xs ih =>
    obtain ⟨s0, ss, h0, h', rfl⟩ := hs.uncons
    obtain ⟨e, es, rfl⟩ : ∃ e es', es = e :: es' := by
      cases es with
      | nil => simp at he
      | cons e es => exact ⟨e, es, rfl⟩
    have := ih h' es (by simpa using he)
    have ho := h0.1.open_eq i
    by_cases h : i = c.next
    · subst h
      have hp : c.next.prev = c := (by decide : ∀ c : Party, c.next.prev = c) c
      simp only [hp, if_true, List.map_cons, List.zipWith_cons_cons] at this ho ⊢
      rw [this]
      congr 1
      rw [← ho]; ring
    · have hp : i.prev ≠ c := (by decide : ∀ i c : Party, i ≠ c.next → i.prev ≠ c) i c h
      simp only [hp, h, if_false, List.map_cons, List.zipWith_cons_cons] at this ho ⊢
      rw [this]
      congr 1
      rw [← ho]; ring

/-- **Many values.** Party `c` runs `tamperOpenMany`, the other two run `open_many` of the repository on valid
authenticated shares. Under every schedule no check fails; the successor of `c` accepts the values changed by the errors
`es` chosen by `c`, the predecessor accepts the values themselves. -/
theorem C58_open_many (key : BitVec V) (p u : Nat) (xs : List (BitVec V)) (s : Party → List (SShare V))
    (hs : Rels (MacSharesOf key) xs s) (c : Party) (es : List (BitVec V)) (he : es.length = xs.length)
    (st : Party → SpdzSt G V) (hst : SpdzOk key p u st) :
    ∃ (r : Party → List (BitVec K)) (st' : Party → SpdzSt G V),
      AllSchedules (corrupt (fun i => openMany H K i (s i) (st i)) c (tamperOpenMany H K c es (s c) (st c)))
        (fun i => (r i, st' i)) ∧
      r c.next = (List.zipWith (· + ·) xs es).map (·.setWidth K) ∧ r c.prev = xs.map (·.setWidth K) := by
  refine corrupt_run_at (c := c)
    (p := fun i => do
      queueAll (s i)
      verifyMacs H i
      let result ← viaAby (Aby3.openMany i (if i = c then List.zipWith (fun s e => ⟨s.value.a, s.value.b + e⟩) (s i) es
        else (s i).map (·.value)))
      pure (result.map (fromVerif K)))
    (p' := fun i => openMany H K i (s i)) (q := fun i => tamperOpenMany H K i es (s i))
    (Q := fun r _ => r c.next = (List.zipWith (· + ·) xs es).map (·.setWidth K) ∧ r c.prev = xs.map (·.setWidth K)) ?_
    (by simp only [if_true]; rfl) (fun i hi => by simp only [if_neg hi]; rfl)
  refine WPS.bind ((queueAll_wp hst hs).mono ?_)
  rintro _ st1 hI
  refine WPS.bind ((verifyMacs_wp hI).mono ?_)
  rintro _ st2 ⟨hI, -⟩
  refine WPS.bind (WPS.mono (viaAby_wp hI (Q := fun r => ∀ i, i ≠ c → r i = if i = c.next then
    List.zipWith (· + ·) xs es else xs) fun st' hA => ?_) ?_)
  · unfold Aby3.openMany
    refine WPS.bind (WPS.net (WP.exchangeSlice (x := fun i => (if i = c then List.zipWith (fun (s : SShare V) e =>
      (⟨s.value.a, s.value.b + e⟩ : AShare V)) (s i) es else (s i).map (·.value)).map (·.b)) (fun i => ?_) ?_))
    · have hl : ∀ i, (if i = c then List.zipWith (fun (s : SShare V) e =>
          (⟨s.value.a, s.value.b + e⟩ : AShare V)) (s i) es else (s i).map (·.value)).length = xs.length := by
        intro i
        split
        · simp [hs.length, he]
        · simp [hs.length]
      simp only [List.length_map, hl]
    · refine WPS.pure (a := fun i => _) ⟨fun i hi => ?_, hA⟩
      simp only [if_neg hi]
      exact openList_off hs c i hi es he
  · rintro r st3 ⟨h, -⟩
    refine WPS.pure (a := fun i => (r i).map (fromVerif K)) ⟨?_, ?_⟩
    · show List.map _ (r _) = _
      rw [h c.next ((by decide : ∀ c : Party, c.next ≠ c) c), if_pos rfl]; rfl
    · show List.map _ (r _) = _
      rw [h c.prev ((by decide : ∀ c : Party, c.prev ≠ c) c), if_neg ((by decide : ∀ c : Party, c.prev ≠ c.next) c)]; rfl

/-- **One value.** Party `c` chooses what its successor accepts: `target` is arbitrary. -/
theorem C58_open (key : BitVec V) (p u : Nat) (x target : BitVec V) (s : Party → SShare V) (hs : MacSharesOf key x s)
    (c : Party) (st : Party → SpdzSt G V) (hst : SpdzOk key p u st) :
    ∃ (e : BitVec V) (r : Party → BitVec K) (st' : Party → SpdzSt G V),
      AllSchedules (corrupt (fun i => openShare H K i (s i) (st i)) c (tamperOpen H K c e (s c) (st c)))
        (fun i => (r i, st' i)) ∧
      r c.next = target.setWidth K ∧ r c.prev = x.setWidth K := by
  refine ⟨target - x, ?_⟩
  refine corrupt_run_at (c := c)
    (p := fun i => do
      queueAll [s i]
      verifyMacs H i
      let result ← viaAby (Aby3.openShare i (if i = c then ⟨(s i).value.a, (s i).value.b + (target - x)⟩ else (s i).value))
      pure (fromVerif K result))
    (p' := fun i => openShare H K i (s i)) (q := fun i => tamperOpen H K i (target - x) (s i))
    (Q := fun r _ => r c.next = target.setWidth K ∧ r c.prev = x.setWidth K) ?_
    (by simp only [if_true]; rfl) (fun i hi => by simp only [if_neg hi]; rfl)
  refine WPS.bind ((queueAll_wp hst (Rels.singleton hs)).mono ?_)
  rintro _ st1 hI
  refine WPS.bind ((verifyMacs_wp hI).mono ?_)
  rintro _ st2 ⟨hI, -⟩
  refine WPS.bind (WPS.mono (viaAby_wp hI (Q := fun r => r c.next = target ∧ r c.prev = x) fun st' hA => ?_) ?_)
  · unfold Aby3.openShare
    refine WPS.bind (WPS.net (WP.exchangeValue (x := fun i => (if i = c then
      (⟨(s i).value.a, (s i).value.b + (target - x)⟩ : AShare V) else (s i).value).b) ?_))
    refine WPS.pure (a := fun i => _) ⟨⟨?_, ?_⟩, hA⟩
    · have hp : c.next.prev = c := (by decide : ∀ c : Party, c.next.prev = c) c
      have hn : c.next ≠ c := (by decide : ∀ c : Party, c.next ≠ c) c
      have := hs.1.open_eq c.next
      simp only [hp] at this
      simp only [hp, hn, if_true, if_false]
      rw [← this]; ring
    · have hp : c.prev.prev ≠ c := (by decide : ∀ c : Party, c.prev.prev ≠ c) c
      have hn : c.prev ≠ c := (by decide : ∀ c : Party, c.prev ≠ c) c
      have := hs.1.open_eq c.prev
      simp only [hp, hn, if_false]
      exact this
  · rintro r st3 ⟨⟨h1, h2⟩, -⟩
    exact WPS.pure (a := fun i => fromVerif K (r i)) ⟨by simp only [h1]; rfl, by simp only [h2]; rfl⟩

/-- In contrast the value opened by the honest protocol is right at all parties (C54), and the opening of bits used by
the queries checks the exchanged components (C22). A concrete case: shares of `5` under the MAC key `3`. -/
example : MacSharesOf (3 : BitVec 64) 5 (exMacShare 3 5) ∧ SpdzOk (G := exPrg) (3 : BitVec 64) 0 0 (exSpdzSt 3) ∧
    Rels (MacSharesOf (3 : BitVec 64)) [5] (fun i => [exMacShare 3 5 i]) ∧ ([1] : List (BitVec 64)).length = [(5 : BitVec 64)].length :=
  ⟨exMacShare_ok 3 5, exSpdzSt_ok 3, Rels.singleton (exMacShare_ok 3 5), rfl⟩

end Verif
