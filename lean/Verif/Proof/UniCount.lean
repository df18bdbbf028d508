import Verif.Proof.UniAby3
import Mathlib.Data.Set.Finite.List

/-!
# From uniform views to counts
-/

namespace Verif

section replay

variable {α β : Type}

/-- What a program returns when it receives exactly the messages of a log. -/
def Prog.replay : Prog α → Log → Option α
  | .ret a, [] => some a
  | .ret _, _ :: _ => none
  | .fail _, _ => none
  | .send _ _ k, l => k.replay l
  | .recv _ _, [] => none
  | .recv s k, x :: l => if x.1 = s then (k x.2).replay l else none

/-- Recording changes nothing, and the outcome of a party is a function of its program and its log. -/
theorem record_inv {n : Nat} {c : Config (Log × α)} {r : Party → Log × α} (h : BStepsN two n c (Config.final r)) :
    ∀ (q : Party → Prog α) (l : Party → Log), (∀ j, c.prog j = (q j).record (l j)) →
    BStepsN two n ⟨q, c.chan⟩ (Config.final fun j => (r j).2) ∧
    ∀ j, ∃ ms, (r j).1 = l j ++ ms ∧ (q j).replay ms = some (r j).2 := by
  generalize hd : Config.final r = d at h
  induction h with
  | zero c =>
    subst hd
    intro q l hq
    have hq' : ∀ j, q j = .ret (r j).2 ∧ (r j).1 = l j := by
      intro j
      have := hq j
      cases hqj : q j with
      | ret a =>
        rw [hqj] at this
        simp only [Config.final, Config.init, Prog.record, Prog.ret.injEq] at this
        rw [this]; exact ⟨rfl, rfl⟩
      | fail e => rw [hqj] at this; cases this
      | send d m k => rw [hqj] at this; cases this
      | recv s k => rw [hqj] at this; cases this
    refine ⟨?_, fun j => ⟨[], by simp [(hq' j).2], by simp [(hq' j).1, Prog.replay]⟩⟩
    rw [show q = fun j => .ret (r j).2 from funext fun j => (hq' j).1]
    exact .zero _
  | @succ n c c' c'' k hk ht ih =>
    intro q l hq
    cases hk with
    | @send d m p hp hroom =>
      have := hq k
      rw [hp] at this
      cases hqk : q k with
      | ret a => rw [hqk] at this; cases this
      | fail e => rw [hqk] at this; cases this
      | recv s k => rw [hqk] at this; cases this
      | send d' m' k' =>
        rw [hqk] at this
        simp only [Prog.record, Prog.send.injEq] at this
        obtain ⟨rfl, rfl, rfl⟩ := this
        obtain ⟨h1, h2⟩ := ih hd (Function.update q k k') l (fun j => by
          by_cases hj : j = k
          · subst hj; simp
          · simp [Function.update_of_ne hj, hq j])
        refine ⟨.succ k (.send (c := ⟨q, c.chan⟩) hqk hroom) h1, fun j => ?_⟩
        obtain ⟨ms, h3, h4⟩ := h2 j
        refine ⟨ms, h3, ?_⟩
        by_cases hj : j = k
        · subst hj
          rw [hqk, Prog.replay]
          simpa using h4
        · simpa [Function.update_of_ne hj] using h4
    | @recv s m p rest hp hc =>
      have := hq k
      rw [hp] at this
      cases hqk : q k with
      | ret a => rw [hqk] at this; cases this
      | fail e => rw [hqk] at this; cases this
      | send d m k => rw [hqk] at this; cases this
      | recv s' k' =>
        rw [hqk] at this
        simp only [Prog.record, Prog.recv.injEq] at this
        obtain ⟨rfl, rfl⟩ := this
        obtain ⟨h1, h2⟩ := ih hd (Function.update q k (k' m)) (Function.update l k (l k ++ [(s, m)])) (fun j => by
          by_cases hj : j = k
          · subst hj; simp
          · simp [Function.update_of_ne hj, hq j])
        refine ⟨.succ k (.recv (c := ⟨q, c.chan⟩) hqk hc) h1, fun j => ?_⟩
        obtain ⟨ms, h3, h4⟩ := h2 j
        by_cases hj : j = k
        · subst hj
          simp only [Function.update_self] at h3 h4
          refine ⟨(s, m) :: ms, by simpa using h3, ?_⟩
          rw [hqk, Prog.replay]
          simpa using h4
        · refine ⟨ms, by simpa [Function.update_of_ne hj] using h3, by simpa [Function.update_of_ne hj] using h4⟩

theorem Runs.erase {p : Party → Prog α} {acc : Party → Log} {r : Party → Log × α}
    (h : Runs (fun j => (p j).record (acc j)) r) : Runs p fun j => (r j).2 := by
  obtain ⟨n, hn⟩ := h
  exact ⟨n, (record_inv hn p acc fun _ => rfl).1⟩

theorem Runs.replay {p : Party → Prog α} {acc : Party → Log} {r : Party → Log × α}
    (h : Runs (fun j => (p j).record (acc j)) r) {i : Party} {ms : Log} (hi : (r i).1 = acc i ++ ms) :
    (p i).replay ms = some (r i).2 := by
  obtain ⟨n, hn⟩ := h
  obtain ⟨ms', h1, h2⟩ := (record_inv hn p acc fun _ => rfl).2 i
  rw [hi] at h1
  rwa [← List.append_cancel_left h1] at h2

/-- Every run can be recorded. -/
theorem record_exists {n : Nat} {c : Config α} {r : Party → α} (h : BStepsN two n c (Config.final r)) :
    ∀ (l : Party → Log), ∃ l' : Party → Log,
      BStepsN two n ⟨fun j => (c.prog j).record (l j), c.chan⟩ (Config.final fun j => (l' j, r j)) := by
  generalize hd : Config.final r = d at h
  induction h with
  | zero c => subst hd; exact fun l => ⟨l, .zero _⟩
  | @succ n c c' c'' k hk ht ih =>
    intro l
    cases hk with
    | @send d m p hp hroom =>
      obtain ⟨l', h'⟩ := ih hd l
      refine ⟨l', .succ k (.send (c := ⟨fun j => (c.prog j).record (l j), c.chan⟩) (d := d) (m := m) (k := p.record (l k))
        (by simp [hp, Prog.record]) hroom) ?_⟩
      convert h' using 2
      funext j
      by_cases hj : j = k
      · subst hj; simp
      · simp [Function.update_of_ne hj]
    | @recv s m p rest hp hc =>
      obtain ⟨l', h'⟩ := ih hd (Function.update l k (l k ++ [(s, m)]))
      refine ⟨l', .succ k (.recv (c := ⟨fun j => (c.prog j).record (l j), c.chan⟩) (s := s) (m := m)
        (k := fun m => (p m).record (l k ++ [(s, m)])) (by simp [hp, Prog.record]) hc) ?_⟩
      convert h' using 2
      funext j
      by_cases hj : j = k
      · subst hj; simp
      · simp [Function.update_of_ne hj]

theorem Runs.recorded {p : Party → Prog α} {r : Party → α} (h : Runs p r) (l : Party → Log) :
    ∃ l' : Party → Log, Runs (fun j => (p j).record (l j)) fun j => (l' j, r j) := by
  obtain ⟨n, hn⟩ := h
  obtain ⟨l', h'⟩ := record_exists hn l
  exact ⟨l', n, h'⟩

/-- The log is unique. -/
theorem AllSchedules.unique {p : Party → Prog α} {r r' : Party → α} (h : AllSchedules p r) (h' : Runs p r') : r = r' := by
  obtain ⟨n, hn⟩ := h'.steps
  have := (h.2 n _ hn (Config.stuck_final r')).1
  funext i
  have hi := this i
  simp only [Config.final, Config.init, Prog.ret.injEq] at hi
  exact hi.symm

theorem Sees.of_runs {p : Party → Prog α} {i : Party} {r : Party → Log × α} (h : Runs (fun j => (p j).record []) r)
    (v : Log) : Sees p i v ↔ v = (r i).1 := by
  constructor
  · rintro ⟨r', h', rfl⟩
    rw [h'.unique h]
  · rintro rfl
    exact ⟨r, h.allSchedules, rfl⟩

end replay

/-- The counting argument: if every message sequence `msgs F w`, completed to `full w`, is seen with some piece of the
tape, then it is seen with exactly one. -/
theorem viewCount_of {α : Type} {p : Party → Proto (Aby3St bitPrg) α} {st : Party → Aby3St bitPrg} {i : Party}
    {F : List (Nat × Nat)} {tail : List Bool → Log}
    (h : ∀ w : List Bool, w.length = fmtSize F → ∃ u : List Bool, u.length = fmtSize F ∧ ∀ rest v,
      Sees (fun j => p j (withTape i (u ++ rest) st j)) i v ↔ v = msgs i.prev F w ++ tail w)
    (n : Nat) (hn : fmtSize F ≤ n) (v : Log)
    (htail : ∃ k, ∀ w : List Bool, w.length = fmtSize F → (tail w).length = k) :
    viewCount p st i n v = Set.ncard {t : List Bool | t.length = n ∧
      v = msgs i.prev F (t.take (fmtSize F)) ++ tail (t.take (fmtSize F))} := by
  classical
  have h' : ∀ w : List Bool, ∃ u : List Bool, w.length = fmtSize F → u.length = fmtSize F ∧ ∀ rest v,
      Sees (fun j => p j (withTape i (u ++ rest) st j)) i v ↔ v = msgs i.prev F w ++ tail w := fun w => by
    by_cases hw : w.length = fmtSize F
    · obtain ⟨u, hu⟩ := h w hw
      exact ⟨u, fun _ => hu⟩
    · exact ⟨[], fun h => absurd h hw⟩
  choose U hU using h'
  obtain ⟨k, hk⟩ := htail
  let Φ : List Bool → List Bool := fun t => U (t.take (fmtSize F)) ++ t.drop (fmtSize F)
  have hlen : ∀ t : List Bool, t.length = n → (t.take (fmtSize F)).length = fmtSize F := fun t ht => by
    simp only [List.length_take]; omega
  have hmaps : ∀ t : List Bool, t.length = n → (Φ t).length = n := fun t ht => by
    have := (hU _ (hlen t ht)).1
    simp only [Φ, List.length_append, List.length_drop]
    omega
  have hsee : ∀ t : List Bool, t.length = n → ∀ v, Sees (fun j => p j (withTape i (Φ t) st j)) i v ↔
      v = msgs i.prev F (t.take (fmtSize F)) ++ tail (t.take (fmtSize F)) := fun t ht v =>
    (hU _ (hlen t ht)).2 (t.drop (fmtSize F)) v
  have hinj : ∀ t t' : List Bool, t.length = n → t'.length = n → Φ t = Φ t' → t = t' := by
    intro t t' ht ht' he
    have h1 := (hsee t ht _).2 rfl
    rw [he] at h1
    have h2 := (hsee t' ht' _).1 h1
    have h3 : msgs i.prev F (t.take (fmtSize F)) = msgs i.prev F (t'.take (fmtSize F)) :=
      List.append_inj_left' h2 (by rw [hk _ (hlen t ht), hk _ (hlen t' ht')])
    have h4 := msgs_inj _ (hlen t ht) (hlen t' ht') h3
    have h5 : t.drop (fmtSize F) = t'.drop (fmtSize F) := by
      simp only [Φ] at he
      exact List.append_inj_right he (by rw [(hU _ (hlen t ht)).1, (hU _ (hlen t' ht')).1])
    rw [← List.take_append_drop (fmtSize F) t, ← List.take_append_drop (fmtSize F) t', h4, h5]
  have hsurj : ∀ t : List Bool, t.length = n → ∃ t', t'.length = n ∧ Φ t' = t := by
    intro t ht
    have hfin : {l : List Bool | l.length = n}.Finite := List.finite_length_eq Bool n
    obtain ⟨a, ha, e⟩ := Set.surj_on_of_inj_on_of_ncard_le (s := {l : List Bool | l.length = n})
      (t := {l : List Bool | l.length = n}) (fun a _ => Φ a) (fun a ha => hmaps a ha)
      (fun a b ha hb he => hinj a b ha hb he) le_rfl hfin t ht
    exact ⟨a, ha, e.symm⟩
  unfold viewCount
  rw [← Set.InjOn.ncard_image (f := Φ) (s := {t : List Bool | t.length = n ∧
      v = msgs i.prev F (t.take (fmtSize F)) ++ tail (t.take (fmtSize F))})
    (fun a ha b hb he => hinj a b ha.1 hb.1 he)]
  congr 1
  ext t
  constructor
  · rintro ⟨ht, hs⟩
    obtain ⟨t', ht', rfl⟩ := hsurj t ht
    exact ⟨t', ⟨ht', (hsee t' ht' v).1 hs⟩, rfl⟩
  · rintro ⟨t', ⟨ht', hv⟩, rfl⟩
    exact ⟨hmaps t' ht', (hsee t' ht' v).2 hv⟩

/-- Uniform views have the same distribution for all inputs. -/
theorem Uni.viewCount {α : Type} {i : Party} {F : List (Nat × Nat)} {p : Party → Proto (Aby3St bitPrg) α}
    {Q : (Party → α) → Prop} (h : Uni i F p Q) (st : Party → Aby3St bitPrg) (n : Nat) (hn : fmtSize F ≤ n) (v : Log) :
    viewCount p st i n v = Set.ncard {t : List Bool | t.length = n ∧ v = msgs i.prev F (t.take (fmtSize F))} := by
  have := viewCount_of (p := p) (st := st) (i := i) (F := F) (tail := fun _ => []) (fun w hw => ?_) n hn v ⟨0, fun _ _ => rfl⟩
  · simpa using this
  · obtain ⟨u, a, t, l, h1, -, h3, h4⟩ := h st (fun _ => []) w hw
    refine ⟨u, h1, fun rest v => ?_⟩
    rw [Sees.of_runs (h4 rest), h3]
    simp

end Verif
