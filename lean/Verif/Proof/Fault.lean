import Verif.Model.Fault
import Verif.Proof.Net
import Mathlib.Data.Fintype.Card
import Mathlib.Data.Fintype.Prod

/-! # Executions with crashes and broken connections -/

namespace Verif

open Function

variable {α : Type}

/-! ## Histories -/

/-- An action of a party. -/
inductive Ev
  | sent (d : Party) (m : Bytes)
  | got (s : Party) (m : Bytes)

/-- The messages to `d` in a history. -/
def outs (d : Party) : List Ev → List Bytes
  | [] => []
  | .sent d' m :: es => if d' = d then m :: outs d es else outs d es
  | .got _ _ :: es => outs d es

/-- The messages from `s` in a history. -/
def ins (s : Party) : List Ev → List Bytes
  | [] => []
  | .got s' m :: es => if s' = s then m :: ins s es else ins s es
  | .sent _ _ :: es => ins s es

theorem outs_append (d : Party) (a b : List Ev) : outs d (a ++ b) = outs d a ++ outs d b := by
  induction a with
  | nil => rfl
  | cons e a ih => cases e <;> simp only [List.cons_append, outs, ih]; split_ifs <;> rfl

theorem ins_append (s : Party) (a b : List Ev) : ins s (a ++ b) = ins s a ++ ins s b := by
  induction a with
  | nil => rfl
  | cons e a ih => cases e <;> simp only [List.cons_append, ins, ih]; split_ifs <;> rfl

/-- What remains of a program after a history. -/
def restOf : Prog α → List Ev → Prog α
  | p, [] => p
  | .send _ _ k, _ :: es => restOf k es
  | .recv _ k, .got _ m :: es => restOf (k m) es
  | .recv _ _, .sent _ _ :: _ => .fail .panic
  | p, _ => p

theorem rest_send {p k : Prog α} {d : Party} {m : Bytes} {a : List Ev} (h : restOf p a = .send d m k) :
    restOf p (a ++ [.sent d m]) = k := by
  induction p generalizing a with
  | ret x => cases a <;> simp [restOf] at h
  | fail x => cases a <;> simp [restOf] at h
  | send d' m' k' ih =>
    cases a with
    | nil => simp only [restOf] at h; cases h; cases k <;> rfl
    | cons e a => exact ih h
  | recv s k' ih =>
    cases a with
    | nil => simp [restOf] at h
    | cons e a =>
      cases e with
      | got s' m' => exact ih m' h
      | sent d' m' => simp [restOf] at h

theorem rest_recv {p : Prog α} {k : Bytes → Prog α} {s : Party} {a : List Ev} (h : restOf p a = .recv s k) (m : Bytes) :
    restOf p (a ++ [.got s m]) = k m := by
  induction p generalizing a with
  | ret x => cases a <;> simp [restOf] at h
  | fail x => cases a <;> simp [restOf] at h
  | send d' m' k' ih =>
    cases a with
    | nil => simp [restOf] at h
    | cons e a => exact ih h
  | recv s' k' ih =>
    cases a with
    | nil =>
      simp only [restOf] at h; cases h
      show restOf (k m) [] = k m
      cases k m <;> rfl
    | cons e a =>
      cases e with
      | got s'' m' => exact ih m' h
      | sent d' m' => simp [restOf] at h

/-- Executions with the histories of the parties. -/
inductive HRun (cap : Party → Party → ℕ∞) (p : Party → Prog α) : Nat → (Party → List Ev) → Config α → Prop
  | zero : HRun cap p 0 (fun _ => []) (Config.init p)
  | send {n : Nat} {acc : Party → List Ev} {c : Config α} {i d : Party} {m : Bytes} {k : Prog α} (t : HRun cap p n acc c)
      (h : c.prog i = .send d m k) (room : ((c.chan i d).length : ℕ∞) < cap i d) :
      HRun cap p (n + 1) (update acc i (acc i ++ [.sent d m]))
        ⟨update c.prog i k, setChan c.chan i d (c.chan i d ++ [m])⟩
  | recv {n : Nat} {acc : Party → List Ev} {c : Config α} {i s : Party} {m : Bytes} {k : Bytes → Prog α} {rest : List Bytes}
      (t : HRun cap p n acc c) (h : c.prog i = .recv s k) (hc : c.chan s i = m :: rest) :
      HRun cap p (n + 1) (update acc i (acc i ++ [.got s m])) ⟨update c.prog i (k m), setChan c.chan s i rest⟩

namespace HRun

variable {cap : Party → Party → ℕ∞} {p : Party → Prog α} {n : Nat} {acc : Party → List Ev} {c : Config α}

theorem mono {cap' : Party → Party → ℕ∞} (hc : ∀ s d, cap s d ≤ cap' s d) (h : HRun cap p n acc c) : HRun cap' p n acc c := by
  induction h with
  | zero => exact .zero
  | send t h room ih => exact .send ih h (room.trans_le (hc _ _))
  | recv t h hc ih => exact .recv ih h hc

theorem snoc {n : Nat} {a b c : Config α} (h : StepsN n a b) (hs : Step1 b c) : StepsN (n + 1) a c := h.trans (.one hs)

theorem steps (h : HRun cap p n acc c) : StepsN n (Config.init p) c := by
  induction h with
  | zero => exact .zero _
  | send t h room ih => exact snoc ih ⟨_, .send h⟩
  | recv t h hc ih => exact snoc ih ⟨_, .recv h hc⟩

theorem prog (h : HRun cap p n acc c) (j : Party) : c.prog j = restOf (p j) (acc j) := by
  induction h generalizing j with
  | zero => cases h : p j <;> simp [restOf, Config.init, h]
  | @send n acc c i d m k t h room ih =>
    by_cases hj : j = i
    · subst hj; simp only [update_self]; exact (rest_send (by rw [← ih, h])).symm
    · simp only [update_of_ne hj]; exact ih j
  | @recv n acc c i s m k rest t h hc ih =>
    by_cases hj : j = i
    · subst hj; simp only [update_self]; exact (rest_recv (by rw [← ih, h]) m).symm
    · simp only [update_of_ne hj]; exact ih j

theorem chan (h : HRun cap p n acc c) (s d : Party) : outs d (acc s) = ins s (acc d) ++ c.chan s d := by
  induction h generalizing s d with
  | zero => rfl
  | @send n acc c i e m k t h room ih =>
    have h2 : ins s (update acc i (acc i ++ [.sent e m]) d) = ins s (acc d) := by
      by_cases hd : d = i
      · subst hd; simp [ins_append, ins]
      · simp [update_of_ne hd]
    rw [h2]
    by_cases hs : s = i
    · subst hs
      simp only [update_self, outs_append, ih s d, outs]
      by_cases hd : e = d
      · subst hd; simp
      · simp [hd, setChan_of_ne _ (show ¬ (s = s ∧ d = e) from fun h => hd h.2.symm)]
    · simp only [update_of_ne hs, ih s d]
      rw [setChan_of_ne _ (fun h => hs h.1)]
  | @recv n acc c i e m k rest t h hc ih =>
    have h2 : outs d (update acc i (acc i ++ [.got e m]) s) = outs d (acc s) := by
      by_cases hd : s = i
      · subst hd; simp [outs_append, outs]
      · simp [update_of_ne hd]
    rw [h2]
    by_cases hs : d = i
    · subst hs
      simp only [update_self, ins_append, ih s d, ins]
      by_cases hd : e = s
      · subst hd; simp [hc]
      · simp [hd, setChan_of_ne _ (show ¬ (s = e ∧ d = d) from fun h => hd h.1.symm)]
    · simp only [update_of_ne hs, ih s d]
      rw [setChan_of_ne _ (fun h => hs h.2)]

end HRun

/-- The program that also returns its history. -/
def instr (acc : List Ev) : Prog α → Prog (α × List Ev)
  | .ret a => .ret (a, acc)
  | .fail e => .fail e
  | .send d m k => .send d m (instr (acc ++ [.sent d m]) k)
  | .recv s k => .recv s fun m => instr (acc ++ [.got s m]) (k m)

theorem HRun.instr {cap : Party → Party → ℕ∞} {p : Party → Prog α} {n : Nat} {acc : Party → List Ev} {c : Config α}
    (h : HRun cap p n acc c) :
    StepsN n (Config.init fun i => instr [] (p i)) ⟨fun i => Verif.instr (acc i) (c.prog i), c.chan⟩ := by
  induction h with
  | zero => exact .zero _
  | @send n acc c i d m k t h room ih =>
    have := snoc ih ⟨i, .send (d := d) (m := m) (k := Verif.instr (acc i ++ [.sent d m]) k) (by simp [h, Verif.instr])⟩
    convert this using 2
    funext j
    by_cases hj : j = i
    · subst hj; simp
    · simp [update_of_ne hj]
  | @recv n acc c i s m k rest t h hc ih =>
    have := snoc ih ⟨i, .recv (s := s) (m := m) (k := fun m => Verif.instr (acc i ++ [.got s m]) (k m)) (rest := rest)
      (by simp [h, Verif.instr]) hc⟩
    convert this using 2
    funext j
    by_cases hj : j = i
    · subst hj; simp
    · simp [update_of_ne hj]

theorem instr_prefix {n : Nat} {C D : Config (α × List Ev)} (h : StepsN n C D) (acc : Party → List Ev)
    (hC : ∀ i, ∃ q : Prog α, C.prog i = instr (acc i) q) (r : Party → α × List Ev) (hD : ∀ i, D.prog i = .ret (r i)) :
    ∀ i, acc i <+: (r i).2 := by
  induction h generalizing acc with
  | zero c =>
    intro i
    obtain ⟨q, hq⟩ := hC i
    rw [hD i] at hq
    cases q with
    | ret a => simp only [instr, Prog.ret.injEq] at hq; rw [hq]
    | fail e => cases hq
    | send d m k => cases hq
    | recv s k => cases hq
  | @succ n c c' c'' hs t ih =>
    obtain ⟨j, hj⟩ := hs
    have : ∃ e : Ev, ∀ i, ∃ q : Prog α, c'.prog i = instr (update acc j (acc j ++ [e]) i) q := by
      obtain ⟨q, hq⟩ := hC j
      cases hj with
      | @send d m k h =>
        rw [h] at hq
        cases q with
        | send d' m' k' =>
          simp only [instr, Prog.send.injEq] at hq
          obtain ⟨rfl, rfl, rfl⟩ := hq
          refine ⟨.sent d m, fun i => ?_⟩
          by_cases hi : i = j
          · subst hi; exact ⟨k', by simp⟩
          · simpa [update_of_ne hi] using hC i
        | _ => simp [instr] at hq
      | @recv s m k rest h hc =>
        rw [h] at hq
        cases q with
        | recv s' k' =>
          simp only [instr, Prog.recv.injEq] at hq
          obtain ⟨rfl, rfl⟩ := hq
          refine ⟨.got s m, fun i => ?_⟩
          by_cases hi : i = j
          · subst hi; exact ⟨k' m, by simp⟩
          · simpa [update_of_ne hi] using hC i
        | _ => simp [instr] at hq
    obtain ⟨e, he⟩ := this
    intro i
    have := ih _ he hD i
    by_cases hi : i = j
    · subst hi
      rw [update_self] at this
      exact (List.prefix_append _ _).trans this
    · rwa [update_of_ne hi] at this

/-- The history of a party in any execution is the beginning of its history in the complete execution. -/
theorem HRun.prefix {cap cap' : Party → Party → ℕ∞} {p : Party → Prog α} {n N : Nat} {acc T : Party → List Ev} {c : Config α}
    {r : Party → α} (h : HRun cap p n acc c) (hT : HRun cap' p N T ⟨fun i => .ret (r i), fun _ _ => []⟩) (i : Party) :
    acc i <+: T i := by
  have h1 := hT.instr
  obtain ⟨m, -, hm⟩ := h1.confluent (Config.stuck_final fun i => (r i, T i)) h.instr
  exact instr_prefix hm acc (fun i => ⟨_, rfl⟩) (fun i => (r i, T i)) (fun i => rfl) i

theorem HRun.of_steps {p : Party → Prog α} {n m : Nat} {acc : Party → List Ev} {c c' : Config α}
    (h : HRun (fun _ _ => ⊤) p m acc c) (hs : StepsN n c c') : ∃ acc', HRun (fun _ _ => ⊤) p (m + n) acc' c' := by
  induction hs generalizing m acc with
  | zero => exact ⟨acc, h⟩
  | succ hs _ ih =>
    obtain ⟨i, hi⟩ := hs
    rw [Nat.add_comm _ 1, ← Nat.add_assoc]
    cases hi with
    | send h' => exact ih (.send h h' (by simp))
    | recv h' hc => exact ih (.recv h h' hc)

theorem HRun.of_bsteps {p : Party → Prog α} {cap : Party → Party → Nat} {n m : Nat} {acc : Party → List Ev} {c c' : Config α}
    (h : HRun (fun s d => (cap s d : ℕ∞)) p m acc c) (hs : BStepsN cap n c c') :
    ∃ acc', HRun (fun s d => (cap s d : ℕ∞)) p (m + n) acc' c' := by
  induction hs generalizing m acc with
  | zero => exact ⟨acc, h⟩
  | succ i hi _ ih =>
    rw [Nat.add_comm _ 1, ← Nat.add_assoc]
    cases hi with
    | send h' hr => exact ih (.send h h' (by exact_mod_cast hr))
    | recv h' hc => exact ih (.recv h h' hc)

/-! ## Executions with faults are prefixes of executions without -/

/-- The state `f` with faults compared with a state `c` without. -/
structure Sim (f : FConfig α) (c : Config α) : Prop where
  prog : ∀ i, f.prog i = c.prog i ∨ f.prog i = .fail .io
  chan : ∀ s d, ∃ l, c.chan s d = f.chan s d ++ l ∧ (f.closed s d = false → l = [])

/-- Number of faults. -/
noncomputable def FConfig.weight (f : FConfig α) : Nat := by
  classical exact (Finset.univ.filter fun i => f.prog i = .fail .io).card + (Finset.univ.filter fun i => f.down i = true).card +
    (Finset.univ.filter fun x : Party × Party => f.closed x.1 x.2 = true).card

theorem FConfig.weight_le (f : FConfig α) : f.weight ≤ 15 := by
  classical
  unfold FConfig.weight
  have h1 := Finset.card_le_univ (Finset.univ.filter fun i => f.prog i = .fail .io)
  have h2 := Finset.card_le_univ (Finset.univ.filter fun i => f.down i = true)
  have h3 := Finset.card_le_univ (Finset.univ.filter fun x : Party × Party => f.closed x.1 x.2 = true)
  simp only [Fintype.card_fin, Fintype.card_prod] at h1 h2 h3
  omega

theorem FConfig.weight_mono {f g : FConfig α} (h1 : ∀ i, f.prog i = .fail .io → g.prog i = .fail .io)
    (h2 : ∀ i, f.down i = true → g.down i = true) (h3 : ∀ s d, f.closed s d = true → g.closed s d = true) :
    f.weight ≤ g.weight := by
  classical
  unfold FConfig.weight
  refine Nat.add_le_add (Nat.add_le_add (Finset.card_le_card fun i => ?_) (Finset.card_le_card fun i => ?_))
    (Finset.card_le_card fun i => ?_)
  · simpa using h1 i
  · simpa using h2 i
  · simpa using h3 _ _

theorem FConfig.weight_lt {f g : FConfig α} (h1 : ∀ i, f.prog i = .fail .io → g.prog i = .fail .io)
    (h2 : ∀ i, f.down i = true → g.down i = true) (h3 : ∀ s d, f.closed s d = true → g.closed s d = true)
    (h : (∃ i, f.prog i ≠ .fail .io ∧ g.prog i = .fail .io) ∨ (∃ i, f.down i = false ∧ g.down i = true) ∨
      ∃ s d, f.closed s d = false ∧ g.closed s d = true) : f.weight + 1 ≤ g.weight := by
  classical
  unfold FConfig.weight
  have e1 : (Finset.univ.filter fun i => f.prog i = .fail .io) ⊆ (Finset.univ.filter fun i => g.prog i = .fail .io) :=
    fun i => by simpa using h1 i
  have e2 : (Finset.univ.filter fun i => f.down i = true) ⊆ (Finset.univ.filter fun i => g.down i = true) :=
    fun i => by simpa using h2 i
  have e3 : (Finset.univ.filter fun x : Party × Party => f.closed x.1 x.2 = true) ⊆
    (Finset.univ.filter fun x : Party × Party => g.closed x.1 x.2 = true) := fun i => by simpa using h3 _ _
  have c1 := Finset.card_le_card e1
  have c2 := Finset.card_le_card e2
  have c3 := Finset.card_le_card e3
  rcases h with ⟨i, hf, hg⟩ | ⟨i, hf, hg⟩ | ⟨s, d, hf, hg⟩
  · have := Finset.card_lt_card (e1.ssubset_of_mem_notMem (a := i) (by simpa using hg) (by simpa using hf))
    omega
  · have := Finset.card_lt_card (e2.ssubset_of_mem_notMem (a := i) (by simpa using hg) (by simpa using hf))
    omega
  · have := Finset.card_lt_card (e3.ssubset_of_mem_notMem (a := (s, d)) (by simpa using hg) (by simpa using hf))
    omega

/-- No party of `c` is at an error. -/
def Config.Fine (c : Config α) : Prop := ∀ i e, c.prog i ≠ .fail e

theorem setChan_take {f : FConfig α} {c : Config α} (h : Sim f c) (s d : Party) (n : Nat) (x y : Party) :
    ∃ l, c.chan x y = setChan f.chan s d ((f.chan s d).take n) x y ++ l ∧ (setClosed f.closed s d x y = false → l = []) := by
  by_cases hx : x = s ∧ y = d
  · obtain ⟨rfl, rfl⟩ := hx
    obtain ⟨l, hl, -⟩ := h.chan x y
    refine ⟨(f.chan x y).drop n ++ l, ?_, by simp [setClosed]⟩
    rw [setChan_same, ← List.append_assoc, List.take_append_drop, hl]
  · rw [setChan_of_ne _ hx]
    obtain ⟨l, hl, h'⟩ := h.chan x y
    exact ⟨l, hl, fun e => h' (by simpa [setClosed, hx] using e)⟩

/-- A step with faults is a step without, or one more fault. -/
theorem Sim.step {cap : Party → Party → ℕ∞} {mode : Mode} {f f' : FConfig α} {c : Config α} (h : Sim f c)
    (hs : FStep cap mode f f') :
    (∃ c', Step1 c c' ∧ Sim f' c' ∧ f.weight ≤ f'.weight) ∨ (Sim f' c ∧ f.weight + 1 ≤ f'.weight) := by
  have fine : ∀ i, f.prog i ≠ .fail .io → f.prog i = c.prog i := fun i hi => (h.prog i).resolve_right hi
  cases hs with
  | @send i d m k up hp op room =>
    have hi := fine i (by rw [hp]; simp)
    refine .inl ⟨_, ⟨i, .send (hi ▸ hp)⟩, ⟨fun j => ?_, fun s e => ?_⟩, ?_⟩
    · by_cases hj : j = i
      · subst hj; left; simp
      · simpa [update_of_ne hj] using h.prog j
    · by_cases hx : s = i ∧ e = d
      · obtain ⟨rfl, rfl⟩ := hx
        obtain ⟨l, hl, h'⟩ := h.chan s e
        have := h' op; subst this
        refine ⟨[], ?_, fun _ => rfl⟩
        simp only [setChan_same, List.append_nil] at hl ⊢
        rw [hl]
      · simp only [setChan_of_ne _ hx]; exact h.chan s e
    · refine FConfig.weight_mono (fun j hj => ?_) (fun _ h => h) (fun _ _ h => h)
      have : j ≠ i := by rintro rfl; rw [hp] at hj; cases hj
      simpa [update_of_ne this] using hj
  | @sendClosed i d m k up hp cl =>
    have hi := fine i (by rw [hp]; simp)
    refine .inl ⟨_, ⟨i, .send (hi ▸ hp)⟩, ⟨fun j => ?_, fun s e => ?_⟩, ?_⟩
    · by_cases hj : j = i
      · subst hj; left; simp
      · simpa [update_of_ne hj] using h.prog j
    · by_cases hx : s = i ∧ e = d
      · obtain ⟨rfl, rfl⟩ := hx
        obtain ⟨l, hl, h'⟩ := h.chan s e
        exact ⟨l ++ [m], by simp [hl], fun h => by rw [cl] at h; cases h⟩
      · simp only [setChan_of_ne _ hx]; exact h.chan s e
    · refine FConfig.weight_mono (fun j hj => ?_) (fun _ h => h) (fun _ _ h => h)
      have : j ≠ i := by rintro rfl; rw [hp] at hj; cases hj
      simpa [update_of_ne this] using hj
  | @recv i s m k rest up hp hm =>
    have hi := fine i (by rw [hp]; simp)
    obtain ⟨l, hl, h'⟩ := h.chan s i
    rw [hm, List.cons_append] at hl
    refine .inl ⟨_, ⟨i, .recv (hi ▸ hp) hl⟩, ⟨fun j => ?_, fun x e => ?_⟩, ?_⟩
    · by_cases hj : j = i
      · subst hj; left; simp
      · simpa [update_of_ne hj] using h.prog j
    · by_cases hx : x = s ∧ e = i
      · obtain ⟨rfl, rfl⟩ := hx
        exact ⟨l, by simp, h'⟩
      · simp only [setChan_of_ne _ hx]; exact h.chan x e
    · refine FConfig.weight_mono (fun j hj => ?_) (fun _ h => h) (fun _ _ h => h)
      have : j ≠ i := by rintro rfl; rw [hp] at hj; cases hj
      simpa [update_of_ne this] using hj
  | @recvClosed i s k up hp hm cl =>
    refine .inr ⟨⟨fun j => ?_, h.chan⟩, FConfig.weight_lt (fun j hj => ?_) (fun _ h => h) (fun _ _ h => h)
      (.inl ⟨i, by rw [hp]; simp, by simp⟩)⟩
    · by_cases hj : j = i
      · subst hj; right; simp
      · simpa [update_of_ne hj] using h.prog j
    · by_cases hji : j = i
      · subst hji; simp
      · simpa [update_of_ne hji] using hj
  | @close s d keep op hst ho =>
    refine .inr ⟨⟨h.prog, setChan_take h s d keep⟩, FConfig.weight_lt (fun _ h => h) (fun _ h => h) (fun x y hxy => ?_)
      (.inr (.inr ⟨s, d, op, by simp [setClosed]⟩))⟩
    by_cases hx : x = s ∧ y = d <;> simp [setClosed, hx, hxy]
  | @lost s d keep op hst =>
    refine .inr ⟨⟨h.prog, setChan_take h s d keep⟩, FConfig.weight_lt (fun _ h => h) (fun _ h => h) (fun x y hxy => ?_)
      (.inr (.inr ⟨s, d, op, by simp [setClosed]⟩))⟩
    by_cases hx : x = s ∧ y = d <;> simp [setClosed, hx, hxy]
  | @crash i up hm =>
    refine .inr ⟨⟨h.prog, h.chan⟩, FConfig.weight_lt (fun _ h => h) (fun x hx => ?_) (fun _ _ h => h)
      (.inr (.inl ⟨i, up, by simp⟩))⟩
    by_cases hxi : x = i
    · subst hxi; simp
    · simpa [update_of_ne hxi] using hx

/-- On the way to a complete run nobody is at an error. -/
theorem fine_of_run {n N : Nat} {p : Party → Prog α} {c : Config α} {r : Party → α}
    (hr : StepsN N (Config.init p) ⟨fun i => .ret (r i), fun _ _ => []⟩) (h : StepsN n (Config.init p) c) : c.Fine := by
  obtain ⟨m, -, hm⟩ := hr.confluent (Config.stuck_final r) h
  have key : ∀ {m : Nat} {c d : Config α}, StepsN m c d → ∀ i e, c.prog i = .fail e → d.prog i = .fail e := by
    intro m c d h i e hi
    induction h with
    | zero => exact hi
    | succ hs _ ih =>
      obtain ⟨j, hj⟩ := hs
      apply ih
      have hji : j ≠ i := by
        rintro rfl
        cases hj with
        | send h => rw [hi] at h; cases h
        | recv h _ => rw [hi] at h; cases h
      cases hj <;> simpa [update_of_ne hji.symm] using hi
  intro i e hi
  have := key hm i e hi
  cases this

theorem Sim.reach {cap : Party → Party → ℕ∞} {mode : Mode} {n N : Nat} {p : Party → Prog α} {f : FConfig α} {r : Party → α}
    (hr : StepsN N (Config.init p) ⟨fun i => .ret (r i), fun _ _ => []⟩) (h : FStepsN cap mode n (FConfig.init p) f) :
    ∃ k c, StepsN k (Config.init p) c ∧ Sim f c ∧ n ≤ k + f.weight := by
  generalize he : FConfig.init p = f0 at h
  induction h with
  | zero => subst he; exact ⟨0, _, .zero _, ⟨fun i => .inl rfl, fun s d => ⟨[], rfl, fun _ => rfl⟩⟩, by omega⟩
  | succ t hs ih =>
    subst he
    obtain ⟨k, c, hk, hsim, hw⟩ := ih rfl
    rcases hsim.step hs with ⟨c', h1, h2, h3⟩ | ⟨h2, h3⟩
    · exact ⟨k + 1, c', hk.trans (.one h1), h2, by omega⟩
    · exact ⟨k, c, hk, h2, by omega⟩

/-- If the parties in `W` wait only for each other, then they have finished: the first of their missing steps in the
complete run could be taken. -/
theorem blocked_done {cap : Party → Party → ℕ∞} {n N : Nat} {p : Party → Prog α} {r : Party → α} {T a : Party → List Ev}
    {c : Config α} (hT : HRun cap p N T ⟨fun i => .ret (r i), fun _ _ => []⟩) (ha : HRun (fun _ _ => ⊤) p n a c)
    (W : Party → Prop)
    (hsend : ∀ i d m k, W i → c.prog i = .send d m k → W d ∧ cap i d ≤ ((c.chan i d).length : ℕ∞))
    (hrecv : ∀ i s k, W i → c.prog i = .recv s k → W s ∧ c.chan s i = []) (i : Party) (hi : W i) :
    c.prog i = .ret (r i) := by
  have key : ∀ {m : Nat} {b : Party → List Ev} {e : Config α}, HRun cap p m b e → ∀ i, W i → b i <+: a i := by
    intro m b e hb
    induction hb with
    | zero => intro i _; exact List.nil_prefix
    | @send m b e j d x q t hp room ih =>
      intro i hi
      by_cases hij : i = j
      · subst hij
        have hT' := (HRun.send t hp room).prefix hT i
        rw [update_self] at hT' ⊢
        by_cases hlt : (b i).length < (a i).length
        · exact List.prefix_of_prefix_length_le hT' (ha.prefix hT i) (by simp; omega)
        · exfalso
          have hab : a i = b i := ((ih i hi).eq_of_length_le (by omega)).symm
          have hpf : c.prog i = .send d x q := by rw [ha.prog i, hab, ← t.prog i, hp]
          obtain ⟨hd, hroom⟩ := hsend _ _ _ _ hi hpf
          have h1 := ha.chan i d
          have h2 := t.chan i d
          rw [hab, h2] at h1
          obtain ⟨u, hu⟩ := ih d hd
          rw [← hu, ins_append] at h1
          have := congrArg List.length h1
          simp only [List.length_append] at this
          have hle : ((c.chan i d).length : ℕ∞) ≤ ((e.chan i d).length : ℕ∞) := by
            exact_mod_cast (by omega : (c.chan i d).length ≤ (e.chan i d).length)
          exact absurd (lt_of_lt_of_le room (hroom.trans hle)) (lt_irrefl _)
      · rw [update_of_ne hij]; exact ih i hi
    | @recv m b e j s x q rest t hp hc ih =>
      intro i hi
      by_cases hij : i = j
      · subst hij
        have hT' := (HRun.recv t hp hc).prefix hT i
        rw [update_self] at hT' ⊢
        by_cases hlt : (b i).length < (a i).length
        · exact List.prefix_of_prefix_length_le hT' (ha.prefix hT i) (by simp; omega)
        · exfalso
          have hab : a i = b i := ((ih i hi).eq_of_length_le (by omega)).symm
          have hpf : c.prog i = .recv s q := by rw [ha.prog i, hab, ← t.prog i, hp]
          obtain ⟨hs, hch⟩ := hrecv _ _ _ hi hpf
          have h1 := ha.chan s i
          have h2 := t.chan s i
          rw [hch, hab, List.append_nil] at h1
          obtain ⟨u, hu⟩ := ih s hs
          rw [← hu, outs_append, h2, hc] at h1
          have := congrArg List.length h1
          simp only [List.length_append, List.length_cons] at this
          omega
      · rw [update_of_ne hij]; exact ih i hi
  have hab : a i = T i := (ha.prefix hT i).eq_of_length_le (key hT i hi).length_le
  rw [ha.prog i, hab, ← hT.prog i]

/-- Nobody waits for ever. -/
theorem quiet_stopped {cap : Party → Party → ℕ∞} {mode : Mode} {n N : Nat} {p : Party → Prog α} {f : FConfig α} {r : Party → α}
    {T : Party → List Ev} (hT : HRun cap p N T ⟨fun i => .ret (r i), fun _ _ => []⟩)
    (h : FStepsN cap mode n (FConfig.init p) f) (hq : f.Quiet cap) (i : Party) : f.Stopped i := by
  obtain ⟨k, c, hk, hsim, -⟩ := Sim.reach hT.steps h
  obtain ⟨a, ha⟩ := HRun.of_steps (.zero (p := p)) hk
  have up : ∀ i, ¬ f.Stopped i → f.down i = false := fun i hi => by
    by_contra hd; exact hi (.inl (by simpa using hd))
  have same : ∀ i, ¬ f.Stopped i → f.prog i = c.prog i := fun i hi =>
    (hsim.prog i).resolve_right fun h => hi (.inr (.inr ⟨_, h⟩))
  have opn : ∀ s d, f.closed s d = false → ¬ f.Stopped s ∧ ¬ f.Stopped d := fun s d ho =>
    ⟨fun hs => hq _ (.close 0 ho (.inl hs) (by simp)), fun hs => hq _ (.close 0 ho (.inr hs) (by simp))⟩
  have chan : ∀ s d, f.closed s d = false → c.chan s d = f.chan s d := fun s d ho => by
    obtain ⟨l, hl, h0⟩ := hsim.chan s d
    rw [hl, h0 ho, List.append_nil]
  by_contra hi
  refine hi (.inr (.inl ⟨r i, ?_⟩))
  rw [same i hi]
  refine blocked_done hT ha (fun i => ¬ f.Stopped i) (fun i d m k hi hp => ?_) (fun i s k hi hp => ?_) i hi
  · rw [← same i hi] at hp
    cases hcl : f.closed i d with
    | true => exact absurd (.sendClosed (up i hi) hp hcl) (hq _)
    | false =>
      refine ⟨(opn i d hcl).2, ?_⟩
      rw [chan _ _ hcl]
      by_contra hr
      exact hq _ (.send (up i hi) hp hcl (not_le.1 hr))
  · rw [← same i hi] at hp
    cases hch : f.chan s i with
    | cons y ys => exact absurd (.recv (up i hi) hp hch) (hq _)
    | nil =>
      cases hcl : f.closed s i with
      | true => exact absurd (.recvClosed (up i hi) hp hch hcl) (hq _)
      | false => exact ⟨(opn s i hcl).1, by rw [chan _ _ hcl, hch]⟩

/-- Without faults, and if connections end only when both ends have stopped, everything is as without closing. -/
theorem orderly_reach {cap : Party → Party → ℕ∞} {n N : Nat} {p : Party → Prog α} {f : FConfig α} {r : Party → α}
    (hr : StepsN N (Config.init p) ⟨fun i => .ret (r i), fun _ _ => []⟩)
    (h : FStepsN cap .orderly n (FConfig.init p) f) :
    (∀ i, f.down i = false) ∧ (∀ s d, f.closed s d = true → f.Stopped s ∧ f.Stopped d) ∧
    ∃ k c, StepsN k (Config.init p) c ∧ f.prog = c.prog ∧ ∀ s d, f.closed s d = false → c.chan s d = f.chan s d := by
  generalize he : FConfig.init p = f0 at h
  induction h with
  | zero => subst he; exact ⟨fun _ => rfl, fun _ _ h => (by cases h), 0, _, .zero _, rfl, fun _ _ _ => rfl⟩
  | @succ n f0 f f' t hs ih =>
    subst he
    obtain ⟨hup, hcl, k, c, hk, hp, hch⟩ := ih rfl
    have live : ∀ {i : Party}, (∀ a, f.prog i ≠ .ret a) → (∀ e, f.prog i ≠ .fail e) → ¬ f.Stopped i := by
      rintro i h1 h2 (h | ⟨a, h⟩ | ⟨e, h⟩)
      · rw [hup] at h; cases h
      · exact h1 _ h
      · exact h2 _ h
    have keep : ∀ {i : Party} {q : Prog α} {ch : Party → Party → List Bytes}, ¬ f.Stopped i → ∀ s d, f.closed s d = true →
        FConfig.Stopped ⟨update f.prog i q, ch, f.down, f.closed⟩ s ∧
        FConfig.Stopped ⟨update f.prog i q, ch, f.down, f.closed⟩ d := by
      intro i q ch hi s d h
      obtain ⟨h1, h2⟩ := hcl s d h
      have k1 : s ≠ i := by rintro rfl; exact hi h1
      have k2 : d ≠ i := by rintro rfl; exact hi h2
      exact ⟨by simpa [FConfig.Stopped, update_of_ne k1] using h1, by simpa [FConfig.Stopped, update_of_ne k2] using h2⟩
    cases hs with
    | @send i d m q up hi op room =>
      have hl : ¬ f.Stopped i := live (by simp [hi]) (by simp [hi])
      refine ⟨hup, keep hl, k + 1, _, hk.trans (.one ⟨i, .send (hp ▸ hi)⟩), by rw [hp], fun s e ho => ?_⟩
      by_cases hx : s = i ∧ e = d
      · obtain ⟨rfl, rfl⟩ := hx; simp [hch _ _ op]
      · simp only [setChan_of_ne _ hx]; exact hch s e ho
    | @sendClosed i d m q up hi cl =>
      exact absurd (hcl _ _ cl).1 (live (by simp [hi]) (by simp [hi]))
    | @recv i s m q rest up hi hm =>
      have hl : ¬ f.Stopped i := live (by simp [hi]) (by simp [hi])
      have ho : f.closed s i = false := by
        by_contra h; exact hl (hcl s i (by simpa using h)).2
      refine ⟨hup, keep hl, k + 1, _, hk.trans (.one ⟨i, .recv (hp ▸ hi) ((hch s i ho).trans hm)⟩), by rw [hp], fun x e ho => ?_⟩
      by_cases hx : x = s ∧ e = i
      · obtain ⟨rfl, rfl⟩ := hx; simp
      · simp only [setChan_of_ne _ hx]; exact hch x e ho
    | @recvClosed i s q up hi hm cl =>
      exact absurd (hcl _ _ cl).2 (live (by simp [hi]) (by simp [hi]))
    | @close s d kp op hst ho =>
      refine ⟨hup, fun x y hxy => ?_, k, c, hk, hp, fun x y hxy => ?_⟩
      · by_cases hx : x = s ∧ y = d
        · obtain ⟨rfl, rfl⟩ := hx; exact ho rfl
        · exact hcl x y (by simpa [setClosed, hx] using hxy)
      · by_cases hx : x = s ∧ y = d
        · simp [setClosed, hx] at hxy
        · simp only [setChan_of_ne _ hx]; exact hch x y (by simpa [setClosed, hx] using hxy)
    | lost _ _ hm => cases hm
    | crash _ hm => cases hm

theorem orderly_done {cap : Party → Party → ℕ∞} {n N : Nat} {p : Party → Prog α} {f : FConfig α} {r : Party → α}
    {T : Party → List Ev} (hT : HRun cap p N T ⟨fun i => .ret (r i), fun _ _ => []⟩)
    (h : FStepsN cap .orderly n (FConfig.init p) f) (hq : ∀ f', ¬ FStep cap .orderly f f') (i : Party) :
    f.prog i = .ret (r i) := by
  obtain ⟨hup, hcl, k, c, hk, hp, hch⟩ := orderly_reach hT.steps h
  obtain ⟨a, ha⟩ := HRun.of_steps (.zero (p := p)) hk
  have live : ∀ {i : Party}, (∀ a, f.prog i ≠ .ret a) → (∀ e, f.prog i ≠ .fail e) → ¬ f.Stopped i := by
    rintro i h1 h2 (h | ⟨a, h⟩ | ⟨e, h⟩)
    · rw [hup] at h; cases h
    · exact h1 _ h
    · exact h2 _ h
  rw [hp]
  refine blocked_done hT ha (fun _ => True) (fun i d m k _ hi => ⟨trivial, ?_⟩) (fun i s k _ hi => ⟨trivial, ?_⟩) i trivial
  · rw [← hp] at hi
    have ho : f.closed i d = false := by
      by_contra h; exact live (i := i) (by simp [hi]) (by simp [hi]) (hcl i d (by simpa using h)).1
    rw [hch _ _ ho]
    by_contra hr
    exact hq _ (.send (hup i) hi ho (not_le.1 hr))
  · rw [← hp] at hi
    have ho : f.closed s i = false := by
      by_contra h; exact live (i := i) (by simp [hi]) (by simp [hi]) (hcl s i (by simpa using h)).2
    rw [hch _ _ ho]
    cases hc : f.chan s i with
    | nil => rfl
    | cons y ys => exact absurd (.recv (hup i) hi hc) (hq _)

/-! ## Executions without faults, as executions in the larger system -/

theorem FStepsN.trans {cap : Party → Party → ℕ∞} {mode : Mode} {n m : Nat} {a b c : FConfig α} (h1 : FStepsN cap mode n a b)
    (h2 : FStepsN cap mode m b c) : FStepsN cap mode (n + m) a c := by
  induction h2 with
  | zero => exact h1
  | succ t h ih => exact .succ (ih h1) h

/-- The state without faults. -/
def FConfig.of (c : Config α) : FConfig α := ⟨c.prog, c.chan, fun _ => false, fun _ _ => false⟩

theorem FStepsN.of_bsteps {cap : Party → Party → Nat} {cap' : Party → Party → ℕ∞} (hc : ∀ s d, (cap s d : ℕ∞) ≤ cap' s d)
    {mode : Mode} {n : Nat} {a b : Config α} (h : BStepsN cap n a b) : FStepsN cap' mode n (.of a) (.of b) := by
  induction h with
  | zero => exact .zero _
  | @succ n c c' c'' i hs _ ih =>
    rw [Nat.add_comm]
    refine FStepsN.trans (.succ (.zero _) ?_) ih
    cases hs with
    | send h hr => exact .send (c := .of c) rfl h rfl (lt_of_lt_of_le (by exact_mod_cast hr) (hc _ _))
    | recv h hm => exact .recv (c := .of c) rfl h hm

end Verif
