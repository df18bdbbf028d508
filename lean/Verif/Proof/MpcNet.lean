import Verif.Spec.MpcNet
import Mathlib.Algebra.Order.BigOperators.Group.List
import Mathlib.Data.List.Nodup
import Mathlib.Data.List.Count
import Mathlib.Tactic.Ring
import Mathlib.Tactic.Linarith
import Mathlib.Data.Finset.Max

/-! # Lemmas about connection establishment -/

namespace Verif

theorem vecDedup_length_le (l : List Nat) : (vecDedup l).length ≤ l.length := by
  induction l with
  | nil => simp [vecDedup]
  | cons a l ih =>
    cases l with
    | nil => simp [vecDedup]
    | cons b l =>
      simp only [vecDedup]
      split
      · simp only [List.length_cons] at ih ⊢; omega
      · simp only [List.length_cons] at ih ⊢; omega

theorem vecDedup_length_eq {l : List Nat} (hs : l.Pairwise (· ≤ ·)) :
    (vecDedup l).length = l.length ↔ l.Nodup := by
  induction l with
  | nil => simp [vecDedup]
  | cons a l ih =>
    cases l with
    | nil => simp [vecDedup]
    | cons b l =>
      have hs' := hs.tail
      simp only [List.tail_cons] at hs'
      have ih := ih hs'
      simp only [vecDedup]
      split
      · next h =>
        subst h
        constructor
        · intro h2
          have := vecDedup_length_le (a :: l)
          simp only [List.length_cons] at *
          omega
        · intro h2
          simp at h2
      · next h =>
        simp only [List.length_cons, List.nodup_cons] at *
        constructor
        · intro h2
          refine ⟨?_, ih.1 (by omega)⟩
          intro hm
          rw [List.pairwise_cons] at hs
          have h1 := hs.1 b (by simp)
          rcases List.mem_cons.1 hm with h3 | h3
          · exact h h3
          · have := (List.pairwise_cons.1 hs.2).1 a h3
            omega
        · rintro ⟨_, h3⟩
          have := ih.2 h3
          omega

theorem sort_perm (l : List Nat) : (l.mergeSort (fun a b => decide (a ≤ b))).Perm l :=
  List.mergeSort_perm l _

theorem sort_sorted (l : List Nat) : (l.mergeSort (fun a b => decide (a ≤ b))).Pairwise (· ≤ ·) := by
  have := List.pairwise_mergeSort (le := fun a b : Nat => decide (a ≤ b))
    (fun a b c h1 h2 => by simp at *; omega) (fun a b => by simp; omega) l
  exact this.imp (by simp)

theorem checkConfig_ok (c : NetConfig) :
    checkConfig c = .ok () ↔ c.myId ∈ c.parties ∧ c.parties.Nodup := by
  unfold checkConfig
  have h1 : (vecDedup (c.parties.mergeSort (fun a b => decide (a ≤ b)))).length = c.parties.length ↔
      c.parties.Nodup := by
    rw [← (sort_perm c.parties).nodup_iff, ← vecDedup_length_eq (sort_sorted c.parties),
      (sort_perm c.parties).length_eq]
  cases hf : c.parties.find? (fun id => id == c.myId) with
  | none =>
    rw [List.find?_eq_none] at hf
    constructor
    · intro h; cases h
    · rintro ⟨h, _⟩
      exact absurd (beq_self_eq_true _) (hf _ h)
  | some x =>
    have hx := List.find?_some hf
    have hm := List.mem_of_find?_eq_some hf
    have hx' : x = c.myId := by simpa using hx
    subst hx'
    simp only [ne_eq]
    by_cases hd : c.parties.Nodup
    · simp [hd, h1.2 hd, hm]
    · have := mt h1.1 hd
      simp [hd, this]


/-- The connection a party is announcing itself on. -/
def pcAnn : Pc → Option Conn
  | .announce _ c _ => some c
  | _ => none

/-- The connection a party has accepted and is reading the id from. -/
def pcAwait : Pc → Option Conn
  | .awaitId c _ => some c
  | _ => none

/-- `d` is the part of the configured list `L` party `p` has dealt with. -/
def Pos (L : List Nat) (p : Nat) : Pc → List Nat → Prop
  | .start, d => d = []
  | .link t, d => L = d ++ t
  | .announce q c t, d => L = d ++ q :: t ∧ q < p ∧ c.client = p ∧ c.server = q
  | .awaitId c t, d => (∃ x, p < x ∧ L = d ++ x :: t) ∧ c.server = p
  | .chans _, d => L = d
  | .awaitEcho _ _, d => L = d
  | .done, d => L = d
  | .failed, _ => False

def CReg (s : EState) (c : Conn) : Prop := (c.server, c) ∈ s.conns c.client ∧ c.server < c.client
def CAnn (s : EState) (c : Conn) : Prop := pcAnn (s.pc c.client) = some c
def SAwait (s : EState) (c : Conn) : Prop := pcAwait (s.pc c.server) = some c
def SReg (s : EState) (c : Conn) : Prop := (c.client, c) ∈ s.conns c.server ∧ c.server < c.client

structure EInv (ps : List Nat) (cfg : Nat → NetConfig) (s : EState) (d : Nat → List Nat) : Prop where
  pos : ∀ p ∈ ps, Pos (cfg p).parties p (s.pc p) (d p)
  dup : ∀ p ∈ ps, (cfg p).parties.Nodup
  nd : ∀ p ∈ ps, (mapKeys (s.conns p)).Nodup
  entLow : ∀ p ∈ ps, ∀ k c, (k, c) ∈ s.conns p → k < p → k ∈ d p ∧ c.client = p ∧ c.server = k
  entHigh : ∀ p ∈ ps, ∀ k c, (k, c) ∈ s.conns p → p < k → c.client = k ∧ c.server = p
  entNe : ∀ p ∈ ps, ∀ k c, (k, c) ∈ s.conns p → k ≠ p
  low : ∀ p ∈ ps, ∀ k ∈ d p, k < p → k ∈ mapKeys (s.conns p)
  cnt : ∀ p ∈ ps, (mapKeys (s.conns p)).countP (fun k => decide (p < k)) =
    (d p).countP (fun k => decide (p < k))
  side : ∀ c, (c ∈ s.pending ∨ SAwait s c ∨ SReg s c) ↔ (CReg s c ∨ CAnn s c)
  pend : s.pending.Nodup
  ex1 : ∀ c ∈ s.pending, ¬ SAwait s c
  ex2 : ∀ c ∈ s.pending, ¬ SReg s c
  ex3 : ∀ c, SAwait s c → ¬ SReg s c
  ann : ∀ c x, s.announced c = some x ↔ x = c.client ∧ CReg s c
  fresh : ∀ c, CReg s c ∨ CAnn s c → c.serial < s.serial ∧ c.client ∈ ps ∧ c.server ∈ ps
  off : ∀ p, p ∉ ps → s.pc p = .start ∧ s.conns p = []

theorem EInv.init (ps cfg) (hd : ∀ p ∈ ps, (cfg p).parties.Nodup) : EInv ps cfg EState.init (fun _ => []) := by
  constructor <;> simp (config := {contextual := true}) [hd, EState.init, Pos, mapKeys, CReg, CAnn, SAwait, SReg, pcAnn, pcAwait]

variable {ps : List Nat} {cfg : Nat → NetConfig} {s : EState} {d : Nat → List Nat}

/-- Changing the program counter of `p` between two places that hold no connection. -/
theorem EInv.goto (h : EInv ps cfg s d) {p : Nat} (hp : p ∈ ps) {x : Pc} {l : List Nat}
    (h1 : pcAnn (s.pc p) = none) (h2 : pcAwait (s.pc p) = none)
    (h3 : pcAnn x = none) (h4 : pcAwait x = none)
    (hpos : Pos (cfg p).parties p x (d p ++ l)) (hl : ∀ y ∈ l, y = p) :
    EInv ps cfg (s.goto p x) (Function.update d p (d p ++ l)) := by
  have e1 : ∀ c, CAnn (s.goto p x) c ↔ CAnn s c := by
    intro c
    unfold CAnn EState.goto
    simp only [Function.update_apply]
    split <;> simp_all
  have e2 : ∀ c, SAwait (s.goto p x) c ↔ SAwait s c := by
    intro c
    unfold SAwait EState.goto
    simp only [Function.update_apply]
    split <;> simp_all
  have e3 : ∀ c, CReg (s.goto p x) c ↔ CReg s c := fun c => Iff.rfl
  have e4 : ∀ c, SReg (s.goto p x) c ↔ SReg s c := fun c => Iff.rfl
  have hlow : ∀ y ∈ l, ¬ y < p := fun y hy => by have := hl y hy; omega
  have hcl : l.countP (fun k => decide (p < k)) = 0 := by
    rw [List.countP_eq_zero]; intro y hy; have := hl y hy; simp; omega
  constructor
  · intro q hq
    by_cases hqp : q = p
    · subst hqp; simpa [EState.goto] using hpos
    · simpa [EState.goto, Function.update_of_ne hqp] using h.pos q hq
  · exact h.dup
  · exact h.nd
  · intro q hq k c hc hk
    have := h.entLow q hq k c hc hk
    by_cases hqp : q = p
    · subst hqp; simpa using ⟨Or.inl this.1, this.2⟩
    · simpa [Function.update_of_ne hqp] using this
  · exact h.entHigh
  · exact h.entNe
  · intro q hq k hk hkq
    by_cases hqp : q = p
    · subst hqp
      simp only [Function.update_self, List.mem_append] at hk
      rcases hk with hk | hk
      · exact h.low q hq k hk hkq
      · exact absurd hkq (hlow k hk)
    · rw [Function.update_of_ne hqp] at hk
      exact h.low q hq k hk hkq
  · intro q hq
    by_cases hqp : q = p
    · subst hqp
      simpa [EState.goto, hcl] using h.cnt q hq
    · simpa [EState.goto, Function.update_of_ne hqp] using h.cnt q hq
  · intro c; rw [e1, e2, e3, e4]; exact h.side c
  · exact h.pend
  · intro c hc; rw [e2]; exact h.ex1 c hc
  · exact h.ex2
  · intro c hc; rw [e2] at hc; exact h.ex3 c hc
  · exact h.ann
  · intro c hc; rw [e1, e3] at hc; exact h.fresh c hc
  · intro q hq
    have : q ≠ p := fun e => hq (e ▸ hp)
    simpa [EState.goto, Function.update_of_ne this] using h.off q hq

theorem EInv.connect (h : EInv ps cfg s d) {p : Nat} (hp : p ∈ ps) {q : Nat} {t : List Nat}
    (hL : (cfg p).parties.Perm ps) (hpc : s.pc p = .link (q :: t)) (hq : q < p) :
    EInv ps cfg ({ s with serial := s.serial + 1, pending := s.pending ++ [Conn.mk p q s.serial] }.goto p
      (.announce q ⟨p, q, s.serial⟩ t)) d := by
  have hposp := h.pos p hp
  rw [hpc] at hposp
  have hqps : q ∈ ps := hL.subset (by rw [show (cfg p).parties = d p ++ q :: t from hposp]; simp)
  set c0 : Conn := ⟨p, q, s.serial⟩ with hc0
  set s' := ({ s with serial := s.serial + 1, pending := s.pending ++ [c0] }.goto p
      (.announce q c0 t)) with hs'
  have hqp : q ≠ p := by omega
  have e1 : ∀ c, CAnn s' c ↔ CAnn s c ∨ c = c0 := by
    intro c
    unfold CAnn
    simp only [hs', EState.goto, Function.update_apply]
    split
    · next hc => simp only [pcAnn, hc, hpc]; simp [eq_comm]
    · next hc =>
      constructor
      · exact Or.inl
      · rintro (h | rfl)
        · exact h
        · exact absurd rfl hc
  have e2 : ∀ c, SAwait s' c ↔ SAwait s c := by
    intro c
    unfold SAwait
    simp only [hs', EState.goto, Function.update_apply]
    split
    · next hc => simp [pcAwait, hc, hpc]
    · rfl
  have e3 : ∀ c, CReg s' c ↔ CReg s c := fun c => Iff.rfl
  have e4 : ∀ c, SReg s' c ↔ SReg s c := fun c => Iff.rfl
  have nf : ¬ (CReg s c0 ∨ CAnn s c0) := fun hh => by
    have := (h.fresh c0 hh).1; simp [hc0] at this
  have nf' := mt (h.side c0).1 nf
  push Not at nf nf'
  have hpend : s'.pending = s.pending ++ [c0] := rfl
  constructor
  · intro r hr
    by_cases hrp : r = p
    · subst hrp; simpa [hs', EState.goto, Pos, hc0] using ⟨hposp, hq⟩
    · simpa [hs', EState.goto, Function.update_of_ne hrp] using h.pos r hr
  · exact h.dup
  · exact h.nd
  · exact h.entLow
  · exact h.entHigh
  · exact h.entNe
  · exact h.low
  · exact h.cnt
  · intro c; rw [e1, e2, e3, e4, hpend]
    have := h.side c
    simp only [List.mem_append, List.mem_singleton]
    tauto
  · rw [hpend]; exact List.Nodup.append h.pend (by simp) (by simpa using nf'.1)
  · intro c hc; rw [e2]; rw [hpend] at hc
    rcases List.mem_append.1 hc with hc | hc
    · exact h.ex1 c hc
    · rw [List.mem_singleton] at hc; subst hc; exact nf'.2.1
  · intro c hc; rw [e4]; rw [hpend] at hc
    rcases List.mem_append.1 hc with hc | hc
    · exact h.ex2 c hc
    · rw [List.mem_singleton] at hc; subst hc; exact nf'.2.2
  · intro c hc; rw [e2] at hc; exact h.ex3 c hc
  · exact h.ann
  · intro c hc; rw [e1, e3] at hc
    have hser : s'.serial = s.serial + 1 := rfl
    rw [hser]
    rcases hc with hc | hc | hc
    · have := h.fresh c (.inl hc); exact ⟨by omega, this.2⟩
    · have := h.fresh c (.inr hc); exact ⟨by omega, this.2⟩
    · subst hc; exact ⟨by simp [hc0], hp, hqps⟩
  · intro r hr
    have : r ≠ p := fun e => hr (e ▸ hp)
    simpa [hs', EState.goto, Function.update_of_ne this] using h.off r hr


theorem EInv.accept (h : EInv ps cfg s d) {p : Nat} (hp : p ∈ ps) {q : Nat} {t : List Nat} {c0 : Conn}
    {pre post : List Conn} (hpc : s.pc p = .link (q :: t)) (hq : p < q)
    (hc : s.pending = pre ++ c0 :: post) (hsv : c0.server = p) :
    EInv ps cfg ({ s with pending := pre ++ post }.goto p (.awaitId c0 t)) d := by
  have hposp := h.pos p hp
  rw [hpc] at hposp
  set s' := ({ s with pending := pre ++ post }.goto p (.awaitId c0 t)) with hs'
  have hnd : (c0 :: (pre ++ post)).Nodup := by
    have := h.pend; rw [hc] at this; exact (List.perm_middle.nodup_iff).1 this
  rw [List.nodup_cons] at hnd
  have hmem : ∀ c, c ∈ s.pending ↔ c = c0 ∨ c ∈ pre ++ post := by
    intro c; rw [hc, List.perm_middle.mem_iff, List.mem_cons]
  have hc0 : c0 ∈ s.pending := (hmem _).2 (.inl rfl)
  have e1 : ∀ c, CAnn s' c ↔ CAnn s c := by
    intro c
    unfold CAnn
    simp only [hs', EState.goto, Function.update_apply]
    split
    · next hc => simp [pcAnn, hc, hpc]
    · rfl
  have e2 : ∀ c, SAwait s' c ↔ SAwait s c ∨ c = c0 := by
    intro c
    unfold SAwait
    simp only [hs', EState.goto, Function.update_apply]
    split
    · next hc => simp only [pcAwait, hc, hpc]; simp [eq_comm]
    · next hcn =>
      constructor
      · exact Or.inl
      · rintro (h | rfl)
        · exact h
        · exact absurd hsv hcn
  have e3 : ∀ c, CReg s' c ↔ CReg s c := fun c => Iff.rfl
  have e4 : ∀ c, SReg s' c ↔ SReg s c := fun c => Iff.rfl
  have hpend : s'.pending = pre ++ post := rfl
  constructor
  · intro r hr
    by_cases hrp : r = p
    · subst hrp; simpa [hs', EState.goto, Pos] using ⟨⟨q, hq, hposp⟩, hsv⟩
    · simpa [hs', EState.goto, Function.update_of_ne hrp] using h.pos r hr
  · exact h.dup
  · exact h.nd
  · exact h.entLow
  · exact h.entHigh
  · exact h.entNe
  · exact h.low
  · exact h.cnt
  · intro c; rw [e1, e2, e3, e4, hpend, ← h.side c, hmem c]
    tauto
  · rw [hpend]; exact hnd.2
  · intro c hm; rw [e2]; rw [hpend] at hm
    rintro (h1 | rfl)
    · exact h.ex1 c ((hmem c).2 (.inr hm)) h1
    · exact hnd.1 hm
  · intro c hc; rw [e4]; rw [hpend] at hc
    exact h.ex2 c ((hmem c).2 (.inr hc))
  · intro c hc; rw [e2] at hc; rw [e4]
    rcases hc with hc | rfl
    · exact h.ex3 c hc
    · exact h.ex2 _ hc0
  · exact h.ann
  · intro c hc; rw [e1, e3] at hc; exact h.fresh c hc
  · intro r hr
    have : r ≠ p := fun e => hr (e ▸ hp)
    simpa [hs', EState.goto, Function.update_of_ne this] using h.off r hr

theorem mem_keys {m : List (Nat × Conn)} {k : Nat} : k ∈ mapKeys m ↔ ∃ c, (k, c) ∈ m := by
  simp [mapKeys]

theorem keys_unique {m : List (Nat × Conn)} (h : (mapKeys m).Nodup) {k : Nat} {c c' : Conn}
    (h1 : (k, c) ∈ m) (h2 : (k, c') ∈ m) : c = c' := by
  have := List.inj_on_of_nodup_map h h1 h2 rfl
  exact congrArg Prod.snd this

theorem EInv.announce (h : EInv ps cfg s d) (hn : ps.Nodup) {p : Nat} (hp : p ∈ ps) {q : Nat}
    {t : List Nat} {c0 : Conn} (hL : (cfg p).parties.Perm ps) (hpc : s.pc p = .announce q c0 t) :
    EInv ps cfg ({ s with announced := Function.update s.announced c0 (some p) }.register p q c0 t)
      (Function.update d p (d p ++ [q])) := by
  have hposp := h.pos p hp
  rw [hpc] at hposp
  obtain ⟨hl, hq, hcl, hsv⟩ := hposp
  have hqd : q ∉ d p := by
    have : (cfg p).parties.Nodup := hL.nodup_iff.2 hn
    rw [hl, List.nodup_append] at this
    intro hm
    exact this.2.2 q hm q (by simp) rfl
  have hqk : q ∉ mapKeys (s.conns p) := by
    intro hm
    obtain ⟨c, hc⟩ := mem_keys.1 hm
    exact hqd (h.entLow p hp q c hc hq).1
  have hcann : CAnn s c0 := by unfold CAnn; rw [hcl, hpc]; rfl
  have hncr : ¬ CReg s c0 := by
    rintro ⟨hm, hlt⟩; rw [hcl, hsv] at hm; exact hqk (mem_keys.2 ⟨_, hm⟩)
  unfold EState.register
  rw [if_neg hqk]
  set s' := (EState.goto { s with
    announced := Function.update s.announced c0 (some p),
    conns := Function.update s.conns p (s.conns p ++ [(q, c0)]) } p (.link t)) with hs'
  have hconns : ∀ r, s'.conns r = if r = p then s.conns p ++ [(q, c0)] else s.conns r := by
    intro r; simp only [hs', EState.goto, Function.update_apply]
  have hkeys : ∀ r, mapKeys (s'.conns r) = if r = p then mapKeys (s.conns p) ++ [q] else mapKeys (s.conns r) := by
    intro r; rw [hconns]; split <;> simp [mapKeys]
  have e1 : ∀ c, CAnn s' c ↔ CAnn s c ∧ c ≠ c0 := by
    intro c
    unfold CAnn
    simp only [hs', EState.goto, Function.update_apply]
    split
    · next hc => simp only [pcAnn, hc, hpc]; simp [eq_comm]
    · next hc =>
      constructor
      · intro h; exact ⟨h, fun e => hc (e ▸ hcl)⟩
      · exact fun h => h.1
  have e2 : ∀ c, SAwait s' c ↔ SAwait s c := by
    intro c
    unfold SAwait
    simp only [hs', EState.goto, Function.update_apply]
    split
    · next hc => simp [pcAwait, hc, hpc]
    · rfl
  have e3 : ∀ c, CReg s' c ↔ CReg s c ∨ c = c0 := by
    intro c
    unfold CReg
    rw [hconns]
    split
    · next hc =>
      simp only [hc, List.mem_append, List.mem_singleton, Prod.mk.injEq]
      constructor
      · rintro ⟨h1 | ⟨h1, h2⟩, h3⟩
        · exact .inl ⟨h1, h3⟩
        · exact .inr h2
      · rintro (h1 | h1)
        · exact ⟨.inl h1.1, h1.2⟩
        · subst h1; exact ⟨.inr ⟨hsv, rfl⟩, by omega⟩
    · next hc =>
      constructor
      · exact .inl
      · rintro (h1 | h1)
        · exact h1
        · exact absurd (h1 ▸ hcl) hc
  have e4 : ∀ c, SReg s' c ↔ SReg s c := by
    intro c
    unfold SReg
    rw [hconns]
    split
    · next hc =>
      simp only [hc, List.mem_append, List.mem_singleton, Prod.mk.injEq]
      constructor
      · rintro ⟨h1 | ⟨h1, h2⟩, h3⟩
        · exact ⟨h1, h3⟩
        · omega
      · exact fun h1 => ⟨.inl h1.1, h1.2⟩
    · rfl
  have hpend : s'.pending = s.pending := rfl
  constructor
  · intro r hr
    by_cases hrp : r = p
    · subst hrp; simpa [hs', EState.goto, Pos] using hl
    · simpa [hs', EState.goto, Function.update_of_ne hrp] using h.pos r hr
  · exact h.dup
  · intro r hr
    rw [hkeys]
    split
    · exact List.Nodup.append (h.nd p hp) (by simp) (by simpa using hqk)
    · exact h.nd r hr
  · intro r hr k c hm hk
    rw [hconns] at hm
    by_cases hrp : r = p
    · subst hrp
      rw [if_pos rfl] at hm
      simp only [Function.update_self]
      rcases List.mem_append.1 hm with hm | hm
      · have := h.entLow r hr k c hm hk
        exact ⟨List.mem_append_left _ this.1, this.2⟩
      · simp only [List.mem_singleton, Prod.mk.injEq] at hm
        obtain ⟨rfl, rfl⟩ := hm
        exact ⟨by simp, hcl, hsv⟩
    · rw [if_neg hrp] at hm; rw [Function.update_of_ne hrp]; exact h.entLow r hr k c hm hk
  · intro r hr k c hm hk
    rw [hconns] at hm
    by_cases hrp : r = p
    · subst hrp
      rw [if_pos rfl] at hm
      rcases List.mem_append.1 hm with hm | hm
      · exact h.entHigh r hr k c hm hk
      · simp only [List.mem_singleton, Prod.mk.injEq] at hm
        obtain ⟨rfl, rfl⟩ := hm
        omega
    · rw [if_neg hrp] at hm; exact h.entHigh r hr k c hm hk
  · intro r hr k c hm
    rw [hconns] at hm
    by_cases hrp : r = p
    · subst hrp
      rw [if_pos rfl] at hm
      rcases List.mem_append.1 hm with hm | hm
      · exact h.entNe r hr k c hm
      · simp only [List.mem_singleton, Prod.mk.injEq] at hm
        obtain ⟨rfl, rfl⟩ := hm
        omega
    · rw [if_neg hrp] at hm; exact h.entNe r hr k c hm
  · intro r hr k hk hkr
    rw [hkeys]
    by_cases hrp : r = p
    · subst hrp
      rw [if_pos rfl]
      simp only [Function.update_self, List.mem_append] at hk ⊢
      rcases hk with hk | hk
      · exact .inl (h.low r hr k hk hkr)
      · exact .inr hk
    · rw [Function.update_of_ne hrp] at hk; rw [if_neg hrp]; exact h.low r hr k hk hkr
  · intro r hr
    rw [hkeys]
    by_cases hrp : r = p
    · subst hrp
      simp [h.cnt r hr]
    · rw [Function.update_of_ne hrp, if_neg hrp]; exact h.cnt r hr
  · intro c; rw [e1, e2, e3, e4, hpend, h.side c]
    by_cases hc : c = c0
    · subst hc; simp [hcann]
    · simp [hc]
  · exact h.pend
  · intro c hc; rw [e2]; exact h.ex1 c hc
  · intro c hc; rw [e4]; exact h.ex2 c hc
  · intro c hc; rw [e2] at hc; rw [e4]; exact h.ex3 c hc
  · intro c x
    rw [e3]
    have ha : s'.announced c = if c = c0 then some p else s.announced c := by
      simp only [hs', EState.goto, Function.update_apply]
    rw [ha]
    by_cases hc : c = c0
    · subst hc; simp [hcl, eq_comm]
    · simp only [hc, or_false, if_false]; exact h.ann c x
  · intro c hc; rw [e1, e3] at hc
    by_cases h0 : c = c0
    · subst h0; exact h.fresh c (.inr hcann)
    · refine h.fresh c ?_
      simpa [h0] using hc
  · intro r hr
    have : r ≠ p := fun e => hr (e ▸ hp)
    rw [hconns, if_neg this]
    simpa [hs', EState.goto, Function.update_of_ne this] using h.off r hr

theorem EInv.readId (h : EInv ps cfg s d) {p : Nat} (hp : p ∈ ps)
    {t : List Nat} {c0 : Conn} {k : Nat} (hpc : s.pc p = .awaitId c0 t) (hk : s.announced c0 = some k) :
    ∃ x, p < x ∧ EInv ps cfg (s.register p k c0 t) (Function.update d p (d p ++ [x])) ∧
      (s.register p k c0 t).pc p = .link t := by
  have hposp := h.pos p hp
  rw [hpc] at hposp
  obtain ⟨⟨x, hx, hl⟩, hsv⟩ := hposp
  obtain ⟨rfl, hcreg⟩ := (h.ann c0 k).1 hk
  have haw : SAwait s c0 := by unfold SAwait; rw [hsv, hpc]; rfl
  have hlt : p < c0.client := hsv ▸ hcreg.2
  have hfr := h.fresh c0 (.inl hcreg)
  have hkk : c0.client ∉ mapKeys (s.conns p) := by
    intro hm
    obtain ⟨c, hc⟩ := mem_keys.1 hm
    obtain ⟨h1, h2⟩ := h.entHigh p hp _ c hc hlt
    have hsr : SReg s c := ⟨by rw [h1, h2]; exact hc, by omega⟩
    rcases (h.side c).1 (.inr (.inr hsr)) with h3 | h3
    · have := keys_unique (h.nd _ hfr.2.1) hcreg.1 (by
        have := h3.1; rw [h1, h2] at this; rw [hsv]; exact this)
      subst this
      exact h.ex3 _ haw hsr
    · unfold CAnn at h3
      rw [h1] at h3
      have h4 := h.pos _ hfr.2.1
      generalize s.pc c0.client = z at h3 h4
      cases z <;> simp only [pcAnn, reduceCtorEq, Option.some.injEq] at h3
      subst h3
      obtain ⟨h5, h6, h7, h8⟩ := h4
      have h9 := (h.entLow _ hfr.2.1 _ _ hcreg.1 hcreg.2).1
      rw [hsv, ← h2, h8] at h9
      -- p is both dealt with and current
      have h10 : (mapKeys (s.conns c0.client)).Nodup := h.nd _ hfr.2.1
      exact absurd h9 (by
        intro h11
        have := h.dup _ hfr.2.1
        rw [h5, List.nodup_append] at this
        exact this.2.2 _ h11 _ (by simp) rfl)
  unfold EState.register
  rw [if_neg hkk]
  set s' := (EState.goto { s with
    conns := Function.update s.conns p (s.conns p ++ [(c0.client, c0)]) } p (.link t)) with hs'
  have hconns : ∀ r, s'.conns r = if r = p then s.conns p ++ [(c0.client, c0)] else s.conns r := by
    intro r; simp only [hs', EState.goto, Function.update_apply]
  have hkeys : ∀ r, mapKeys (s'.conns r) =
      if r = p then mapKeys (s.conns p) ++ [c0.client] else mapKeys (s.conns r) := by
    intro r; rw [hconns]; split <;> simp [mapKeys]
  have e1 : ∀ c, CAnn s' c ↔ CAnn s c := by
    intro c
    unfold CAnn
    simp only [hs', EState.goto, Function.update_apply]
    split
    · next hc => simp [pcAnn, hc, hpc]
    · rfl
  have e2 : ∀ c, SAwait s' c ↔ SAwait s c ∧ c ≠ c0 := by
    intro c
    unfold SAwait
    simp only [hs', EState.goto, Function.update_apply]
    split
    · next hc => simp only [pcAwait, hc, hpc]; simp [eq_comm]
    · next hc =>
      constructor
      · intro h; exact ⟨h, fun e => hc (e ▸ hsv)⟩
      · exact fun h => h.1
  have e4 : ∀ c, SReg s' c ↔ SReg s c ∨ c = c0 := by
    intro c
    unfold SReg
    rw [hconns]
    split
    · next hc =>
      simp only [hc, List.mem_append, List.mem_singleton, Prod.mk.injEq]
      constructor
      · rintro ⟨h1 | ⟨h1, h2⟩, h3⟩
        · exact .inl ⟨h1, h3⟩
        · exact .inr h2
      · rintro (h1 | h1)
        · exact ⟨.inl h1.1, h1.2⟩
        · subst h1; exact ⟨.inr ⟨rfl, rfl⟩, by omega⟩
    · next hc =>
      constructor
      · exact .inl
      · rintro (h1 | h1)
        · exact h1
        · exact absurd (h1 ▸ hsv) hc
  have e3 : ∀ c, CReg s' c ↔ CReg s c := by
    intro c
    unfold CReg
    rw [hconns]
    split
    · next hc =>
      simp only [hc, List.mem_append, List.mem_singleton, Prod.mk.injEq]
      constructor
      · rintro ⟨h1 | ⟨h1, h2⟩, h3⟩
        · exact ⟨h1, h3⟩
        · omega
      · exact fun h1 => ⟨.inl h1.1, h1.2⟩
    · rfl
  have hpend : s'.pending = s.pending := rfl
  refine ⟨x, hx, ?_, by simp [hs', EState.goto]⟩
  constructor
  · intro r hr
    by_cases hrp : r = p
    · subst hrp; simpa [hs', EState.goto, Pos] using hl
    · simpa [hs', EState.goto, Function.update_of_ne hrp] using h.pos r hr
  · exact h.dup
  · intro r hr
    rw [hkeys]
    split
    · exact List.Nodup.append (h.nd p hp) (by simp) (by simpa using hkk)
    · exact h.nd r hr
  · intro r hr k c hm hk
    rw [hconns] at hm
    by_cases hrp : r = p
    · subst hrp
      rw [if_pos rfl] at hm
      simp only [Function.update_self]
      rcases List.mem_append.1 hm with hm | hm
      · have := h.entLow r hr k c hm hk
        exact ⟨List.mem_append_left _ this.1, this.2⟩
      · simp only [List.mem_singleton, Prod.mk.injEq] at hm
        obtain ⟨rfl, rfl⟩ := hm
        omega
    · rw [if_neg hrp] at hm; rw [Function.update_of_ne hrp]; exact h.entLow r hr k c hm hk
  · intro r hr k c hm hk
    rw [hconns] at hm
    by_cases hrp : r = p
    · subst hrp
      rw [if_pos rfl] at hm
      rcases List.mem_append.1 hm with hm | hm
      · exact h.entHigh r hr k c hm hk
      · simp only [List.mem_singleton, Prod.mk.injEq] at hm
        obtain ⟨rfl, rfl⟩ := hm
        exact ⟨rfl, hsv⟩
    · rw [if_neg hrp] at hm; exact h.entHigh r hr k c hm hk
  · intro r hr k c hm
    rw [hconns] at hm
    by_cases hrp : r = p
    · subst hrp
      rw [if_pos rfl] at hm
      rcases List.mem_append.1 hm with hm | hm
      · exact h.entNe r hr k c hm
      · simp only [List.mem_singleton, Prod.mk.injEq] at hm
        obtain ⟨rfl, rfl⟩ := hm
        omega
    · rw [if_neg hrp] at hm; exact h.entNe r hr k c hm
  · intro r hr k hk hkr
    rw [hkeys]
    by_cases hrp : r = p
    · subst hrp
      rw [if_pos rfl]
      simp only [Function.update_self, List.mem_append, List.mem_singleton] at hk ⊢
      rcases hk with hk | hk
      · exact .inl (h.low r hr k hk hkr)
      · omega
    · rw [Function.update_of_ne hrp] at hk; rw [if_neg hrp]; exact h.low r hr k hk hkr
  · intro r hr
    rw [hkeys]
    by_cases hrp : r = p
    · subst hrp
      simp [h.cnt r hr, hx, hlt]
    · rw [Function.update_of_ne hrp, if_neg hrp]; exact h.cnt r hr
  · intro c; rw [e1, e2, e3, e4, hpend, ← h.side c]
    by_cases hc : c = c0
    · subst hc; simp [haw]
    · simp [hc]
  · exact h.pend
  · intro c hc; rw [e2]; exact fun hh => h.ex1 c hc hh.1
  · intro c hc; rw [e4]
    rintro (h1 | rfl)
    · exact h.ex2 c hc h1
    · exact h.ex1 _ hc haw
  · intro c hc; rw [e2] at hc; rw [e4]
    rintro (h1 | h1)
    · exact h.ex3 c hc.1 h1
    · exact hc.2 h1
  · intro c x; rw [e3]; exact h.ann c x
  · intro c hc; rw [e1, e3] at hc; exact h.fresh c hc
  · intro r hr
    have : r ≠ p := fun e => hr (e ▸ hp)
    rw [hconns, if_neg this]
    simpa [hs', EState.goto, Function.update_of_ne this] using h.off r hr


/-- `EInv` does not mention the bidirectional streams. -/
theorem EInv.congr (h : EInv ps cfg s d) (hello echo : Conn → Option Nat)
    (channels : Nat → List (Nat × Conn)) :
    EInv ps cfg { s with hello := hello, echo := echo, channels := channels } d :=
  ⟨h.pos, h.dup, h.nd, h.entLow, h.entHigh, h.entNe, h.low, h.cnt, h.side, h.pend, h.ex1, h.ex2, h.ex3,
    h.ann, h.fresh, h.off⟩

/-- `e` is the part of the connection map `K` party `p` has set up channels for. -/
def Pos2 (K : List Nat) (p : Nat) : Pc → List Nat → Prop
  | .chans t, e => K = e ++ t
  | .awaitEcho q t, e => K = e ++ q :: t ∧ q < p
  | .done, e => K = e
  | _, e => e = []

def EchoAt (q : Nat) : Pc → Prop
  | .awaitEcho q' _ => q' = q
  | _ => False

def Phase2 : Pc → Prop
  | .chans _ => True
  | .awaitEcho _ _ => True
  | .done => True
  | _ => False

structure EInv2 (ps : List Nat) (s : EState) (e : Nat → List Nat) : Prop where
  pos2 : ∀ p ∈ ps, Pos2 (sortedKeys (s.conns p)) p (s.pc p) (e p)
  chn : ∀ p ∈ ps, mapKeys (s.channels p) = e p
  sub : ∀ p ∈ ps, ∀ x ∈ s.channels p, x ∈ s.conns p
  hel : ∀ c x, s.hello c = some x ↔
    x = c.client ∧ CReg s c ∧ (c.server ∈ e c.client ∨ EchoAt c.server (s.pc c.client))
  ech : ∀ c x, s.echo c = some x ↔ x = c.server ∧ SReg s c ∧ c.client ∈ e c.server
  off : ∀ p, p ∉ ps → s.pc p = .start ∧ e p = []

theorem EInv2.init (ps) : EInv2 ps EState.init (fun _ => []) := by
  constructor <;> simp [EState.init, Pos2, mapKeys, EchoAt]

variable {e : Nat → List Nat}

/-- A step of the first phase. -/
theorem EInv2.phase1 (h : EInv2 ps s e) {s' : EState} {p : Nat} (hp : p ∈ ps) {x : Pc}
    (h1 : ¬ Phase2 (s.pc p)) (h2 : ¬ Phase2 x) (hpc : s'.pc = Function.update s.pc p x)
    (hc : ∀ r, r ≠ p → s'.conns r = s.conns r) (hh : s'.hello = s.hello) (he : s'.echo = s.echo)
    (hch : s'.channels = s.channels) : EInv2 ps s' e := by
  have hep : e p = [] := by
    have := h.pos2 p hp
    revert this h1
    cases s.pc p <;> simp [Phase2, Pos2]
  have hchp : s.channels p = [] := by
    have := h.chn p hp; rw [hep] at this; simpa [mapKeys] using this
  constructor
  · intro r hr
    rw [hpc]
    by_cases hrp : r = p
    · subst hrp
      rw [Function.update_self, hep]
      revert h2
      cases x <;> simp [Phase2, Pos2]
    · rw [Function.update_of_ne hrp, hc r hrp]; exact h.pos2 r hr
  · rw [hch]; exact h.chn
  · intro r hr y hy
    rw [hch] at hy
    by_cases hrp : r = p
    · subst hrp; rw [hchp] at hy; simp at hy
    · rw [hc r hrp]; exact h.sub r hr y hy
  · intro c y
    rw [hh, h.hel]
    by_cases hcp : c.client = p
    · have e1 : ¬ EchoAt c.server (s.pc c.client) := by
        rw [hcp]; revert h1; cases s.pc p <;> simp [Phase2, EchoAt]
      have e2 : ¬ EchoAt c.server (s'.pc c.client) := by
        rw [hcp, hpc, Function.update_self]; revert h2; cases x <;> simp [Phase2, EchoAt]
      have e3 : c.server ∉ e c.client := by simp [hcp, hep]
      simp [e1, e2, e3]
    · have : CReg s' c ↔ CReg s c := by unfold CReg; rw [hc _ hcp]
      rw [this, hpc, Function.update_of_ne hcp]
  · intro c y
    rw [he, h.ech]
    by_cases hcp : c.server = p
    · simp [hcp, hep]
    · have : SReg s' c ↔ SReg s c := by unfold SReg; rw [hc _ hcp]
      rw [this]
  · intro r hr
    have : r ≠ p := fun ee => hr (ee ▸ hp)
    rw [hpc, Function.update_of_ne this]
    exact h.off r hr

theorem Pos.sub {L : List Nat} {p : Nat} {x : Pc} {l : List Nat} (h : Pos L p x l) : ∀ k ∈ l, k ∈ L := by
  intro k hk
  cases x with
  | start => rw [show l = [] from h] at hk; simp at hk
  | link t => rw [show L = l ++ t from h]; simp [hk]
  | announce q c t => rw [h.1]; simp [hk]
  | awaitId c t => obtain ⟨⟨y, _, h⟩, _⟩ := h; rw [h]; simp [hk]
  | chans t => rw [show L = l from h]; exact hk
  | awaitEcho q t => rw [show L = l from h]; exact hk
  | done => rw [show L = l from h]; exact hk
  | failed => exact h.elim

/-- Every key in a connection map is another party. -/
theorem EInv.keys_mem (h : EInv ps cfg s d) (hL : ∀ p ∈ ps, (cfg p).parties.Perm ps) {p : Nat}
    (hp : p ∈ ps) {k : Nat} (hk : k ∈ mapKeys (s.conns p)) : k ∈ ps ∧ k ≠ p := by
  obtain ⟨c, hc⟩ := mem_keys.1 hk
  have hne := h.entNe p hp k c hc
  refine ⟨?_, hne⟩
  rcases Nat.lt_or_gt_of_ne hne with hlt | hlt
  · exact (hL p hp).subset ((h.pos p hp).sub _ (h.entLow p hp k c hc hlt).1)
  · obtain ⟨h1, h2⟩ := h.entHigh p hp k c hc hlt
    have : SReg s c := ⟨by rw [h1, h2]; exact hc, by omega⟩
    have := h.fresh c ((h.side c).1 (.inr (.inr this)))
    exact h1 ▸ this.2.1

theorem countP_le_of_subset {P : Nat → Bool} {l₁ l₂ : List Nat} (hn : l₁.Nodup)
    (hs : ∀ k ∈ l₁, P k = true → k ∈ l₂) : l₁.countP P ≤ l₂.countP P := by
  rw [List.countP_eq_length_filter, List.countP_eq_length_filter]
  apply List.Subperm.length_le
  apply List.Nodup.subperm (hn.filter _)
  intro k hk
  rw [List.mem_filter] at hk ⊢
  exact ⟨hs k hk.1 hk.2, hk.2⟩

/-- A party that has gone through its list has exactly the other parties in its map. -/
theorem EInv.keys_complete (h : EInv ps cfg s d)
    (hL : ∀ p ∈ ps, (cfg p).parties.Perm ps) {p : Nat} (hp : p ∈ ps) (hd : d p = (cfg p).parties) {k : Nat} :
    k ∈ mapKeys (s.conns p) ↔ k ∈ ps ∧ k ≠ p := by
  refine ⟨fun hk => h.keys_mem hL hp hk, ?_⟩
  rintro ⟨hk, hne⟩
  rcases Nat.lt_or_gt_of_ne hne with hlt | hlt
  · exact h.low p hp k (by rw [hd]; exact (hL p hp).symm.subset hk) hlt
  · -- counting
    by_contra hc
    have h1 := h.cnt p hp
    rw [hd, (hL p hp).countP_eq] at h1
    have h2 : (k :: mapKeys (s.conns p)).countP (fun k => decide (p < k)) ≤
        ps.countP (fun k => decide (p < k)) := by
      apply countP_le_of_subset
      · rw [List.nodup_cons]; exact ⟨hc, h.nd p hp⟩
      · intro y hy _
        rcases List.mem_cons.1 hy with rfl | hy
        · exact hk
        · exact (h.keys_mem hL hp hy).1
    rw [List.countP_cons_of_pos (by simpa using hlt)] at h2
    omega

theorem EInv.d_phase2 (h : EInv ps cfg s d) {p : Nat} (hp : p ∈ ps) (h2 : Phase2 (s.pc p)) :
    d p = (cfg p).parties := by
  have := h.pos p hp
  revert this h2
  cases s.pc p <;> simp [Phase2, Pos, eq_comm]

/-- If `p` is beyond the first phase and `q > p` too, the connection `q` opened to `p` is the one `p`
registered. -/
theorem EInv.sreg_of_creg (h : EInv ps cfg s d)
    (hL : ∀ p ∈ ps, (cfg p).parties.Perm ps) {c : Conn} (hc : CReg s c)
    (h1 : Phase2 (s.pc c.server)) (h2 : Phase2 (s.pc c.client)) : SReg s c := by
  have hf := h.fresh c (.inl hc)
  have hk := (h.keys_complete hL hf.2.2 (h.d_phase2 hf.2.2 h1) (k := c.client)).2
    ⟨hf.2.1, by have := hc.2; omega⟩
  obtain ⟨c', hc'⟩ := mem_keys.1 hk
  obtain ⟨h3, h4⟩ := h.entHigh _ hf.2.2 _ c' hc' hc.2
  have hs : SReg s c' := ⟨by rw [h3, h4]; exact hc', by rw [h3, h4]; exact hc.2⟩
  rcases (h.side c').1 (.inr (.inr hs)) with h5 | h5
  · have h6 := h5.1
    rw [h3, h4] at h6
    have := keys_unique (h.nd _ hf.2.1) hc.1 h6
    rw [this]; exact hs
  · unfold CAnn at h5
    rw [h3] at h5
    revert h2 h5
    cases s.pc c.client <;> simp [Phase2, pcAnn]

theorem sortedKeys_perm (m : List (Nat × Conn)) : (sortedKeys m).Perm (mapKeys m) := sort_perm _

theorem sortedKeys_lt {m : List (Nat × Conn)} (h : (mapKeys m).Nodup) :
    (sortedKeys m).Pairwise (· < ·) := by
  have h1 := sort_sorted (mapKeys m)
  have h2 : (sortedKeys m).Nodup := (sortedKeys_perm m).nodup_iff.2 h
  exact (h1.and h2).imp (fun ⟨a, b⟩ => Nat.lt_of_le_of_ne a b)

/-- Weight of what remains to be done. -/
def pcWeight (N : Nat) : Pc → Nat
  | .start => 4 * N + 5
  | .link t => 2 * t.length + 2 * N + 2
  | .announce _ _ t => 2 * t.length + 2 * N + 3
  | .awaitId _ t => 2 * t.length + 2 * N + 3
  | .chans t => 2 * t.length + 1
  | .awaitEcho _ t => 2 * t.length + 2
  | .done => 0
  | .failed => 0

def EState.weight (ps : List Nat) (s : EState) : Nat := (ps.map (fun p => pcWeight ps.length (s.pc p))).sum

theorem weight_lt {ps : List Nat} {s s' : EState} {p : Nat} (hp : p ∈ ps) {x : Pc}
    (hpc : s'.pc = Function.update s.pc p x) (hx : pcWeight ps.length x < pcWeight ps.length (s.pc p)) :
    s'.weight ps < s.weight ps := by
  unfold EState.weight
  apply List.sum_lt_sum
  · intro i _
    rw [hpc]
    by_cases h : i = p
    · subst h; rw [Function.update_self]; omega
    · rw [Function.update_of_ne h]
  · exact ⟨p, hp, by rw [hpc, Function.update_self]; exact hx⟩


theorem NetSetup.check (g : NetSetup ps cfg) {p : Nat} (hp : p ∈ ps) : checkConfig (cfg p) = .ok () := by
  rw [checkConfig_ok, g.me p hp]
  exact ⟨(g.perm p hp).symm.subset hp, (g.perm p hp).nodup_iff.2 g.nodup⟩

theorem NetSetup.other (g : NetSetup ps cfg) (p : Nat) : ∃ q ∈ ps, q ≠ p := by
  by_contra hc
  push Not at hc
  have : ps.Subperm [p] := g.nodup.subperm (fun q hq => by simp [hc q hq])
  have := this.length_le
  have := g.two
  simp at *
  omega

theorem asU32_small {n : Nat} (h : n < 2 ^ 32) : asU32 n = n := Nat.mod_eq_of_lt h

theorem EInv.step (g : NetSetup ps cfg) (h : EInv ps cfg s d) (h2 : EInv2 ps s e) {p : Nat} (hp : p ∈ ps)
    {s' : EState} (hs : EStep cfg p s s') :
    ∃ d' e', EInv ps cfg s' d' ∧ EInv2 ps s' e' ∧ s'.weight ps < s.weight ps := by
  have hme := g.me p hp
  have hlen : (cfg p).parties.length = ps.length := (g.perm p hp).length_eq
  cases hs with
  | start hpc hc =>
    have hd : d p = [] := by have := h.pos p hp; rw [hpc] at this; exact this
    refine ⟨_, e, h.goto hp (x := .link (cfg p).parties) (l := []) (by rw [hpc]; rfl) (by rw [hpc]; rfl) rfl rfl
      (by simp [Pos, hd]) (by simp), ?_, ?_⟩
    · exact h2.phase1 hp (x := .link (cfg p).parties) (by simp [hpc, Phase2]) (by simp [Phase2]) rfl
        (fun _ _ => rfl) rfl rfl rfl
    · exact weight_lt hp (x := .link (cfg p).parties) rfl (by simp only [hpc, pcWeight, hlen]; omega)
  | badConfig hpc hc => rw [g.check hp] at hc; cases hc
  | @skip q todo hpc hq =>
    have hL := h.pos p hp
    rw [hpc] at hL
    refine ⟨_, e, h.goto hp (x := .link todo) (l := [q]) (by rw [hpc]; rfl) (by rw [hpc]; rfl) rfl rfl
      (by simpa [Pos] using hL) (by simp [hq, hme]), ?_, ?_⟩
    · exact h2.phase1 hp (x := .link todo) (by simp [hpc, Phase2]) (by simp [Phase2]) rfl
        (fun _ _ => rfl) rfl rfl rfl
    · exact weight_lt hp (x := .link todo) rfl (by simp only [hpc, pcWeight, List.length_cons]; omega)
  | @connect q todo hpc hq hb =>
    refine ⟨d, e, h.connect hp (g.perm p hp) hpc (hme ▸ hq), ?_, ?_⟩
    · exact h2.phase1 hp (x := .announce q ⟨p, q, s.serial⟩ todo) (by simp [hpc, Phase2])
        (by simp [Phase2]) rfl (fun _ _ => rfl) rfl rfl rfl
    · exact weight_lt hp (x := .announce q ⟨p, q, s.serial⟩ todo) rfl
        (by simp only [hpc, pcWeight, List.length_cons]; omega)
  | @announce q c todo hpc hid =>
    rw [hme]
    have hi := h.announce g.nodup hp (g.perm p hp) hpc
    have hk : q ∉ mapKeys (s.conns p) := by
      intro hk
      have hp1 := hi.pos p hp
      simp [EState.register, hk, EState.goto, Pos] at hp1
    refine ⟨_, e, hi, ?_, ?_⟩
    · unfold EState.register
      rw [if_neg hk]
      exact h2.phase1 hp (x := .link todo) (by simp [hpc, Phase2])
        (by simp [Phase2]) rfl (fun r hr => by simp [EState.goto, Function.update_of_ne hr]) rfl rfl rfl
    · unfold EState.register
      rw [if_neg hk]
      exact weight_lt hp (x := .link todo) rfl (by simp only [hpc, pcWeight]; omega)
  | idTooLarge hpc hid => have := g.small p hp; omega
  | @accept q todo c pre post hpc hq hc hsv =>
    refine ⟨d, e, h.accept hp hpc (hme ▸ hq) hc hsv, ?_, ?_⟩
    · exact h2.phase1 hp (x := .awaitId c todo) (by simp [hpc, Phase2])
        (by simp [Phase2]) rfl (fun _ _ => rfl) rfl rfl rfl
    · exact weight_lt hp (x := .awaitId c todo) rfl
        (by simp only [hpc, pcWeight, List.length_cons]; omega)
  | @readId c todo k hpc hk =>
    obtain ⟨x, hx, hi, hl⟩ := h.readId hp hpc hk
    have hkk : k ∉ mapKeys (s.conns p) := by
      intro hk
      simp [EState.register, hk, EState.goto] at hl
    refine ⟨_, e, hi, ?_, ?_⟩
    · unfold EState.register
      rw [if_neg hkk]
      exact h2.phase1 hp (x := .link todo) (by simp [hpc, Phase2])
        (by simp [Phase2]) rfl (fun r hr => by simp [EState.goto, Function.update_of_ne hr]) rfl rfl rfl
    · unfold EState.register
      rw [if_neg hkk]
      exact weight_lt hp (x := .link todo) rfl (by simp only [hpc, pcWeight]; omega)
  | enter hpc =>
    have hd : d p = (cfg p).parties := by
      have := h.pos p hp; rw [hpc] at this; simpa [Pos, eq_comm] using this
    obtain ⟨q, hq, hqp⟩ := g.other p
    have hqk := (h.keys_complete g.perm hp hd).2 ⟨hq, hqp⟩
    have hne : ¬ (s.conns p).length = 0 := by
      intro h0
      rw [List.length_eq_zero_iff] at h0
      simp [h0, mapKeys] at hqk
    rw [if_neg hne]
    have hep : e p = [] := by have := h2.pos2 p hp; rw [hpc] at this; exact this
    have hklen : (sortedKeys (s.conns p)).length ≤ ps.length := by
      rw [(sortedKeys_perm _).length_eq]
      exact ((h.nd p hp).subperm (fun k hk => (h.keys_mem g.perm hp hk).1)).length_le
    refine ⟨_, e, h.goto hp (x := .chans (sortedKeys (s.conns p))) (l := []) (by rw [hpc]; rfl)
      (by rw [hpc]; rfl) rfl rfl (by simp [Pos, hd]) (by simp), ?_, ?_⟩
    · constructor
      · intro r hr
        by_cases hrp : r = p
        · subst hrp; simp [EState.goto, Pos2, hep]
        · simpa [EState.goto, Function.update_of_ne hrp] using h2.pos2 r hr
      · exact h2.chn
      · exact h2.sub
      · intro c x
        have : (s.goto p (.chans (sortedKeys (s.conns p)))).hello = s.hello := rfl
        rw [this, h2.hel]
        by_cases hcp : c.client = p
        · simp [EState.goto, hcp, hpc, EchoAt, hep]
        · simp only [EState.goto, Function.update_of_ne hcp]; rfl
      · exact h2.ech
      · intro r hr
        have : r ≠ p := fun ee => hr (ee ▸ hp)
        simpa [EState.goto, Function.update_of_ne this] using h2.off r hr
    · exact weight_lt hp (x := .chans (sortedKeys (s.conns p))) rfl
        (by simp only [hpc, pcWeight, List.length_nil]; omega)
  | @openBi q todo c hpc hq hc =>
    rw [hme] at hq ⊢
    rw [asU32_small (g.small p hp)]
    have hd := h.d_phase2 hp (by rw [hpc]; trivial)
    obtain ⟨_, hcl, hsv⟩ := h.entLow p hp q c hc hq
    have hcr : CReg s c := ⟨by rw [hcl, hsv]; exact hc, by omega⟩
    have hp2 := h2.pos2 p hp
    rw [hpc] at hp2
    refine ⟨_, e, (h.goto hp (x := .awaitEcho q todo) (l := []) (by rw [hpc]; rfl)
      (by rw [hpc]; rfl) rfl rfl (by simp [Pos, hd]) (by simp)).congr _ _ _, ?_, ?_⟩
    · constructor
      · intro r hr
        by_cases hrp : r = p
        · subst hrp; simpa [EState.goto, Pos2] using ⟨hp2, hq⟩
        · simpa [EState.goto, Function.update_of_ne hrp] using h2.pos2 r hr
      · exact h2.chn
      · exact h2.sub
      · intro c' x
        have hcr' : CReg (EState.goto { s with hello := Function.update s.hello c (some p) } p
          (.awaitEcho q todo)) c' ↔ CReg s c' := Iff.rfl
        rw [hcr']
        simp only [EState.goto]
        by_cases hcc : c' = c
        · subst hcc
          simp [hcl, hsv, hcr, EchoAt, eq_comm]
        · rw [Function.update_of_ne hcc, h2.hel]
          by_cases hcp : c'.client = p
          · have : ¬ (CReg s c' ∧ c'.server = q) := by
              rintro ⟨h3, h4⟩
              have h5 := h3.1
              rw [hcp, h4] at h5
              exact hcc (keys_unique (h.nd p hp) h5 hc)
            simp only [hcp, Function.update_self, hpc, EchoAt, or_false]
            constructor
            · rintro ⟨a, b, c⟩; exact ⟨a, b, .inl c⟩
            · rintro ⟨a, b, c | c⟩
              · exact ⟨a, b, c⟩
              · exact absurd ⟨b, c.symm⟩ this
          · rw [Function.update_of_ne hcp]
      · exact h2.ech
      · intro r hr
        have : r ≠ p := fun ee => hr (ee ▸ hp)
        simpa [EState.goto, Function.update_of_ne this] using h2.off r hr
    · exact weight_lt hp (x := .awaitEcho q todo) rfl
        (by simp only [hpc, pcWeight, List.length_cons]; omega)
  | @readEcho q x todo c hpc hc hx =>
    have hp2 := h2.pos2 p hp
    rw [hpc] at hp2
    obtain ⟨hK, hq⟩ := hp2
    obtain ⟨_, hcl, hsv⟩ := h.entLow p hp q c hc hq
    have hd := h.d_phase2 hp (by rw [hpc]; trivial)
    have hqps : q ∈ ps := (h.keys_mem g.perm hp (mem_keys.2 ⟨c, hc⟩)).1
    obtain ⟨hxs, _, _⟩ := (h2.ech c x).1 hx
    have hqe : q ∉ e p := by
      have := sortedKeys_lt (h.nd p hp)
      rw [hK, List.pairwise_append] at this
      intro hm
      exact absurd (this.2.2 q hm q (by simp)) (by omega)
    rw [if_pos (by rw [asU32_small (g.small q hqps), hxs, hsv])]
    have hkk : q ∉ mapKeys (s.channels p) := by rw [h2.chn p hp]; exact hqe
    unfold EState.addChannel
    rw [if_neg hkk]
    refine ⟨_, Function.update e p (e p ++ [q]), (h.goto hp (x := .chans todo) (l := []) (by rw [hpc]; rfl)
      (by rw [hpc]; rfl) rfl rfl (by simp [Pos, hd]) (by simp)).congr _ _ _, ?_, ?_⟩
    · constructor
      · intro r hr
        by_cases hrp : r = p
        · subst hrp; simpa [EState.goto, Pos2] using hK
        · simpa [EState.goto, Function.update_of_ne hrp] using h2.pos2 r hr
      · intro r hr
        by_cases hrp : r = p
        · subst hrp
          have := h2.chn r hr
          simp only [EState.goto, Function.update_self, mapKeys, List.map_append] at this ⊢
          rw [this]; rfl
        · simpa [EState.goto, Function.update_of_ne hrp] using h2.chn r hr
      · intro r hr y hy
        by_cases hrp : r = p
        · subst hrp
          simp only [EState.goto, Function.update_self, List.mem_append, List.mem_singleton] at hy ⊢
          rcases hy with hy | rfl
          · exact h2.sub r hr y hy
          · exact hc
        · simp only [EState.goto, Function.update_of_ne hrp] at hy ⊢
          exact h2.sub r hr y hy
      · intro c' y
        have hcr' : CReg (EState.goto { s with
          channels := Function.update s.channels p (s.channels p ++ [(q, c)]) } p
          (.chans todo)) c' ↔ CReg s c' := Iff.rfl
        rw [hcr']
        simp only [EState.goto]
        rw [h2.hel]
        by_cases hcp : c'.client = p
        · simp only [hcp, Function.update_self, hpc, EchoAt, or_false, List.mem_append,
            List.mem_singleton]
          rw [@eq_comm _ q]
        · rw [Function.update_of_ne hcp, Function.update_of_ne hcp]
      · intro c' y
        have hcr' : SReg (EState.goto { s with
          channels := Function.update s.channels p (s.channels p ++ [(q, c)]) } p
          (.chans todo)) c' ↔ SReg s c' := Iff.rfl
        rw [hcr']
        simp only [EState.goto]
        rw [h2.ech]
        by_cases hcp : c'.server = p
        · simp only [hcp, Function.update_self, List.mem_append, List.mem_singleton]
          constructor
          · rintro ⟨a, b, c⟩; exact ⟨a, b, .inl c⟩
          · rintro ⟨a, b, c | c⟩
            · exact ⟨a, b, c⟩
            · have := b.2; omega
        · rw [Function.update_of_ne hcp]
      · intro r hr
        have : r ≠ p := fun ee => hr (ee ▸ hp)
        simpa [EState.goto, Function.update_of_ne this] using h2.off r hr
    · exact weight_lt hp (x := .chans todo) rfl (by simp only [hpc, pcWeight]; omega)
  | @acceptBi q x todo c hpc hq hc hx =>
    rw [hme] at hq ⊢
    have hK := h2.pos2 p hp
    rw [hpc] at hK
    have hqps := h.keys_mem g.perm hp (mem_keys.2 ⟨c, hc⟩)
    have hpq : p < q := by have := hqps.2; omega
    obtain ⟨hcl, hsv⟩ := h.entHigh p hp q c hc hpq
    have hsr : SReg s c := ⟨by rw [hcl, hsv]; exact hc, by omega⟩
    have hd := h.d_phase2 hp (by rw [hpc]; trivial)
    obtain ⟨hxs, _, _⟩ := (h2.hel c x).1 hx
    have hqe : q ∉ e p := by
      have := sortedKeys_lt (h.nd p hp)
      rw [hK, List.pairwise_append] at this
      intro hm
      exact absurd (this.2.2 q hm q (by simp)) (by omega)
    rw [if_pos (by rw [asU32_small (g.small q hqps.1), hxs, hcl]), asU32_small (g.small p hp)]
    have hkk : q ∉ mapKeys (s.channels p) := by rw [h2.chn p hp]; exact hqe
    unfold EState.addChannel
    rw [if_neg hkk]
    refine ⟨_, Function.update e p (e p ++ [q]), (h.goto hp (x := .chans todo) (l := []) (by rw [hpc]; rfl)
      (by rw [hpc]; rfl) rfl rfl (by simp [Pos, hd]) (by simp)).congr _ _ _, ?_, ?_⟩
    · constructor
      · intro r hr
        by_cases hrp : r = p
        · subst hrp; simpa [EState.goto, Pos2] using hK
        · simpa [EState.goto, Function.update_of_ne hrp] using h2.pos2 r hr
      · intro r hr
        by_cases hrp : r = p
        · subst hrp
          have := h2.chn r hr
          simp only [EState.goto, Function.update_self, mapKeys, List.map_append] at this ⊢
          rw [this]; rfl
        · simpa [EState.goto, Function.update_of_ne hrp] using h2.chn r hr
      · intro r hr y hy
        by_cases hrp : r = p
        · subst hrp
          simp only [EState.goto, Function.update_self, List.mem_append, List.mem_singleton] at hy ⊢
          rcases hy with hy | rfl
          · exact h2.sub r hr y hy
          · exact hc
        · simp only [EState.goto, Function.update_of_ne hrp] at hy ⊢
          exact h2.sub r hr y hy
      · intro c' y
        have hcr' : CReg (EState.goto { s with
          echo := Function.update s.echo c (some p),
          channels := Function.update s.channels p (s.channels p ++ [(q, c)]) } p
          (.chans todo)) c' ↔ CReg s c' := Iff.rfl
        rw [hcr']
        simp only [EState.goto]
        rw [h2.hel]
        by_cases hcp : c'.client = p
        · simp only [hcp, Function.update_self, hpc, EchoAt, or_false, List.mem_append,
            List.mem_singleton]
          constructor
          · rintro ⟨a, b, c⟩; exact ⟨a, b, .inl c⟩
          · rintro ⟨a, b, c | c⟩
            · exact ⟨a, b, c⟩
            · have := b.2; omega
        · rw [Function.update_of_ne hcp, Function.update_of_ne hcp]
      · intro c' y
        have hcr' : SReg (EState.goto { s with
          echo := Function.update s.echo c (some p),
          channels := Function.update s.channels p (s.channels p ++ [(q, c)]) } p
          (.chans todo)) c' ↔ SReg s c' := Iff.rfl
        rw [hcr']
        simp only [EState.goto]
        by_cases hcc : c' = c
        · subst hcc
          simp [hcl, hsv, hsr, eq_comm]
        · rw [Function.update_of_ne hcc, h2.ech]
          by_cases hcp : c'.server = p
          · have : ¬ (SReg s c' ∧ c'.client = q) := by
              rintro ⟨h3, h4⟩
              have h5 := h3.1
              rw [hcp, h4] at h5
              exact hcc (keys_unique (h.nd p hp) h5 hc)
            simp only [hcp, Function.update_self, List.mem_append, List.mem_singleton]
            constructor
            · rintro ⟨a, b, c⟩; exact ⟨a, b, .inl c⟩
            · rintro ⟨a, b, c | c⟩
              · exact ⟨a, b, c⟩
              · exact absurd ⟨b, c⟩ this
          · rw [Function.update_of_ne hcp]
      · intro r hr
        have : r ≠ p := fun ee => hr (ee ▸ hp)
        simpa [EState.goto, Function.update_of_ne this] using h2.off r hr
    · exact weight_lt hp (x := .chans todo) rfl
        (by simp only [hpc, pcWeight, List.length_cons]; omega)
  | finish hpc =>
    have hd := h.d_phase2 hp (by rw [hpc]; trivial)
    have hK := h2.pos2 p hp
    rw [hpc] at hK
    refine ⟨_, e, h.goto hp (x := .done) (l := []) (by rw [hpc]; rfl)
      (by rw [hpc]; rfl) rfl rfl (by simp [Pos, hd]) (by simp), ?_, ?_⟩
    · constructor
      · intro r hr
        by_cases hrp : r = p
        · subst hrp; simpa [EState.goto, Pos2] using hK
        · simpa [EState.goto, Function.update_of_ne hrp] using h2.pos2 r hr
      · exact h2.chn
      · exact h2.sub
      · intro c x
        have : (s.goto p .done).hello = s.hello := rfl
        rw [this, h2.hel]
        by_cases hcp : c.client = p
        · simp only [EState.goto, hcp, hpc, EchoAt, Function.update_self]; rfl
        · simp only [EState.goto, Function.update_of_ne hcp]; rfl
      · exact h2.ech
      · intro r hr
        have : r ≠ p := fun ee => hr (ee ▸ hp)
        simpa [EState.goto, Function.update_of_ne this] using h2.off r hr
    · exact weight_lt hp (x := .done) rfl (by simp only [hpc, pcWeight]; omega)

/-- The invariants hold in every reachable state, and the length of an execution is bounded. -/
theorem ESteps.inv (g : NetSetup ps cfg) {n : Nat} (h : ESteps cfg ps n EState.init s) :
    ∃ d e, EInv ps cfg s d ∧ EInv2 ps s e ∧ n + s.weight ps ≤ EState.init.weight ps := by
  generalize hi : EState.init = s0 at h
  induction h with
  | zero t =>
    subst hi
    exact ⟨_, _, EInv.init ps cfg (fun p hp => (g.perm p hp).nodup_iff.2 g.nodup), EInv2.init ps, by simp⟩
  | succ h hp hs ih =>
    obtain ⟨d, e, h1, h2, h3⟩ := ih hi
    obtain ⟨d', e', h4, h5, h6⟩ := EInv.step g h1 h2 hp hs
    exact ⟨d', e', h4, h5, by omega⟩


theorem exists_max_of {ps : List Nat} {P : Nat → Prop} (h : ∃ p ∈ ps, P p) :
    ∃ p ∈ ps, P p ∧ ∀ r ∈ ps, p < r → ¬ P r := by
  classical
  obtain ⟨p, hp, h⟩ := h
  have hne : (ps.toFinset.filter P).Nonempty := ⟨p, by simp [hp, h]⟩
  have hm := Finset.max'_mem _ hne
  simp only [Finset.mem_filter, List.mem_toFinset] at hm
  refine ⟨_, hm.1, hm.2, ?_⟩
  intro r hr hlt hP
  have := Finset.le_max' (ps.toFinset.filter P) r (by simp [hr, hP])
  omega

theorem exists_min_of {ps : List Nat} {P : Nat → Prop} (h : ∃ p ∈ ps, P p) :
    ∃ p ∈ ps, P p ∧ ∀ r ∈ ps, r < p → ¬ P r := by
  classical
  obtain ⟨p, hp, h⟩ := h
  have hne : (ps.toFinset.filter P).Nonempty := ⟨p, by simp [hp, h]⟩
  have hm := Finset.min'_mem _ hne
  simp only [Finset.mem_filter, List.mem_toFinset] at hm
  refine ⟨_, hm.1, hm.2, ?_⟩
  intro r hr hlt hP
  have := Finset.min'_le (ps.toFinset.filter P) r (by simp [hr, hP])
  omega

/-- When nobody can move, everybody is through the first phase. -/
theorem EInv.all_phase2 (g : NetSetup ps cfg) (h : EInv ps cfg s d) (hst : s.Stuck cfg ps) :
    ∀ p ∈ ps, Phase2 (s.pc p) := by
  by_contra hc
  push Not at hc
  obtain ⟨p, hp, hn, hmax⟩ := exists_max_of hc
  have hme := g.me p hp
  have hpos := h.pos p hp
  have hst' := hst p hp
  cases hpc : s.pc p with
  | start => exact hst' _ (.start hpc (g.check hp))
  | announce q c t => exact hst' _ (.announce hpc (by rw [hme]; exact g.small p hp))
  | awaitId c t =>
    rw [hpc] at hpos
    have hsv := hpos.2
    have haw : SAwait s c := by unfold SAwait; rw [hsv, hpc]; rfl
    rcases (h.side c).1 (.inr (.inl haw)) with h1 | h1
    · exact hst' _ (.readId hpc ((h.ann c _).2 ⟨rfl, h1⟩))
    · have hf := h.fresh c (.inr h1)
      unfold CAnn at h1
      cases hz : s.pc c.client <;> rw [hz] at h1 <;>
        simp only [pcAnn, reduceCtorEq, Option.some.injEq] at h1
      exact hst _ hf.2.1 _ (.announce hz (by rw [g.me _ hf.2.1]; exact g.small _ hf.2.1))
  | failed => rw [hpc] at hpos; exact hpos
  | chans t => rw [hpc] at hn; exact hn trivial
  | awaitEcho q t => rw [hpc] at hn; exact hn trivial
  | done => rw [hpc] at hn; exact hn trivial
  | link t =>
    cases t with
    | nil => exact hst' _ (.enter hpc)
    | cons q t =>
      rw [hpc] at hpos
      have hL : (cfg p).parties = d p ++ q :: t := hpos
      have hq : q ∈ ps := (g.perm p hp).subset (by rw [hL]; simp)
      rcases Nat.lt_trichotomy q p with hlt | heq | hgt
      · refine hst' _ (.connect hpc (by omega) ?_)
        intro hqs
        exact hst q hq _ (.start hqs (g.check hq))
      · exact hst' _ (.skip hpc (by omega))
      · have hall : ∀ r ∈ ps, p < r → r ∈ mapKeys (s.conns p) := by
          intro r hr hlt
          have hph : Phase2 (s.pc r) := by
            by_contra hcc; exact hmax r hr hlt hcc
          have hk := (h.keys_complete g.perm hr (h.d_phase2 hr hph)).2 ⟨hp, by omega⟩
          obtain ⟨c, hc⟩ := mem_keys.1 hk
          obtain ⟨_, hcl, hsv⟩ := h.entLow r hr p c hc hlt
          have hcr : CReg s c := ⟨by rw [hcl, hsv]; exact hc, by omega⟩
          rcases (h.side c).2 (.inl hcr) with h1 | h1 | h1
          · obtain ⟨pre, post, hpp⟩ := List.append_of_mem h1
            exact absurd (.accept hpc (by omega) hpp hsv) (hst' _)
          · unfold SAwait at h1
            rw [hsv, hpc] at h1
            simp [pcAwait] at h1
          · have := h1.1
            rw [hcl, hsv] at this
            exact mem_keys.2 ⟨c, this⟩
        have h1 := countP_le_of_subset (P := fun k => decide (p < k)) g.nodup
          (fun k hk hlt => hall k hk (by simpa using hlt))
        rw [h.cnt p hp, ← (g.perm p hp).countP_eq, hL, List.countP_append,
          List.countP_cons_of_pos (by simpa using hgt)] at h1
        omega

/-- When nobody can move, everybody is done. -/
theorem EInv.all_done (g : NetSetup ps cfg) (h : EInv ps cfg s d) (h2 : EInv2 ps s e)
    (hst : s.Stuck cfg ps) : ∀ p ∈ ps, s.pc p = .done := by
  have hph := h.all_phase2 g hst
  -- a client waiting for a party that is done can move
  have key : ∀ p ∈ ps, ∀ q t, (s.pc p = .chans (q :: t) ∨ s.pc p = .awaitEcho q t) → q < p →
      s.pc q = .done → False := by
    intro p hp q t hpc hlt hq
    have hK : sortedKeys (s.conns p) = e p ++ q :: t := by
      have := h2.pos2 p hp
      rcases hpc with hpc | hpc <;> rw [hpc] at this
      · exact this
      · exact this.1
    have hqk : q ∈ mapKeys (s.conns p) := (sortedKeys_perm _).subset (by rw [hK]; simp)
    obtain ⟨c, hc⟩ := mem_keys.1 hqk
    rcases hpc with hpc | hpc
    · exact hst p hp _ (.openBi hpc (by rw [g.me p hp]; exact hlt) hc)
    · obtain ⟨_, hcl, hsv⟩ := h.entLow p hp q c hc hlt
      have hcr : CReg s c := ⟨by rw [hcl, hsv]; exact hc, by omega⟩
      have hqps := (h.keys_mem g.perm hp hqk).1
      have hsr := h.sreg_of_creg g.perm hcr (by rw [hsv]; exact hph q hqps) (by rw [hcl]; exact hph p hp)
      have hpe : p ∈ e q := by
        have hq2 := h2.pos2 q hqps
        rw [hq] at hq2
        rw [← show sortedKeys (s.conns q) = e q from hq2, (sortedKeys_perm _).mem_iff]
        exact (h.keys_complete g.perm hqps (h.d_phase2 hqps (hph q hqps))).2 ⟨hp, by omega⟩
      exact hst p hp _ (.readEcho hpc hc ((h2.ech c _).2 ⟨rfl, hsr, by rw [hcl, hsv]; exact hpe⟩))
  by_contra hc
  push Not at hc
  obtain ⟨a, ha, hna, hmin⟩ := exists_min_of hc
  have hmin' : ∀ r ∈ ps, r < a → s.pc r = .done := fun r hr hlt => by
    by_contra hcc; exact hmin r hr hlt hcc
  -- the position of a party that is not done
  have hcur : ∀ p ∈ ps, s.pc p ≠ .done → ∃ q t, (s.pc p = .chans (q :: t) ∨ s.pc p = .awaitEcho q t) ∧
      sortedKeys (s.conns p) = e p ++ q :: t ∧ q ∈ ps ∧ q ≠ p := by
    intro p hp hnd
    have h3 := hph p hp
    have h4 := h2.pos2 p hp
    have fin : ∀ q t, sortedKeys (s.conns p) = e p ++ q :: t → q ∈ ps ∧ q ≠ p := fun q t hK =>
      h.keys_mem g.perm hp ((sortedKeys_perm _).subset (by rw [hK]; simp))
    cases hz : s.pc p <;> rw [hz] at h3 h4 <;> simp only [Phase2] at h3
    · rename_i t
      cases t with
      | nil => exact absurd (.finish hz) (hst p hp _)
      | cons q t => exact ⟨q, t, .inl rfl, h4, fin q t h4⟩
    · rename_i q t
      exact ⟨q, t, .inr rfl, h4.1, fin q t h4.1⟩
    · exact absurd hz hnd
  obtain ⟨q, t, hpc, hK, hq, hqa⟩ := hcur a ha hna
  rcases Nat.lt_or_gt_of_ne hqa with hlt | hgt
  · exact key a ha q t hpc hlt (hmin' q hq hlt)
  · -- `a` is the server: it waits for `q` to open
    have hpc' : s.pc a = .chans (q :: t) := by
      rcases hpc with hpc | hpc
      · exact hpc
      · have := h2.pos2 a ha; rw [hpc] at this; exact absurd this.2 (by omega)
    have hqk : q ∈ mapKeys (s.conns a) := (sortedKeys_perm _).subset (by rw [hK]; simp)
    obtain ⟨c, hc⟩ := mem_keys.1 hqk
    obtain ⟨hcl, hsv⟩ := h.entHigh a ha q c hc hgt
    have hsr : SReg s c := ⟨by rw [hcl, hsv]; exact hc, by omega⟩
    have hcr : CReg s c := by
      rcases (h.side c).1 (.inr (.inr hsr)) with h5 | h5
      · exact h5
      · unfold CAnn at h5
        rw [hcl] at h5
        have := hph q hq
        revert this h5
        cases s.pc q <;> simp [Phase2, pcAnn]
    have hno : ¬ (a ∈ e q ∨ EchoAt a (s.pc q)) := by
      intro hh
      refine hst a ha _ (.acceptBi hpc' (by rw [g.me a ha]; omega) hc ((h2.hel c _).2 ⟨rfl, hcr, ?_⟩))
      rw [hcl, hsv]; exact hh
    push Not at hno
    have hak : a ∈ sortedKeys (s.conns q) := by
      rw [(sortedKeys_perm _).mem_iff]
      exact (h.keys_complete g.perm hq (h.d_phase2 hq (hph q hq))).2 ⟨ha, by omega⟩
    have hqnd : s.pc q ≠ .done := by
      intro hqd
      have := h2.pos2 q hq
      rw [hqd] at this
      rw [show sortedKeys (s.conns q) = e q from this] at hak
      exact hno.1 hak
    obtain ⟨q', t', hpcq, hKq, hq', hqq⟩ := hcur q hq hqnd
    have hle : q' ≤ a := by
      have hs := sortedKeys_lt (h.nd q hq)
      rw [hKq] at hs hak
      rcases List.mem_append.1 hak with h6 | h6
      · exact absurd h6 hno.1
      · rcases List.mem_cons.1 h6 with h6 | h6
        · omega
        · have := (List.pairwise_cons.1 (List.pairwise_append.1 hs).2.1).1 a h6
          omega
    rcases Nat.lt_or_eq_of_le hle with hlt | heq
    · exact key q hq q' t' hpcq (by omega) (hmin' q' hq' hlt)
    · subst heq
      rcases hpcq with hpcq | hpcq
      · obtain ⟨c', hc'⟩ := mem_keys.1 ((sortedKeys_perm _).subset hak)
        exact hst q hq _ (.openBi hpcq (by rw [g.me q hq]; omega) hc')
      · rw [hpcq] at hno; exact hno.2 rfl


/-- A step changes only the mover's program counter. -/
theorem EStep.pc_other {p : Nat} {s' : EState} (h : EStep cfg p s s') {r : Nat} (hr : r ≠ p) :
    s'.pc r = s.pc r ∧ s'.conns r = s.conns r := by
  cases h <;> (try simp only [EState.register, EState.addChannel]) <;> (try split) <;> (try split) <;>
    simp [EState.goto, Function.update_of_ne hr]

end Verif
