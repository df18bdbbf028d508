import Verif.Proof.MpcNet

/-! # C47, C48: network configuration and establishment -/

namespace Verif

/-- C47. `check_config` accepts exactly the configurations that contain the own id and no id twice. -/
theorem C47_check_config (c : NetConfig) :
    checkConfig c = .ok () ↔ c.myId ∈ c.parties ∧ c.parties.Nodup := checkConfig_ok c

example : checkConfig ⟨[2, 0, 1], 1⟩ = .ok () := (C47_check_config _).2 (by decide)
example : checkConfig ⟨[2, 0, 2], 0⟩ ≠ .ok () := fun h => by
  have := (C47_check_config _).1 h
  revert this
  decide

/-- C47. `Aby3Network::new` goes on to the network exactly for a party id below three and a configuration
of three parties; otherwise it reports the offending id or the offending number of parties. -/
theorem C47_aby3_precheck (c : NetConfig) :
    aby3NetPrecheck c =
      if h : c.myId < 3 then
        if c.parties.length = 3 then .ok ⟨c.myId, h⟩ else .error (.numParty c.parties.length)
      else .error (.idError c.myId) := by
  obtain ⟨ps, id⟩ := c
  rcases id with _ | _ | _ | id
  · by_cases h : ps.length = 3 <;> simp [aby3NetPrecheck, h]
  · by_cases h : ps.length = 3 <;> simp [aby3NetPrecheck, h]
  · by_cases h : ps.length = 3 <;> simp [aby3NetPrecheck, h]
  · simp [aby3NetPrecheck]

variable {ps : List Nat} {cfg : Nat → NetConfig}

/-- C48. For any number of parties, whatever the orders of the configuration files, the interleaving of
the parties and the order in which connections arrive: every execution is finite, no party ever fails,
and once nobody can move every party is done, holding exactly one connection and one channel per other
party, each under the right id and with the right peer at its other end. -/
theorem C48_establish (g : NetSetup ps cfg) :
    (∃ N, ∀ n s, ESteps cfg ps n EState.init s → n ≤ N) ∧
    (∀ n s, ESteps cfg ps n EState.init s → ∀ p ∈ ps, s.pc p ≠ .failed) ∧
    ∀ n s, ESteps cfg ps n EState.init s → s.Stuck cfg ps →
      (∀ p ∈ ps, s.pc p = .done) ∧ Paired ps s.conns ∧ Paired ps s.channels := by
  refine ⟨⟨EState.init.weight ps, fun n s h => ?_⟩, fun n s h p hp hf => ?_, fun n s h hst => ?_⟩
  · obtain ⟨d, e, _, _, h3⟩ := h.inv g
    omega
  · obtain ⟨d, e, h1, _, _⟩ := h.inv g
    have := h1.pos p hp
    rw [hf] at this
    exact this
  · obtain ⟨d, e, h1, h2, _⟩ := h.inv g
    have hdone := h1.all_done g h2 hst
    have hph : ∀ p ∈ ps, Phase2 (s.pc p) := fun p hp => by rw [hdone p hp]; trivial
    have hkeys : ∀ p ∈ ps, (mapKeys (s.conns p)).Perm (ps.erase p) := by
      intro p hp
      rw [List.perm_ext_iff_of_nodup (h1.nd p hp) (g.nodup.erase p)]
      intro k
      rw [h1.keys_complete g.perm hp (h1.d_phase2 hp (hph p hp)), g.nodup.mem_erase_iff]
      tauto
    have hck : ∀ p ∈ ps, mapKeys (s.channels p) = sortedKeys (s.conns p) := by
      intro p hp
      have := h2.pos2 p hp
      rw [hdone p hp] at this
      rw [h2.chn p hp]
      exact (show sortedKeys (s.conns p) = e p from this).symm
    have hpair : Paired ps s.conns := by
      intro p hp
      refine ⟨hkeys p hp, ?_⟩
      intro q hq hqp
      -- the client is the larger of the two
      have hgen : ∀ a ∈ ps, ∀ b ∈ ps, a < b →
          ∃ c, (a, c) ∈ s.conns b ∧ (b, c) ∈ s.conns a ∧ c.client = b ∧ c.server = a := by
        intro a ha b hb hab
        have hk : a ∈ mapKeys (s.conns b) :=
          (h1.keys_complete g.perm hb (h1.d_phase2 hb (hph b hb))).2 ⟨ha, by omega⟩
        obtain ⟨c, hc⟩ := mem_keys.1 hk
        obtain ⟨_, hcl, hsv⟩ := h1.entLow b hb a c hc hab
        have hcr : CReg s c := ⟨by rw [hcl, hsv]; exact hc, by omega⟩
        have hsr := h1.sreg_of_creg g.perm hcr (by rw [hsv]; exact hph a ha) (by rw [hcl]; exact hph b hb)
        have := hsr.1
        rw [hcl, hsv] at this
        exact ⟨c, hc, this, hcl, hsv⟩
      rcases Nat.lt_or_gt_of_ne hqp with hlt | hlt
      · obtain ⟨c, c1, c2, c3, c4⟩ := hgen q hq p hp hlt
        exact ⟨c, c1, c2, by omega, by omega⟩
      · obtain ⟨c, c1, c2, c3, c4⟩ := hgen p hp q hq hlt
        exact ⟨c, c2, c1, by omega, by omega⟩
    refine ⟨hdone, hpair, ?_⟩
    have hin : ∀ p ∈ ps, ∀ k c, (k, c) ∈ s.conns p → (k, c) ∈ s.channels p := by
      intro p hp k c hc
      have : k ∈ mapKeys (s.channels p) := by
        rw [hck p hp, (sortedKeys_perm _).mem_iff]; exact mem_keys.2 ⟨c, hc⟩
      obtain ⟨c', hc'⟩ := mem_keys.1 this
      have := keys_unique (h1.nd p hp) hc (h2.sub p hp _ hc')
      rw [this]; exact hc'
    intro p hp
    obtain ⟨_, h4⟩ := hpair p hp
    refine ⟨?_, fun q hq hqp => ?_⟩
    · have := hck p hp
      rw [mapKeys] at this
      rw [this]
      exact (sortedKeys_perm _).trans (hkeys p hp)
    · obtain ⟨c, c1, c2, c3⟩ := h4 q hq hqp
      exact ⟨c, hin p hp q c c1, hin q hq p c c2, c3⟩

/-- Some executions do get stuck, i.e. the conclusion of `C48_establish` is reached. -/
theorem C48_reached (g : NetSetup ps cfg) :
    ∃ n s, ESteps cfg ps n EState.init s ∧ s.Stuck cfg ps := by
  obtain ⟨⟨N, hN⟩, _⟩ := C48_establish g
  by_contra hc
  push Not at hc
  have : ∀ m, ∃ s, ESteps cfg ps m EState.init s := by
    intro m
    induction m with
    | zero => exact ⟨_, .zero _⟩
    | succ m ih =>
      obtain ⟨s, hs⟩ := ih
      have := hc m s hs
      unfold EState.Stuck at this
      push Not at this
      obtain ⟨p, hp, t, ht⟩ := this
      exact ⟨t, .succ hs hp ht⟩
  obtain ⟨s, hs⟩ := this (N + 1)
  have := hN _ _ hs
  omega

/-- Three parties whose configuration files list the parties in three different orders. -/
example : NetSetup [0, 1, 2] (fun p =>
    if p = 0 then ⟨[2, 0, 1], 0⟩ else if p = 1 then ⟨[0, 1, 2], 1⟩ else ⟨[1, 0, 2], 2⟩) := by
  refine ⟨by decide, by decide, by decide, ?_, ?_⟩ <;> intro p hp <;> fin_cases hp <;> decide

theorem removeKey_spec {m : List (Nat × Conn)} (hn : (m.map Prod.fst).Nodup) {k : Nat} {c : Conn}
    (h : (k, c) ∈ m) : removeKey m k = some (c, m.filter (fun e => e.1 != k)) := by
  unfold removeKey
  cases hf : m.find? (fun e => e.1 == k) with
  | none =>
    rw [List.find?_eq_none] at hf
    exact absurd (beq_self_eq_true k) (hf _ h)
  | some x =>
    have h1 := List.find?_some hf
    have h2 := List.mem_of_find?_eq_some hf
    obtain ⟨k', c'⟩ := x
    have h3 : k' = k := by simpa using h1
    subst h3
    have := keys_unique hn h h2
    rw [this]

/-- C48. `Aby3Network::new` with three parties: in every final state, every party finds its two channels,
and the channel it uses with its next party is the other end of the channel that party uses with its
previous party. -/
theorem C48_aby3_ring (g : NetSetup ps cfg) (h3 : ps.Perm [0, 1, 2]) {n : Nat} {s : EState}
    (h : ESteps cfg ps n EState.init s) (hst : s.Stuck cfg ps) :
    ∃ snd rcv : Party → Conn,
      (∀ i : Party, aby3NetChannels i (s.channels i.val) = .ok (snd i, rcv i)) ∧
      (∀ i : Party, snd i = rcv i.next) ∧
      ∀ i : Party, (snd i).client = max i.val i.next.val ∧ (snd i).server = min i.val i.next.val := by
  obtain ⟨_, _, hfin⟩ := C48_establish g
  obtain ⟨_, _, hch⟩ := hfin n s h hst
  have hin : ∀ i : Party, i.val ∈ ps := fun i => h3.symm.subset (by fin_cases i <;> simp)
  have hnd : ∀ i : Party, ((s.channels i.val).map Prod.fst).Nodup := fun i =>
    (hch i.val (hin i)).1.nodup_iff.2 (g.nodup.erase _)
  have hne : ∀ i : Party, i.next.val ≠ i.val := by decide
  have hpn : ∀ i : Party, i.next.prev = i := by decide
  have hnp : ∀ i : Party, i.prev.next = i := by decide
  have hpn' : ∀ i : Party, i.prev.val ≠ i.next.val := by decide
  choose c hc using fun i : Party => (hch i.val (hin i)).2 i.next.val (hin _) (hne i)
  refine ⟨c, fun i => c i.prev, fun i => ?_, fun i => by simp only [hpn], fun i => (hc i).2.2⟩
  unfold aby3NetChannels
  rw [removeKey_spec (hnd i) (hc i).1]
  have hm : (i.prev.val, c i.prev) ∈ (s.channels i.val).filter (fun e => e.1 != i.next.val) := by
    rw [List.mem_filter]
    have := (hc i.prev).2.1
    rw [hnp] at this
    exact ⟨this, by simpa using hpn' i⟩
  have hnd' : (((s.channels i.val).filter (fun e => e.1 != i.next.val)).map Prod.fst).Nodup :=
    List.Nodup.sublist (List.filter_sublist.map _) (hnd i)
  simp only [removeKey_spec hnd' hm]

/-- C48, limit of the 32-bit id field: a party whose id does not fit into 32 bits and that has a smaller
peer never completes establishment, whatever the others do. -/
theorem C48_id_too_large {p : Nat} (hme : (cfg p).myId = p) (hbig : 2 ^ 32 ≤ p)
    (hq : ∃ q ∈ (cfg p).parties, q < p) {n : Nat} {s : EState}
    (h : ESteps cfg ps n EState.init s) :
    ¬ Phase2 (s.pc p) ∧ s.pc p ≠ .link [] := by
  have key : match s.pc p with
      | .start => True
      | .link t => ∃ q ∈ t, q < p
      | .announce _ _ _ => True
      | .awaitId _ t => ∃ q ∈ t, q < p
      | .failed => True
      | _ => False := by
    generalize hi : EState.init = s0 at h
    induction h with
    | zero t => subst hi; simp [EState.init]
    | @succ n s t u r h hp hs ih =>
      have ih := ih hi
      by_cases hr : p = r
      · subst hr
        cases hs with
        | start hpc hc => simpa [EState.goto] using hq
        | badConfig hpc hc => simp [EState.goto]
        | skip hpc hq =>
          rw [hpc] at ih
          simp only [EState.goto, Function.update_self]
          obtain ⟨x, hx, hlt⟩ := ih
          rcases List.mem_cons.1 hx with rfl | hx
          · omega
          · exact ⟨x, hx, hlt⟩
        | connect hpc hq hb => simp [EState.goto]
        | announce hpc hid => omega
        | idTooLarge hpc hid => simp [EState.goto]
        | accept hpc hq hc hsv =>
          rw [hpc] at ih
          simp only [EState.goto, Function.update_self]
          obtain ⟨x, hx, hlt⟩ := ih
          rcases List.mem_cons.1 hx with rfl | hx
          · omega
          · exact ⟨x, hx, hlt⟩
        | @readId c todo k hpc hk =>
          rw [hpc] at ih
          by_cases hk : k ∈ mapKeys (t.conns p)
          · simp [EState.register, hk, EState.goto]
          · simpa [EState.register, hk, EState.goto] using ih
        | enter hpc => rw [hpc] at ih; simp at ih
        | openBi hpc _ _ => rw [hpc] at ih; exact ih.elim
        | readEcho hpc _ _ => rw [hpc] at ih; exact ih.elim
        | acceptBi hpc _ _ _ => rw [hpc] at ih; exact ih.elim
        | finish hpc => rw [hpc] at ih; exact ih.elim
      · rw [(hs.pc_other hr).1]; exact ih
  cases hz : s.pc p <;> rw [hz] at key <;> simp [Phase2] at key ⊢
  rintro rfl
  simp at key

/-- C48, limit: a deployment of a single party never obtains its (empty) set of channels; it panics on
`connections.len() - 1`. -/
theorem C48_single_party {p : Nat} (hL : (cfg p).parties = [p]) (hme : (cfg p).myId = p) {n : Nat}
    {s : EState} (h : ESteps cfg [p] n EState.init s) (hst : s.Stuck cfg [p]) : s.pc p = .failed := by
  have key : s.conns p = [] ∧ (s.pc p = .start ∨ s.pc p = .link [p] ∨ s.pc p = .link [] ∨
      s.pc p = .failed) := by
    clear hst
    generalize hi : EState.init = s0 at h
    induction h with
    | zero t => subst hi; simp [EState.init]
    | @succ n s t u r h hp hs ih =>
      obtain ⟨h0, ih⟩ := ih hi
      simp only [List.mem_singleton] at hp
      subst hp
      cases hs with
      | start hpc hc => simp [EState.goto, hL, h0]
      | badConfig hpc hc => simp [EState.goto, h0]
      | skip hpc hq => rw [hpc] at ih; simp at ih; simp [EState.goto, h0, ih]
      | connect hpc hq hb => rw [hpc] at ih; simp at ih; omega
      | announce hpc hid => rw [hpc] at ih; simp at ih
      | idTooLarge hpc hid => rw [hpc] at ih; simp at ih
      | accept hpc hq hc hsv => rw [hpc] at ih; simp at ih; omega
      | readId hpc hk => rw [hpc] at ih; simp at ih
      | enter hpc => simp [EState.goto, h0]
      | openBi hpc _ _ => rw [hpc] at ih; simp at ih
      | readEcho hpc _ _ => rw [hpc] at ih; simp at ih
      | acceptBi hpc _ _ _ => rw [hpc] at ih; simp at ih
      | finish hpc => rw [hpc] at ih; simp at ih
  obtain ⟨h0, h1 | h1 | h1 | h1⟩ := key
  · exact absurd (.start h1 ((checkConfig_ok _).2 (by rw [hL, hme]; simp))) (hst p (by simp) _)
  · exact absurd (.skip h1 hme.symm) (hst p (by simp) _)
  · exact absurd (.enter h1) (hst p (by simp) _)
  · exact h1

/-- The hypotheses of the two limits are met: a party with a large id that has started, and a single party that has panicked. -/
example : ∃ (cfg : Nat → NetConfig) (n : Nat) (s : EState), (cfg (2 ^ 32)).myId = 2 ^ 32 ∧
    (∃ q ∈ (cfg (2 ^ 32)).parties, q < 2 ^ 32) ∧ ESteps cfg [2 ^ 32, 1] n EState.init s ∧ n = 2 := by
  have h1 : ESteps (fun p => ⟨[1, 2 ^ 32], p⟩) [2 ^ 32, 1] 1 EState.init _ :=
    .succ (p := 2 ^ 32) (.zero _) (by simp) (.start rfl ((checkConfig_ok _).2 (by simp)))
  have h2 := ESteps.succ (p := 1) h1 (by simp)
    (.start (by simp [EState.goto, EState.init]) ((checkConfig_ok _).2 (by simp)))
  exact ⟨_, 2, _, rfl, ⟨1, by simp, by norm_num⟩, h2, rfl⟩

example : ∃ (n : Nat) (s : EState), ESteps (fun p => ⟨[7], p⟩) [7] n EState.init s ∧ s.Stuck (fun p => ⟨[7], p⟩) [7] ∧
    s.pc 7 = .failed := by
  have h1 : ESteps (fun p => ⟨[7], p⟩) [7] 1 EState.init _ :=
    .succ (p := 7) (.zero _) (by simp) (.start rfl ((checkConfig_ok _).2 (by simp)))
  have h2 := ESteps.succ (p := 7) h1 (by simp) (.skip (q := 7) (todo := []) (by simp [EState.goto]) rfl)
  have h3 := ESteps.succ (p := 7) h2 (by simp) (.enter (by simp [EState.goto]))
  have hf : ∀ s : EState, s.pc 7 = .failed → s.Stuck (fun p => ⟨[7], p⟩) [7] := by
    intro s hs p hp t ht
    simp only [List.mem_singleton] at hp
    subst hp
    cases ht <;> simp_all
  refine ⟨_, _, h3, hf _ ?_, ?_⟩ <;> simp [EState.goto, EState.init]

end Verif
