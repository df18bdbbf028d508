import Verif.Spec.TestNet
import Verif.Proof.Run3

/-! # C51: the three-party test network connects the right ends -/

namespace Verif

open Function

/-- The channel that carries messages of `i` for `j`. -/
def link (i j : Party) : NamedChan :=
  match i, j with
  | 0, 1 => .p1_p2 | 0, 2 => .p1_p3 | 1, 2 => .p2_p3 | 1, 0 => .p2_p1 | 2, 0 => .p3_p1 | 2, 1 => .p3_p2
  | _, _ => .p1_p2

theorem link_inj {i j i' j' : Party} (h : i ≠ j) (h' : i' ≠ j') :
    link i j = link i' j' ↔ i = i' ∧ j = j' := by
  revert i j i' j'; decide

theorem ends_eq (p : Party) : (partyNetworks p).id = p ∧ (partyNetworks p).sendNext = link p p.next ∧
    (partyNetworks p).sendPrev = link p p.prev ∧ (partyNetworks p).recvNext = link p.next p ∧
    (partyNetworks p).recvPrev = link p.prev p := by
  revert p; decide

theorem party_other {p k : Party} (h : k ≠ p) :
    (k = p.next ∧ k ≠ p.prev) ∨ (k = p.prev ∧ k ≠ p.next) := by
  revert p k; decide

theorem next_ne (p : Party) : p.next ≠ p ∧ p.prev ≠ p ∧ p.next ≠ p.prev ∧
    (p.val + 1) % 3 = p.next.val ∧ (p.val + 2) % 3 = p.prev.val := by
  revert p; decide

/-- What a call of `p` does to the channels: a send to another party `k` appends to the channel from `p`
to `k`; a receive from another party `k` takes the head of the channel from `k` to `p`; a call naming
anything but another party is refused and changes nothing. -/
theorem call_spec (t : TestNet) (p : Party) (c : NetCall) :
    (∃ (k : Party) (m : Bytes) (t' : TestNet), k ≠ p ∧ c.dest p = some (k.val, m) ∧ c.source p = none ∧
      t.call p c = some (t', .unit) ∧
      t'.chan = update t.chan (link p k) (t.chan (link p k) ++ [m])) ∨
    (∃ k : Party, k ≠ p ∧ c.source p = some k.val ∧ c.dest p = none ∧
      (t.chan (link k p) = [] ∧ t.call p c = none ∨
       ∃ (m : Bytes) (rest : List Bytes) (t' : TestNet), t.chan (link k p) = m :: rest ∧
        t.call p c = some (t', .msg m) ∧ t'.chan = update t.chan (link k p) rest)) ∨
    ((∀ k : Party, k ≠ p → (∀ m, c.dest p ≠ some (k.val, m)) ∧ c.source p ≠ some k.val) ∧
      t.call p c = some (t, .invalidId)) := by
  obtain ⟨hid, hsn, hsp, hrn, hrp⟩ := ends_eq p
  obtain ⟨n1, n2, n3, n4, n5⟩ := next_ne p
  have n3' : p.next.val ≠ p.prev.val := fun h => n3 (Fin.ext h)
  have hout : ∀ id : Nat, id ≠ p.next.val → id ≠ p.prev.val → ∀ k : Party, k ≠ p → id ≠ k.val := by
    intro id h1 h2 k hk h
    rcases party_other hk with ⟨rfl, _⟩ | ⟨rfl, _⟩
    · exact h1 h
    · exact h2 h
  have rn : ∀ c : NetCall, c.source p = some p.next.val → c.dest p = none →
      t.call p c = (t.doRecvNext p).map (fun r => (r.1, .msg r.2)) →
      (∃ k : Party, k ≠ p ∧ c.source p = some k.val ∧ c.dest p = none ∧
        (t.chan (link k p) = [] ∧ t.call p c = none ∨
         ∃ (m : Bytes) (rest : List Bytes) (t' : TestNet), t.chan (link k p) = m :: rest ∧
          t.call p c = some (t', .msg m) ∧ t'.chan = update t.chan (link k p) rest)) := by
    intro c h1 h2 h3
    refine ⟨p.next, n1, h1, h2, ?_⟩
    rcases hc : t.chan (link p.next p) with _ | ⟨m, rest⟩
    · exact .inl ⟨rfl, by rw [h3]; simp [TestNet.doRecvNext, hrn, hc]⟩
    · exact .inr ⟨m, rest, _, rfl, by rw [h3]; simp [TestNet.doRecvNext, hrn, hc]; rfl, rfl⟩
  have rp : ∀ c : NetCall, c.source p = some p.prev.val → c.dest p = none →
      t.call p c = (t.doRecvPrev p).map (fun r => (r.1, .msg r.2)) →
      (∃ k : Party, k ≠ p ∧ c.source p = some k.val ∧ c.dest p = none ∧
        (t.chan (link k p) = [] ∧ t.call p c = none ∨
         ∃ (m : Bytes) (rest : List Bytes) (t' : TestNet), t.chan (link k p) = m :: rest ∧
          t.call p c = some (t', .msg m) ∧ t'.chan = update t.chan (link k p) rest)) := by
    intro c h1 h2 h3
    refine ⟨p.prev, n2, h1, h2, ?_⟩
    rcases hc : t.chan (link p.prev p) with _ | ⟨m, rest⟩
    · exact .inl ⟨rfl, by rw [h3]; simp [TestNet.doRecvPrev, hrp, hc]⟩
    · exact .inr ⟨m, rest, _, rfl, by rw [h3]; simp [TestNet.doRecvPrev, hrp, hc]; rfl, rfl⟩
  cases c with
  | send id m =>
    by_cases h1 : id = p.next.val
    · exact .inl ⟨p.next, m, t.doSendNext p m, n1, by simp [NetCall.dest, h1], rfl,
        by simp [TestNet.call, hid, h1], by simp [TestNet.doSendNext, hsn]⟩
    · by_cases h2 : id = p.prev.val
      · exact .inl ⟨p.prev, m, t.doSendPrev p m, n2, by simp [NetCall.dest, h2], rfl,
          by simp only [TestNet.call, hid, if_neg h1, if_pos h2], by simp [TestNet.doSendPrev, hsp]⟩
      · refine .inr (.inr ⟨fun k hk => ⟨fun m' h => ?_, by simp [NetCall.source]⟩, ?_⟩)
        · simp only [NetCall.dest, Option.some.injEq, Prod.mk.injEq] at h
          exact hout id h1 h2 k hk h.1
        · simp only [TestNet.call, hid, if_neg h1, if_neg h2]
  | sendNext m =>
    exact .inl ⟨p.next, m, t.doSendNext p m, n1, by simp [NetCall.dest, n4], rfl, rfl,
      by simp [TestNet.doSendNext, hsn]⟩
  | sendPrev m =>
    exact .inl ⟨p.prev, m, t.doSendPrev p m, n2, by simp [NetCall.dest, n5], rfl, rfl,
      by simp [TestNet.doSendPrev, hsp]⟩
  | receive id =>
    by_cases h2 : id = p.prev.val
    · exact .inr (.inl (rp _ (by simp [NetCall.source, h2]) rfl (by simp only [TestNet.call, hid, if_pos h2])))
    · by_cases h1 : id = p.next.val
      · exact .inr (.inl (rn _ (by simp [NetCall.source, h1]) rfl
          (by simp only [TestNet.call, hid, if_neg h2, if_pos h1])))
      · refine .inr (.inr ⟨fun k hk => ⟨fun m' h => by simp [NetCall.dest] at h, fun h => ?_⟩, ?_⟩)
        · simp only [NetCall.source, Option.some.injEq] at h
          exact hout id h1 h2 k hk h
        · simp only [TestNet.call, hid, if_neg h1, if_neg h2]
  | receiveNext => exact .inr (.inl (rn _ (by simp [NetCall.source, n4]) rfl rfl))
  | receivePrev => exact .inr (.inl (rp _ (by simp [NetCall.source, n5]) rfl rfl))

theorem run_chan {h : List (Party × NetCall × NetRet)} {t : TestNet} (hr : TestNet.Run h t) (i j : Party)
    (hij : i ≠ j) : h.filterMap (sentTo i j) = h.filterMap (gotFrom j i) ++ t.chan (link i j) := by
  induction hr with
  | nil => rfl
  | @snoc h t t' p c r hr hc ih =>
    rw [List.filterMap_append, List.filterMap_append, ih]
    rcases call_spec t p c with ⟨k, m, t₁, hk, hd, hs, hcall, hch⟩ | ⟨k, hk, hs, hd, hcase⟩ | ⟨hno, hcall⟩
    · rw [hcall] at hc
      obtain ⟨rfl, rfl⟩ : t₁ = t' ∧ NetRet.unit = r := by simpa using hc
      have h2 : gotFrom j i (p, c, NetRet.unit) = none := by simp [gotFrom, hs]
      by_cases h : p = i ∧ k = j
      · obtain ⟨rfl, rfl⟩ := h
        have h1 : sentTo p k (p, c, NetRet.unit) = some m := by simp [sentTo, hd]
        simp [h1, h2, hch]
      · have h1 : sentTo i j (p, c, NetRet.unit) = none := by
          simp only [sentTo, hd]
          rw [if_neg]
          rintro ⟨a, b⟩
          exact h ⟨a, Fin.ext b⟩
        have h3 : t₁.chan (link i j) = t.chan (link i j) := by
          rw [hch, update_of_ne]
          intro e
          have := (link_inj hij (Ne.symm hk)).1 e
          exact h ⟨this.1.symm, this.2.symm⟩
        simp [h1, h2, h3]
    · rcases hcase with ⟨_, hn⟩ | ⟨m, rest, t₁, hcur, hcall, hch⟩
      · rw [hn] at hc; cases hc
      · rw [hcall] at hc
        obtain ⟨rfl, rfl⟩ : t₁ = t' ∧ NetRet.msg m = r := by simpa using hc
        have h1 : sentTo i j (p, c, NetRet.msg m) = none := by simp [sentTo, hd]
        by_cases h : p = j ∧ k = i
        · obtain ⟨rfl, rfl⟩ := h
          have h2 : gotFrom p k (p, c, NetRet.msg m) = some m := by simp [gotFrom, hs]
          simp [h1, h2, hch, hcur]
        · have h2 : gotFrom j i (p, c, NetRet.msg m) = none := by
            simp only [gotFrom, hs]
            rw [if_neg]
            rintro ⟨a, b⟩
            exact h ⟨a, Fin.ext b⟩
          have h3 : t₁.chan (link i j) = t.chan (link i j) := by
            rw [hch, update_of_ne]
            intro e
            have := (link_inj hij hk).1 e
            exact h ⟨this.2.symm, this.1.symm⟩
          simp [h1, h2, h3]
    · rw [hcall] at hc
      obtain ⟨rfl, rfl⟩ : t = t' ∧ NetRet.invalidId = r := by simpa using hc
      have h1 : sentTo i j (p, c, NetRet.invalidId) = none := by
        unfold sentTo
        rcases hd : c.dest p with _ | ⟨d, m⟩
        · rfl
        · simp only [hd]
          rw [if_neg]
          rintro ⟨a, b⟩
          subst b
          exact (hno j (by rw [a]; exact hij.symm)).1 m hd
      have h2 : gotFrom j i (p, c, NetRet.invalidId) = none := by
        unfold gotFrom
        cases c.source p <;> rfl
      simp [h1, h2]

/-- In every history of calls of the three parties, in every interleaving: the messages `j` got from `i`
are, in order, the first of those `i` sent to `j`; nobody gets a message meant for somebody else, twice,
or out of order. Whatever is outstanding is delivered next: asked for `i`, the network hands `j` the
oldest message of `i` it has not got yet, and makes it wait only when there is none. -/
theorem C51_delivery {h : List (Party × NetCall × NetRet)} {t : TestNet} (hr : TestNet.Run h t)
    (i j : Party) (hij : i ≠ j) :
    ∃ pending, h.filterMap (sentTo i j) = h.filterMap (gotFrom j i) ++ pending ∧
      ∀ c : NetCall, c.source j = some i.val →
        match pending with
        | [] => t.call j c = none
        | m :: _ => ∃ t', t.call j c = some (t', .msg m) := by
  refine ⟨_, run_chan hr i j hij, fun c hc => ?_⟩
  rcases call_spec t j c with ⟨k, m, t₁, hk, hd, hs, -⟩ | ⟨k, hk, hs, hd, hcase⟩ | ⟨hno, hcall⟩
  · rw [hs] at hc; cases hc
  · obtain rfl : k = i := Fin.ext (by rw [hs] at hc; simpa using hc)
    rcases hcase with ⟨h0, hn⟩ | ⟨m, rest, t₁, hcur, hcall, -⟩
    · rw [h0]; exact hn
    · rw [hcur]; exact ⟨t₁, hcall⟩
  · exact absurd hc (hno i hij).2

/-- Sending to another party never waits and never fails. -/
theorem C51_send_ok (t : TestNet) (p k : Party) (hk : k ≠ p) (c : NetCall) (m : Bytes)
    (hc : c.dest p = some (k.val, m)) : ∃ t', t.call p c = some (t', .unit) := by
  rcases call_spec t p c with ⟨_, _, t₁, _, _, _, hcall, _⟩ | ⟨_, _, _, hd, _⟩ | ⟨hno, _⟩
  · exact ⟨t₁, hcall⟩
  · rw [hd] at hc; cases hc
  · exact absurd hc ((hno k hk).1 m)

/-- A call that names a party outside `0..3`, or the caller itself, is refused and has no effect. -/
theorem C51_invalid_id (t : TestNet) (p : Party) (id : Nat) (m : Bytes)
    (h : ∀ k : Party, k ≠ p → id ≠ k.val) :
    t.call p (.send id m) = some (t, .invalidId) ∧ t.call p (.receive id) = some (t, .invalidId) := by
  obtain ⟨n1, n2, -, -, -⟩ := next_ne p
  obtain ⟨hid, -⟩ := ends_eq p
  have h1 := h _ n1
  have h2 := h _ n2
  exact ⟨by simp only [TestNet.call, hid, if_neg h1, if_neg h2],
    by simp only [TestNet.call, hid, if_neg h1, if_neg h2]⟩

/-- The four counters printed by `print_connection_stats` (`test_network.rs:107-119`) are the total numbers
of bytes exchanged with the two neighbours. -/
theorem C51_stats {h : List (Party × NetCall × NetRet)} {t : TestNet} (hr : TestNet.Run h t) (p : Party) :
    (t.stats p).sentNext = totalBytes (h.filterMap (sentTo p p.next)) ∧
    (t.stats p).sentPrev = totalBytes (h.filterMap (sentTo p p.prev)) ∧
    (t.stats p).recvNext = totalBytes (h.filterMap (gotFrom p p.next)) ∧
    (t.stats p).recvPrev = totalBytes (h.filterMap (gotFrom p p.prev)) := by
  induction hr with
  | nil => exact ⟨rfl, rfl, rfl, rfl⟩
  | @snoc h t t' q c r hr hc ih =>
    obtain ⟨hid, hsn, hsp, hrn, hrp⟩ := ends_eq q
    obtain ⟨n1, n2, n3, n4, n5⟩ := next_ne q
    have n3' : q.next.val ≠ q.prev.val := fun h => n3 (Fin.ext h)
    obtain ⟨i1, i2, i3, i4⟩ := ih
    have tb : ∀ (f : Party × NetCall × NetRet → Option Bytes) (e : Party × NetCall × NetRet),
        totalBytes ((h ++ [e]).filterMap f) = totalBytes (h.filterMap f) + ((f e).map List.length).getD 0 := by
      intro f e
      rw [List.filterMap_append]
      cases hf : f e <;> simp [totalBytes, hf]
    rw [tb, tb, tb, tb, ← i1, ← i2, ← i3, ← i4]
    by_cases hpq : q = p
    · subst hpq
      cases c with
      | send id m =>
        simp only [TestNet.call, hid] at hc
        split_ifs at hc with h1 h2 <;> obtain ⟨rfl, rfl⟩ := Prod.mk.inj (Option.some.inj hc)
        · subst h1
          simp [TestNet.doSendNext, sentTo, gotFrom, NetCall.dest, NetCall.source, n3']
        · subst h2
          simp [TestNet.doSendPrev, sentTo, gotFrom, NetCall.dest, NetCall.source, Ne.symm n3']
        · simp [sentTo, gotFrom, NetCall.dest, NetCall.source, h1, h2]
      | sendNext m =>
        obtain ⟨rfl, rfl⟩ := Prod.mk.inj (Option.some.inj hc)
        simp [TestNet.doSendNext, sentTo, gotFrom, NetCall.dest, NetCall.source, n4, n3']
      | sendPrev m =>
        obtain ⟨rfl, rfl⟩ := Prod.mk.inj (Option.some.inj hc)
        simp [TestNet.doSendPrev, sentTo, gotFrom, NetCall.dest, NetCall.source, n5, Ne.symm n3']
      | receive id =>
        simp only [TestNet.call, hid] at hc
        split_ifs at hc with h1 h2
        · subst h1
          unfold TestNet.doRecvPrev at hc
          rcases hcc : t.chan (partyNetworks q).recvPrev with _ | ⟨m, rest⟩ <;> simp only [hcc] at hc
          · cases hc
          · obtain ⟨rfl, rfl⟩ := Prod.mk.inj (Option.some.inj hc)
            simp [sentTo, gotFrom, NetCall.dest, NetCall.source, Ne.symm n3']
        · subst h2
          unfold TestNet.doRecvNext at hc
          rcases hcc : t.chan (partyNetworks q).recvNext with _ | ⟨m, rest⟩ <;> simp only [hcc] at hc
          · cases hc
          · obtain ⟨rfl, rfl⟩ := Prod.mk.inj (Option.some.inj hc)
            simp [sentTo, gotFrom, NetCall.dest, NetCall.source, n3']
        · obtain ⟨rfl, rfl⟩ := Prod.mk.inj (Option.some.inj hc)
          simp [sentTo, gotFrom, NetCall.dest, NetCall.source]
      | receiveNext =>
        unfold TestNet.call TestNet.doRecvNext at hc
        rcases hcc : t.chan (partyNetworks q).recvNext with _ | ⟨m, rest⟩ <;> simp only [hcc] at hc
        · cases hc
        · obtain ⟨rfl, rfl⟩ := Prod.mk.inj (Option.some.inj hc)
          simp [sentTo, gotFrom, NetCall.dest, NetCall.source, n4, n3']
      | receivePrev =>
        unfold TestNet.call TestNet.doRecvPrev at hc
        rcases hcc : t.chan (partyNetworks q).recvPrev with _ | ⟨m, rest⟩ <;> simp only [hcc] at hc
        · cases hc
        · obtain ⟨rfl, rfl⟩ := Prod.mk.inj (Option.some.inj hc)
          simp [sentTo, gotFrom, NetCall.dest, NetCall.source, n5, Ne.symm n3']
    · have hst : t'.stats p = t.stats p := by
        have hqp : p ≠ q := fun h => hpq h.symm
        cases c with
        | send id m =>
          simp only [TestNet.call, hid] at hc
          split_ifs at hc with h1 h2 <;> obtain ⟨rfl, rfl⟩ := Prod.mk.inj (Option.some.inj hc)
          · simp [TestNet.doSendNext, update_of_ne hqp]
          · simp [TestNet.doSendPrev, update_of_ne hqp]
          · rfl
        | sendNext m =>
          obtain ⟨rfl, rfl⟩ := Prod.mk.inj (Option.some.inj hc)
          simp [TestNet.doSendNext, update_of_ne hqp]
        | sendPrev m =>
          obtain ⟨rfl, rfl⟩ := Prod.mk.inj (Option.some.inj hc)
          simp [TestNet.doSendPrev, update_of_ne hqp]
        | receive id =>
          simp only [TestNet.call, hid] at hc
          split_ifs at hc with h1 h2
          · unfold TestNet.doRecvPrev at hc
            rcases hcc : t.chan (partyNetworks q).recvPrev with _ | ⟨m, rest⟩ <;> simp only [hcc] at hc
            · cases hc
            · obtain ⟨rfl, rfl⟩ := Prod.mk.inj (Option.some.inj hc)
              simp [update_of_ne hqp]
          · unfold TestNet.doRecvNext at hc
            rcases hcc : t.chan (partyNetworks q).recvNext with _ | ⟨m, rest⟩ <;> simp only [hcc] at hc
            · cases hc
            · obtain ⟨rfl, rfl⟩ := Prod.mk.inj (Option.some.inj hc)
              simp [update_of_ne hqp]
          · obtain ⟨rfl, rfl⟩ := Prod.mk.inj (Option.some.inj hc)
            rfl
        | receiveNext =>
          unfold TestNet.call TestNet.doRecvNext at hc
          rcases hcc : t.chan (partyNetworks q).recvNext with _ | ⟨m, rest⟩ <;> simp only [hcc] at hc
          · cases hc
          · obtain ⟨rfl, rfl⟩ := Prod.mk.inj (Option.some.inj hc)
            simp [update_of_ne hqp]
        | receivePrev =>
          unfold TestNet.call TestNet.doRecvPrev at hc
          rcases hcc : t.chan (partyNetworks q).recvPrev with _ | ⟨m, rest⟩ <;> simp only [hcc] at hc
          · cases hc
          · obtain ⟨rfl, rfl⟩ := Prod.mk.inj (Option.some.inj hc)
            simp [update_of_ne hqp]
      have hs : ∀ j, sentTo p j (q, c, r) = none := by
        intro j
        unfold sentTo
        rcases c.dest q with _ | ⟨d, m⟩
        · rfl
        · simp [hpq]
      have hg : ∀ j, gotFrom p j (q, c, r) = none := by
        intro j
        unfold gotFrom
        rcases c.source q with _ | s
        · rfl
        · cases r <;> simp [hpq]
      simp [hst, hs, hg]

/-- The steps of party programs, on which every protocol theorem rests, are the calls of this network: a
party about to send to another party makes the same move as the call of `send` with that party's id, and
one about to receive the same move — or the same wait — as `receive`. -/
theorem C51_steps {α : Type} (t : TestNet) (c : Config α)
    (hc : ∀ i j : Party, i ≠ j → c.chan i j = t.chan (link i j)) (p k : Party) (hk : k ≠ p) :
    (∀ m q, c.prog p = .send k m q → ∃ t', t.call p (.send k.val m) = some (t', .unit) ∧
      ∀ c', Step p c c' ↔ c'.prog = update c.prog p q ∧ (∀ i, c'.chan i i = c.chan i i) ∧
        ∀ i j : Party, i ≠ j → c'.chan i j = t'.chan (link i j)) ∧
    (∀ q, c.prog p = .recv k q → ∀ c', Step p c c' ↔ ∃ t' m, t.call p (.receive k.val) = some (t', .msg m) ∧
      c'.prog = update c.prog p (q m) ∧ (∀ i, c'.chan i i = c.chan i i) ∧
        ∀ i j : Party, i ≠ j → c'.chan i j = t'.chan (link i j)) := by
  have hext : ∀ (ch ch' : Party → Party → List Bytes), ch = ch' ↔ (∀ i, ch i i = ch' i i) ∧
      ∀ i j : Party, i ≠ j → ch i j = ch' i j := by
    intro ch ch'
    refine ⟨by rintro rfl; exact ⟨fun _ => rfl, fun _ _ _ => rfl⟩, fun h => ?_⟩
    funext i j
    by_cases hij : i = j
    · subst hij; exact h.1 i
    · exact h.2 i j hij
  refine ⟨fun m q hp => ?_, fun q hp c' => ?_⟩
  · rcases call_spec t p (.send k.val m) with ⟨k', m', t₁, hk', hd, hs, hcall, hch⟩ | ⟨_, _, _, hd, _⟩ | ⟨hno, _⟩
    · simp only [NetCall.dest, Option.some.injEq, Prod.mk.injEq] at hd
      obtain ⟨hkk, rfl⟩ := hd
      obtain rfl : k = k' := Fin.ext hkk
      refine ⟨t₁, hcall, fun c' => ?_⟩
      have hgoal : Step p c c' ↔ c' = ⟨update c.prog p q, setChan c.chan p k (c.chan p k ++ [m])⟩ := by
        constructor
        · intro h
          cases h with
          | send h => rw [hp] at h; cases h; rfl
          | recv h => rw [hp] at h; cases h
        · rintro rfl
          exact Step.send hp
      rw [hgoal, Config.ext_iff, hext]
      have e1 : ∀ i : Party, setChan c.chan p k (c.chan p k ++ [m]) i i = c.chan i i := by
        intro i
        unfold setChan
        rw [if_neg]
        rintro ⟨a, b⟩
        exact hk (b.symm.trans a)
      have e2 : ∀ i j : Party, i ≠ j → setChan c.chan p k (c.chan p k ++ [m]) i j = t₁.chan (link i j) := by
        intro i j hij
        unfold setChan
        rw [hch]
        by_cases h : i = p ∧ j = k
        · obtain ⟨rfl, rfl⟩ := h
          simp [hc _ _ hij]
        · rw [if_neg h, update_of_ne, hc _ _ hij]
          intro e
          exact h ((link_inj hij (Ne.symm hk)).1 e)
      constructor
      · rintro ⟨a, b, d⟩
        exact ⟨a, fun i => (b i).trans (e1 i), fun i j hij => (d i j hij).trans (e2 i j hij)⟩
      · rintro ⟨a, b, d⟩
        exact ⟨a, fun i => (b i).trans (e1 i).symm, fun i j hij => (d i j hij).trans (e2 i j hij).symm⟩
    · cases hd
    · exact absurd rfl ((hno k hk).1 m)
  · rcases call_spec t p (.receive k.val) with ⟨_, _, _, _, hd, _⟩ | ⟨k', hk', hs, hd, hcase⟩ | ⟨hno, _⟩
    · cases hd
    · simp only [NetCall.source, Option.some.injEq] at hs
      obtain rfl : k = k' := Fin.ext hs
      rcases hcase with ⟨h0, hn⟩ | ⟨m, rest, t₁, hcur, hcall, hch⟩
      · rw [hn]
        refine ⟨fun h => ?_, by rintro ⟨_, _, h, _⟩; cases h⟩
        cases h with
        | send h => rw [hp] at h; cases h
        | recv h hcc => rw [hp] at h; cases h; rw [hc _ _ hk, h0] at hcc; cases hcc
      · have hcc0 : c.chan k p = m :: rest := by rw [hc _ _ hk, hcur]
        have hgoal : Step p c c' ↔ c' = ⟨update c.prog p (q m), setChan c.chan k p rest⟩ := by
          constructor
          · intro h
            cases h with
            | send h => rw [hp] at h; cases h
            | recv h hcc =>
              rw [hp] at h; cases h
              rw [hcc0] at hcc; cases hcc; rfl
          · rintro rfl
            exact Step.recv hp hcc0
        have e1 : ∀ i : Party, setChan c.chan k p rest i i = c.chan i i := by
          intro i
          unfold setChan
          rw [if_neg]
          rintro ⟨a, b⟩
          exact hk (a.symm.trans b)
        have e2 : ∀ i j : Party, i ≠ j → setChan c.chan k p rest i j = t₁.chan (link i j) := by
          intro i j hij
          unfold setChan
          rw [hch]
          by_cases h : i = k ∧ j = p
          · obtain ⟨rfl, rfl⟩ := h
            simp
          · rw [if_neg h, update_of_ne, hc _ _ hij]
            intro e
            exact h ((link_inj hij hk).1 e)
        rw [hgoal, Config.ext_iff, hext]
        constructor
        · rintro ⟨a, b, d⟩
          exact ⟨t₁, m, hcall, a, fun i => (b i).trans (e1 i), fun i j hij => (d i j hij).trans (e2 i j hij)⟩
        · rintro ⟨t', m', h1, a, b, d⟩
          rw [hcall] at h1
          obtain ⟨rfl, hm⟩ := Prod.mk.inj (Option.some.inj h1)
          cases hm
          exact ⟨a, fun i => (b i).trans (e1 i).symm, fun i j hij => (d i j hij).trans (e2 i j hij).symm⟩
    · exact absurd rfl (hno k hk).2

/-- When all three parties broadcast, every one of them gets everybody's message, in the order of the party
ids, under every schedule, and no message is left behind. -/
theorem C51_broadcast (m : Party → Bytes) :
    AllSchedules (fun i => broadcast i (m i)) (fun _ => [m 0, m 1, m 2]) := by
  obtain ⟨r, hr, rfl⟩ := (WP.broadcast (m := m) (Q := fun r => r = fun _ => [m 0, m 1, m 2]) rfl).allSchedules
  exact hr

/-- A history with sends and receives in several forms: party 0 sends two messages to party 1 and one to
party 2; party 1 has got the first, so the second is next. -/
example : ∃ t t', TestNet.Run
    [(0, .sendNext [1], .unit), (0, .send 1 [2, 3], .unit), (0, .sendPrev [4], .unit), (1, .receive 0, .msg [1]),
     (2, .receiveNext, .msg [4])] t ∧ t.call 1 .receivePrev = some (t', .msg [2, 3]) :=
  ⟨_, _, (((((TestNet.Run.nil.snoc rfl).snoc rfl).snoc rfl).snoc rfl).snoc rfl), rfl⟩

/-- Party 1 may name neither itself nor a fourth party. -/
example (t : TestNet) (m : Bytes) : t.call 1 (.send 1 m) = some (t, .invalidId) ∧
    t.call 1 (.receive 3) = some (t, .invalidId) :=
  ⟨(C51_invalid_id t 1 1 m (by decide)).1, (C51_invalid_id t 1 3 m (by decide)).2⟩

/-- The relation of `C51_steps` holds at the start. -/
example {α : Type} (p : Party → Prog α) (i j : Party) : (Config.init p).chan i j = TestNet.init.chan (link i j) :=
  rfl

end Verif
