import Verif.Proof.Examples
import Verif.Proof.Bincode
import Verif.Props.Channel
import Verif.Props.Capacity

/-! # C71: the custom codec and the example programs of `mpc-net`, and closing a channel -/

namespace Verif

open Function

variable {W : Nat} {s : Link}

/-! ## The codec -/

/-- The decoder answers with a message exactly if the buffer starts with its encoding, and leaves what follows. -/
theorem C71_decode_message (src rest : Bytes) (m : PingMsg) :
    pingDecode src = .ok (some m, rest) ↔ src = pingEncode m ++ rest :=
  ⟨pingDecode_some, fun h => h ▸ pingDecode_encode m rest⟩

/-- The decoder asks for more bytes, and consumes nothing, exactly if the buffer is a proper beginning of an encoding. -/
theorem C71_decode_wait (src rest : Bytes) :
    pingDecode src = .ok (none, rest) ↔ rest = src ∧ ∃ m more, more ≠ [] ∧ src ++ more = pingEncode m := by
  constructor
  · intro h
    refine ⟨pingDecode_none h, ?_⟩
    cases src with
    | nil =>
      exact ⟨.pong (List.replicate 512 0) (List.length_replicate ..),
        pingEncode (.pong (List.replicate 512 0) (List.length_replicate ..)), pingEncode_ne_nil _, rfl⟩
    | cons b data =>
      simp only [pingDecode] at h
      split_ifs at h with h0 h1 h1 h2
      · refine ⟨.ping (data ++ List.replicate (1024 - data.length) 0) ?_, List.replicate (1024 - data.length) 0, ?_, ?_⟩
        · rw [List.length_append, List.length_replicate]; simp at h1; omega
        · intro hc; have := congrArg List.length hc; simp at this h1; omega
        · simp [pingEncode, PingMsg.id, h0]
      · cases h
      · refine ⟨.pong (data ++ List.replicate (512 - data.length) 0) ?_, List.replicate (512 - data.length) 0, ?_, ?_⟩
        · rw [List.length_append, List.length_replicate]; simp at h2; omega
        · intro hc; have := congrArg List.length hc; simp at this h2; omega
        · simp [pingEncode, PingMsg.id, h1]
      · cases h
  · rintro ⟨rfl, m, more, hm, h⟩
    rcases pingDecode_stream (ms := [m]) (by simpa using h) with h1 | ⟨m', ms', r, e, h1, h2, -⟩
    · exact h1
    · cases e
      simp at h2
      exact absurd h2.2 hm

/-- The decoder fails exactly on an unknown message number. -/
theorem C71_decode_error (src : Bytes) (e : IoErr) :
    pingDecode src = .error e ↔ e = .invalidData ∧ ∃ b data, src = b :: data ∧ b ≠ 0 ∧ b ≠ 1 := by
  constructor
  · intro h
    cases src with
    | nil => simp [pingDecode] at h
    | cons b data =>
      simp only [pingDecode] at h
      split_ifs at h with h0 h1 h1 h2
      all_goals cases h
      exact ⟨rfl, b, data, rfl, h0, h1⟩
  · rintro ⟨rfl, b, data, rfl, h0, h1⟩
    simp only [pingDecode]
    rw [if_neg h0, if_neg h1]

/-- However the bytes of a sequence of messages are cut into pieces on their way, the receiver gets exactly these messages. -/
theorem C71_stream (ms : List PingMsg) (cs : List Bytes) (h : cs.flatten = (ms.map pingEncode).flatten) :
    pingFeed [] cs = .ok (ms, []) := by
  obtain ⟨d, ms', rest, rfl, h1, h2, h3⟩ := pingFeed_spec (more := []) cs [] ms rfl (by simpa [List.flatMap] using h)
  have hn : ms' = [] := by
    cases ms' with
    | nil => rfl
    | cons m ms' =>
      rw [List.append_nil] at h2
      rw [h2, List.flatMap_cons, pingDecode_encode] at h3
      cases h3
  subst hn
  simp only [List.append_nil, List.flatMap_nil] at h2
  subst h2
  rw [h1]; simp

/-- When only a part of the bytes has arrived, the receiver has got a beginning of the sequence of messages. -/
theorem C71_stream_prefix (ms : List PingMsg) (cs : List Bytes) (h : cs.flatten <+: (ms.map pingEncode).flatten) :
    ∃ d rest, pingFeed [] cs = .ok (d, rest) ∧ d <+: ms := by
  obtain ⟨more, h⟩ := h
  obtain ⟨d, ms', rest, rfl, h1, -, -⟩ := pingFeed_spec (more := more) cs [] ms rfl (by simpa [List.flatMap] using h)
  exact ⟨d, rest, h1, List.prefix_append ..⟩

example : ∃ m : PingMsg, pingDecode ((0 : BitVec 8) :: List.replicate 1030 7) = .ok (some m, List.replicate 6 7) := by
  refine ⟨.ping (List.replicate 1024 7) (List.length_replicate ..), (C71_decode_message _ _ _).2 ?_⟩
  rw [show 1030 = 1024 + 6 from rfl, List.replicate_add]
  rfl

/-! ## The programs -/

/-- All four example programs: whatever the order in which each party's map of channels is traversed and whatever the schedule,
every party runs to the end, all assertions hold and all messages are consumed; also if a channel has room for one message
only. -/
theorem C71_examples (ord : Party → List Party)
    (ho : ∀ i : Party, ord i = [i.next, i.prev] ∨ ord i = [i.prev, i.next])
    (main : Party → List Party → Prog Unit) (hm : main = byteMain ∨ main = customMain ∨ main = bincodeMain) :
    AllSchedules (fun i => main i (ord i)) (fun _ => ()) ∧
    ∀ cap : Party → Party → Nat, (∀ s d, 1 ≤ cap s d) → AllSchedulesWithin cap (fun i => main i (ord i)) (fun _ => ()) := by
  have hz : BStepsN oneEach 0 (Config.init fun _ => Prog.ret ()) (Config.final fun _ => ()) := .zero _
  have key : ∃ n, BStepsN oneEach n (Config.init fun i => main i (ord i)) (Config.final fun _ => ()) := by
    rcases hm with rfl | rfl | rfl
    · have h := exchange_run (msg := fun _ i => List.replicate 1024 (BitVec.ofNat 8 i.val)) (check := byteCheck) ho
        (fun i j _ => assertAll_ok i 1024) hz
      simp only [rcvs_ret] at h
      exact ⟨_, h⟩
    · have h := (exchange_run (check := pingCheck)
        (msg := fun _ i => pingEncode (.ping (List.replicate 1024 (BitVec.ofNat 8 i.val)) (List.length_replicate ..))) ho
        (fun i j _ => ?_) (exchange_run (check := pongCheck)
          (msg := fun _ i => pingEncode (.pong (List.replicate 512 (BitVec.ofNat 8 i.val)) (List.length_replicate ..))) ho
          (fun i j _ => ?_) hz))
      · simp only [rcvs_ret] at h
        exact ⟨_, h⟩
      · have := pingDecode_encode (.ping (List.replicate 1024 (BitVec.ofNat 8 i.val)) (List.length_replicate ..)) []
        rw [List.append_nil] at this
        rw [pingCheck, this]
        exact assertAll_ok i 1024
      · have := pingDecode_encode (.pong (List.replicate 512 (BitVec.ofNat 8 i.val)) (List.length_replicate ..)) []
        rw [List.append_nil] at this
        rw [pongCheck, this]
        exact assertAll_ok i 512
    · have h := (exchange_run (check := serdePingCheck)
        (msg := fun _ i => Bincode.enc (SerdeMsg.ping (List.replicate 1024 (BitVec.ofNat 8 i.val)))) ho
        (fun i j _ => ?_) (exchange_run (check := serdePongCheck)
          (msg := fun _ i => Bincode.enc (SerdeMsg.pong (List.replicate 512 (BitVec.ofNat 8 i.val)))) ho
          (fun i j _ => ?_) hz))
      · simp only [rcvs_ret] at h
        exact ⟨_, h⟩
      · rw [serdePingCheck, serdePing_dec _ (by rw [List.length_replicate]; norm_num)]
        exact assertAll_ok i 1024
      · rw [serdePongCheck, serdePong_dec _ (by rw [List.length_replicate]; norm_num)]
        exact assertAll_ok i 512
  obtain ⟨n, hn⟩ := key
  exact ⟨C01_one_run_suffices _ _ n hn.toSteps, fun cap hc => (hn.mono hc).allSchedulesWithin⟩

example : OrderOk fun i => if i = 1 then [i.prev, i.next] else [i.next, i.prev] := by
  intro i; by_cases h : i = 1 <;> simp [h]

/-! ## Closing a channel -/

/-- `Channel::close` when the channel has delivered `k` messages before: it succeeds exactly if the peer sent no more, and then
the peer has closed its sending half too; otherwise it reports unexpected data. -/
theorem C71_close (h : Link.Reach W s) {k : Nat} {r : Except IoErr Bytes} (hr : s.rres k = some r) :
    (closeResult r = .ok () ↔ (carried s.sends).length ≤ k) ∧ (closeResult r = .ok () → s.wdropped = true) ∧
    (closeResult r ≠ .ok () → closeResult r = .error .other) := by
  rcases C49_fifo h hr with ⟨m, rfl, h1⟩ | ⟨rfl, h1, h2⟩
  · have := (List.getElem?_eq_some_iff.1 h1).1
    simp only [closeResult]
    refine ⟨⟨fun h => (by cases h), fun h => (by omega)⟩, fun h => (by cases h), fun _ => by trivial⟩
  · simp only [closeResult]
    exact ⟨⟨fun _ => h2, fun _ => trivial⟩, fun _ => h1, fun h => absurd rfl h⟩

/-- If both sides close, both calls return: when nothing more happens, the read that `close` waits for has been answered. -/
theorem C71_close_returns (hW : 0 < W) (h : Link.Reach W s) (hd : s.wdropped = true) (hq : ∀ t, ¬ ActorStep W s t) {k : Nat}
    (hk : k < s.rcount) : ∃ r, s.rres k = some r := by
  cases hr : s.rres k with
  | some r => exact ⟨r, rfl⟩
  | none => rw [(C49_no_message_stuck hW h hq hk hr).1] at hd; cases hd

/-- A channel closed by both sides without unread messages, and one where a message was still unread. -/
example : (∃ s : Link, Link.Reach 16 s ∧ s.wdropped = true ∧ ∃ r, s.rres 0 = some r ∧ closeResult r = .ok ()) ∧
    ∃ s : Link, Link.Reach 16 s ∧ ∃ r, s.rres 0 = some r ∧ closeResult r = .error .other := by
  have h0 := Link.Reach.init (W := 16)
  constructor
  · have h1 := h0.user .drop
    have h2 := h1.user (.recv (by decide))
    have h3 := h2.actor (.finish rfl rfl rfl rfl)
    have h4 := h3.actor (.takeRead (k := 0) (rest := []) rfl rfl)
    have h5 := h4.actor (.readEof (k := 0) rfl rfl rfl rfl rfl rfl)
    have h6 := h5.actor (.atEnd (k := 0) (dec := .head) rfl rfl rfl (by decide) rfl)
    exact ⟨_, h6, rfl, _, rfl, rfl⟩
  · have h1 := h0.user (.send [7, 9] (by decide) rfl)
    have h2 := h1.user (.recv (by decide))
    have h3 := h2.actor (.take (k := 0) (m := [7, 9]) (b := [0, 0, 0, 2, 7, 9]) (rest := []) rfl rfl (by decide))
    have h4 := h3.actor (.flush 6 (by decide) (by decide) (by decide))
    have h5 := h4.actor (.takeRead (k := 0) (rest := []) rfl rfl)
    have h6 := h5.actor (.read (k := 0) 6 rfl rfl rfl (by decide) (by decide))
    have h7 := h6.actor (.decoded (k := 0) (m := [7, 9]) (buf := []) (dec := .head) rfl rfl rfl (by decide))
    exact ⟨_, h7, _, rfl, rfl⟩

end Verif
