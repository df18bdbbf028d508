import Verif.Model.Examples
import Verif.Proof.Channel
import Verif.Proof.Net
import Verif.Proof.Bincode

/-! # Lemmas about the examples of `mpc-net` -/

namespace Verif

open Function

variable {α : Type}

/-! ## The codec -/

theorem pingDecode_encode (m : PingMsg) (rest : Bytes) : pingDecode (pingEncode m ++ rest) = .ok (some m, rest) := by
  cases m with
  | ping buf h =>
    simp only [pingEncode, PingMsg.id, List.cons_append, pingDecode, if_true]
    rw [dif_neg (by simp; omega)]
    simp [h]
  | pong buf h =>
    simp only [pingEncode, PingMsg.id, List.cons_append, pingDecode, if_true]
    rw [if_neg (by decide), dif_neg (by simp; omega)]
    simp [h]

theorem pingDecode_some {src rest : Bytes} {m : PingMsg} (h : pingDecode src = .ok (some m, rest)) :
    src = pingEncode m ++ rest := by
  cases src with
  | nil => simp [pingDecode] at h
  | cons b data =>
    simp only [pingDecode] at h
    split_ifs at h with h0 h1 h1 h2
    · cases h
    · cases h
      simp [pingEncode, PingMsg.id, h0]
    · cases h
    · cases h
      simp [pingEncode, PingMsg.id, h1]

theorem pingDecode_none {src rest : Bytes} (h : pingDecode src = .ok (none, rest)) : rest = src := by
  cases src with
  | nil => simp [pingDecode] at h; exact h
  | cons b data =>
    simp only [pingDecode] at h
    split_ifs at h <;> cases h <;> rfl

theorem pingEncode_ne_nil (m : PingMsg) : pingEncode m ≠ [] := by cases m <;> simp [pingEncode]

/-- A prefix of a stream of messages: nothing yet, or the first message. -/
theorem pingDecode_stream {src more : Bytes} {ms : List PingMsg} (h : src ++ more = ms.flatMap pingEncode) :
    pingDecode src = .ok (none, src) ∨
    ∃ m ms' rest, ms = m :: ms' ∧ pingDecode src = .ok (some m, rest) ∧ rest ++ more = ms'.flatMap pingEncode ∧
      rest.length < src.length := by
  cases hd : pingDecode src with
  | error e =>
    exfalso
    cases src with
    | nil => simp [pingDecode] at hd
    | cons b data =>
      cases ms with
      | nil => simp at h
      | cons m ms =>
        have hb : b = m.id := by cases m <;> simp [pingEncode] at h <;> exact h.1
        simp only [pingDecode] at hd
        split_ifs at hd with h0 h1 h1 h2
        all_goals first | cases hd | skip
        cases m <;> simp_all [PingMsg.id]
  | ok r =>
    obtain ⟨_ | m, rest⟩ := r
    · left; rw [pingDecode_none hd]
    · right
      have e := pingDecode_some hd
      cases ms with
      | nil =>
        rw [e] at h
        simp [pingEncode_ne_nil] at h
      | cons m' ms =>
        have e1 : pingDecode (src ++ more) = .ok (some m, rest ++ more) := by
          rw [e, List.append_assoc, pingDecode_encode]
        rw [h, List.flatMap_cons, pingDecode_encode] at e1
        rw [Except.ok.injEq, Prod.mk.injEq, Option.some.injEq] at e1
        obtain ⟨rfl, e2⟩ := e1
        refine ⟨m', ms, rest, rfl, rfl, e2.symm, ?_⟩
        rw [e, List.length_append]
        have := List.length_pos_iff.2 (pingEncode_ne_nil m')
        omega

theorem pingDrain_spec {more : Bytes} : ∀ (fuel : Nat) (src : Bytes) (ms : List PingMsg), src.length < fuel →
    src ++ more = ms.flatMap pingEncode →
    ∃ d ms' rest, ms = d ++ ms' ∧ pingDrain fuel src = .ok (d, rest) ∧ rest ++ more = ms'.flatMap pingEncode ∧
      pingDecode rest = .ok (none, rest) := by
  intro fuel
  induction fuel with
  | zero => intro src ms h; omega
  | succ fuel ih =>
    intro src ms hl h
    rcases pingDecode_stream h with h1 | ⟨m, ms1, rest, rfl, h1, h2, h3⟩
    · exact ⟨[], ms, src, rfl, by simp [pingDrain, h1, bind, Except.bind], h, h1⟩
    · obtain ⟨d, ms', rest', rfl, g1, g2, g3⟩ := ih rest ms1 (by omega) h2
      exact ⟨m :: d, ms', rest', rfl, by simp [pingDrain, h1, g1, bind, Except.bind], g2, g3⟩

theorem pingFeed_spec {more : Bytes} : ∀ (cs : List Bytes) (buf : Bytes) (ms : List PingMsg),
    pingDecode buf = .ok (none, buf) → buf ++ cs.flatten ++ more = ms.flatMap pingEncode →
    ∃ d ms' rest, ms = d ++ ms' ∧ pingFeed buf cs = .ok (d, rest) ∧ rest ++ more = ms'.flatMap pingEncode ∧
      pingDecode rest = .ok (none, rest) := by
  intro cs
  induction cs with
  | nil => intro buf ms hb h; exact ⟨[], ms, buf, rfl, rfl, by simpa using h, hb⟩
  | cons c cs ih =>
    intro buf ms hb h
    have h' : (buf ++ c) ++ (cs.flatten ++ more) = ms.flatMap pingEncode := by simpa using h
    obtain ⟨d, ms1, rest, rfl, g1, g2, g3⟩ := pingDrain_spec _ (buf ++ c) ms (Nat.lt_succ_self _) h'
    obtain ⟨d', ms', rest', rfl, k1, k2, k3⟩ := ih rest ms1 g3 (by simpa using g2)
    refine ⟨d ++ d', ms', rest', by simp, ?_, k2, k3⟩
    simp only [pingFeed, g1, bind, Except.bind, k1]

/-! ## The programs -/

/-- Channels with room for one message. -/
def oneEach : Party → Party → Nat := fun _ _ => 1

/-- A loop of sends followed by a loop of receives followed by `k`. -/
def rcvs (check : Bytes → Except Err Unit) (l : List Party) (k : Prog α) : Prog α := recvAll check l >>= fun _ => k

/-- A loop of sends followed by a loop of receives followed by `k`. -/
def snds (msg : Party → Bytes) (l : List Party) (k : Prog α) : Prog α := sendAll msg l >>= fun _ => k

theorem rcvs_cons {check : Bytes → Except Err Unit} {l : List Party} {k : Prog α} {b : Bytes} (h : check b = .ok ()) :
    ((Prog.ofExcept (check b) >>= fun _ => recvAll check l) >>= fun _ => k) = rcvs check l k := by
  rw [h]; rfl

theorem rcvs_ret (check : Bytes → Except Err Unit) (l : List Party) : rcvs check l (.ret ()) = recvAll check l :=
  bind_pure (recvAll check l)

theorem BStepsN.sendHead {cap : Party → Party → Nat} {n : Nat} {i j : Party} {f : Party → Prog α} {ch : Party → Party → List Bytes}
    {t : Config α} {msg : Party → Bytes} {l : List Party} {k : Prog α} (h : f i = snds msg (j :: l) k)
    (room : (ch i j).length < cap i j)
    (ht : BStepsN cap n ⟨update f i (snds msg l k), setChan ch i j (ch i j ++ [msg j])⟩ t) :
    BStepsN cap (n + 1) ⟨f, ch⟩ t :=
  .succ i (.send (c := ⟨f, ch⟩) (k := snds msg l k) h room) ht

theorem BStepsN.recvHead {cap : Party → Party → Nat} {n : Nat} {i j : Party} {f : Party → Prog α} {ch : Party → Party → List Bytes}
    {t : Config α} {check : Bytes → Except Err Unit} {l : List Party} {k : Prog α} {b : Bytes} (h : f i = rcvs check (j :: l) k)
    (hc : ch j i = [b]) (hb : check b = .ok ()) (ht : BStepsN cap n ⟨update f i (rcvs check l k), setChan ch j i []⟩ t) :
    BStepsN cap (n + 1) ⟨f, ch⟩ t := by
  have hs := BStep.recv (cap := cap) (c := ⟨f, ch⟩) (i := i) (s := j) (m := b) (rest := [])
    (k := fun b => (Prog.ofExcept (check b) >>= fun _ => recvAll check l) >>= fun _ => k) h hc
  rw [rcvs_cons hb] at hs
  exact .succ i hs ht

/-- The order of the map of channels: any order of the two other parties. -/
def OrderOk (ord : Party → List Party) : Prop := ∀ i : Party, ord i = [i.next, i.prev] ∨ ord i = [i.prev, i.next]

theorem exchange_run {msg : Party → Party → Bytes} {check : Party → Bytes → Except Err Unit} {ord : Party → List Party}
    (ho : OrderOk ord) (hchk : ∀ i j, j ≠ i → check i (msg j i) = .ok ()) {k : Party → Prog α} {n : Nat} {t : Config α}
    (h : BStepsN oneEach n (Config.init k) t) :
    BStepsN oneEach (n + 12) (Config.init fun i => snds (msg i) (ord i) (rcvs (check i) (ord i) (k i))) t := by
  have e : ∀ (p q : Party → Prog α) (c : Party → Party → List Bytes), p 0 = q 0 → p 1 = q 1 → p 2 = q 2 →
      (∀ s d, c s d = []) → (⟨p, c⟩ : Config α) = Config.init q := by
    intro p q c h0 h1 h2 hc
    ext1
    · funext i; fin_cases i <;> assumption
    · funext s d; exact hc s d
  have key : ∀ (a0 b0 a1 b1 a2 b2 : Party), ord 0 = [a0, b0] → ord 1 = [a1, b1] → ord 2 = [a2, b2] →
      (a0, b0) ∈ [((1 : Party), (2 : Party)), (2, 1)] → (a1, b1) ∈ [((2 : Party), (0 : Party)), (0, 2)] →
      (a2, b2) ∈ [((0 : Party), (1 : Party)), (1, 0)] →
      BStepsN oneEach (n + 12) (Config.init fun i => snds (msg i) (ord i) (rcvs (check i) (ord i) (k i))) t := by
    intro a0 b0 a1 b1 a2 b2 h0 h1 h2 m0 m1 m2
    simp only [List.mem_cons, Prod.mk.injEq, List.not_mem_nil, or_false] at m0 m1 m2
    rcases m0 with ⟨rfl, rfl⟩ | ⟨rfl, rfl⟩ <;> rcases m1 with ⟨rfl, rfl⟩ | ⟨rfl, rfl⟩ <;>
      rcases m2 with ⟨rfl, rfl⟩ | ⟨rfl, rfl⟩ <;>
    · refine .sendHead (i := 0) (by beta_reduce; rw [h0]) Nat.one_pos ?_
      refine .sendHead (i := 0) rfl Nat.one_pos ?_
      refine .sendHead (i := 1) (by rw [update_of_ne (by decide), update_of_ne (by decide), h1]) Nat.one_pos ?_
      refine .sendHead (i := 1) rfl Nat.one_pos ?_
      refine .sendHead (i := 2) (by
        rw [update_of_ne (by decide), update_of_ne (by decide), update_of_ne (by decide), update_of_ne (by decide), h2])
        Nat.one_pos ?_
      refine .sendHead (i := 2) rfl Nat.one_pos ?_
      refine .recvHead (i := 0) (by
        rw [update_of_ne (by decide), update_of_ne (by decide), update_of_ne (by decide), update_of_ne (by decide), update_self]; rfl) rfl (hchk _ _ (by decide)) ?_
      refine .recvHead (i := 0) rfl rfl (hchk _ _ (by decide)) ?_
      refine .recvHead (i := 1) (by
        rw [update_of_ne (by decide), update_of_ne (by decide), update_of_ne (by decide), update_of_ne (by decide), update_self]; rfl) rfl (hchk _ _ (by decide)) ?_
      refine .recvHead (i := 1) rfl rfl (hchk _ _ (by decide)) ?_
      refine .recvHead (i := 2) (by
        rw [update_of_ne (by decide), update_of_ne (by decide), update_of_ne (by decide), update_of_ne (by decide), update_self]; rfl) rfl (hchk _ _ (by decide)) ?_
      refine .recvHead (i := 2) rfl rfl (hchk _ _ (by decide)) ?_
      refine (e _ k _ ?_ ?_ ?_ ?_).symm ▸ h
      · rfl
      · rfl
      · rfl
      · intro s d; fin_cases s <;> fin_cases d <;> rfl
  rcases ho 0 with h0 | h0 <;> rcases ho 1 with h1 | h1 <;> rcases ho 2 with h2 | h2 <;>
    exact key _ _ _ _ _ _ h0 h1 h2 (by decide) (by decide) (by decide)

theorem assertAll_ok (me : Party) (n : Nat) : assertAll me (List.replicate n (BitVec.ofNat 8 me.val)) = .ok () := by
  simp [assertAll]

theorem dec_serde (bs : Bytes) : Bincode.dec (α := SerdeMsg) bs =
    (Bincode.dec (α := BitVec 32) bs).bind fun x =>
      if x.1 = 0 then (Bincode.dec (α := List (BitVec 8)) x.2).bind fun y => some (SerdeMsg.ping y.1, y.2)
      else if x.1 = 1 then (Bincode.dec (α := List (BitVec 8)) x.2).bind fun y => some (SerdeMsg.pong y.1, y.2)
      else none := rfl

theorem serdePing_dec (b : List (BitVec 8)) (h : b.length < 2 ^ 64) :
    Bincode.dec (Bincode.enc (SerdeMsg.ping b)) = some (SerdeMsg.ping b, []) := by
  have e : Bincode.enc (SerdeMsg.ping b) = Bincode.enc (0 : BitVec 32) ++ (Bincode.enc b ++ []) := by
    rw [List.append_nil]; rfl
  have h2 := LawfulBincode.dec_enc (α := List (BitVec 8)) b (And.intro h fun _ _ => trivial) []
  rw [e, dec_serde, LawfulBincode.bv_dec, Option.bind_some, if_pos rfl]
  dsimp only
  rw [h2, Option.bind_some]

theorem serdePong_dec (b : List (BitVec 8)) (h : b.length < 2 ^ 64) :
    Bincode.dec (Bincode.enc (SerdeMsg.pong b)) = some (SerdeMsg.pong b, []) := by
  have e : Bincode.enc (SerdeMsg.pong b) = Bincode.enc (1 : BitVec 32) ++ (Bincode.enc b ++ []) := by
    rw [List.append_nil]; rfl
  have h2 := LawfulBincode.dec_enc (α := List (BitVec 8)) b (And.intro h fun _ _ => trivial) []
  rw [e, dec_serde, LawfulBincode.bv_dec, Option.bind_some, if_neg (by dsimp only; decide), if_pos rfl]
  dsimp only
  rw [h2, Option.bind_some]

end Verif
