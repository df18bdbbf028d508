import Verif.Proof.Channel

/-! # C49, C50: managed channels and framing -/

namespace Verif

/-- The messages a sender submitted that the codec can carry (at most 8 MiB). -/
def carried (sends : List Bytes) : List Bytes := sends.filter (fun m => m.length ≤ 8 * 1024 * 1024)

theorem carried_eq (l : List Bytes) : carried l = l.filter Fits := rfl

variable {W : Nat} {s : Link}

/-- C49. In every reachable state of a managed channel — whatever the order of job submissions, actor
steps, flushes and partial reads — the `k`-th receive job, if it has been answered, has been answered with
the `k`-th message the peer submitted (among those the codec can carry), or with `BrokenPipe`, and the
latter only once the peer has dropped its handle having submitted no more than `k` of them. -/
theorem C49_fifo (h : Link.Reach W s) {k : Nat} {r : Except IoErr Bytes} (hr : s.rres k = some r) :
    (∃ m, r = .ok m ∧ (carried s.sends)[k]? = some m) ∨
    (r = .error .brokenPipe ∧ s.wdropped = true ∧ (carried s.sends).length ≤ k) := by
  obtain ⟨A, a, h⟩ := h.inv
  have hk : k < a := by
    by_contra hc
    rw [h.norep k (by omega)] at hr; cases hr
  rw [h.rep k hk, Option.some.injEq] at hr
  rw [carried_eq, h.sends, List.filter_append]
  unfold answer at hr
  cases hD : (A.filter Fits)[k]? with
  | some m =>
    rw [hD] at hr
    refine .inl ⟨m, hr.symm, ?_⟩
    rw [List.getElem?_append_left (List.getElem?_eq_some_iff.1 hD).1, hD]
  | none =>
    rw [hD] at hr
    have hlen := List.getElem?_eq_none_iff.1 hD
    have hcl := h.clo (h.late (by omega))
    refine .inr ⟨hr.symm, hcl.1, ?_⟩
    simpa [hcl.2.1] using hlen

/-- C49. Receive jobs are answered in the order of their submission. -/
theorem C49_in_order (h : Link.Reach W s) {j k : Nat} (hjk : j ≤ k) (hk : s.rres k ≠ none) :
    s.rres j ≠ none := by
  obtain ⟨A, a, h⟩ := h.inv
  have : k < a := by
    by_contra hc
    exact hk (h.norep k (by omega))
  rw [h.rep j (by omega)]
  simp

/-- C49. A send job is answered `Ok` exactly if the message fits the codec, otherwise with
`InvalidInput`. -/
theorem C49_send_status (h : Link.Reach W s) {k : Nat} {r : Except IoErr Unit} (hr : s.wres k = some r) :
    ∃ m, s.sends[k]? = some m ∧
      r = if m.length ≤ 8 * 1024 * 1024 then .ok () else .error .invalidInput := by
  obtain ⟨A, a, h⟩ := h.inv
  have hk : k < A.length := by
    by_contra hc
    rw [h.wr0 k (by omega)] at hr; cases hr
  have hc : s.wcur ≠ some k := fun hc => by rw [h.wrc k hc] at hr; cases hr
  have h1 : A[k]? = some A[k] := List.getElem?_eq_getElem hk
  have h2 := h.wr k hc _ h1
  rw [h2, Option.some.injEq] at hr
  refine ⟨A[k], ?_, hr.symm⟩
  rw [h.sends, List.getElem?_append_left hk, h1]

/-- C49, liveness. The actors and the transport cannot run forever without new jobs: from every reachable
state the number of their steps is bounded. -/
theorem C49_terminates (h : Link.Reach W s) : ∃ N, ∀ n t, ActorSteps W n s t → n ≤ N := by
  refine ⟨s.weight, ?_⟩
  have key : ∀ n t, ActorSteps W n s t → Link.Reach W t ∧ n + t.weight ≤ s.weight := by
    intro n t ht
    induction ht with
    | zero => exact ⟨h, by omega⟩
    | succ _ hs ih =>
      obtain ⟨h1, h2⟩ := ih h
      obtain ⟨A, a, hi⟩ := h1.inv
      have := hi.weight hs
      exact ⟨.actor h1 hs, by omega⟩
  intro n t ht
  have := (key n t ht).2
  omega

/-- C49, liveness. When actors and transport have come to rest (for any flow-control window), a receive
job that is still unanswered waits for a message that has not been sent: the peer has not dropped its
handle, all its send jobs have been answered, and every message it sent has been received. -/
theorem C49_no_message_stuck (hW : 0 < W) (h : Link.Reach W s) (hq : ∀ t, ¬ ActorStep W s t) {k : Nat}
    (hk : k < s.rcount) (hn : s.rres k = none) :
    s.wdropped = false ∧ (∀ j < s.sends.length, s.wres j ≠ none) ∧
    ∀ j < (carried s.sends).length, ∃ m, s.rres j = some (.ok m) := by
  obtain ⟨A, a, h⟩ := h.inv
  have hak : a ≤ k := by
    by_contra hc
    rw [h.rep k (by omega)] at hn; cases hn
  -- the read actor has a job
  have hcur : s.rcur ≠ none := by
    intro hc
    have hj := h.jobs
    rw [hc] at hj
    cases hrq : s.rq with
    | nil =>
      rw [hrq] at hj
      have := congrArg List.length hj
      simp at this
      omega
    | cons x rest => exact hq _ (.takeRead hc hrq)
  obtain ⟨j0, hj0⟩ := Option.ne_none_iff_exists'.1 hcur
  have hsp := ldDecode_spec (filter_drop_fits A a) h.bytes
  have hread : s.fr.readable = false := by
    by_contra hr
    have hr : s.fr.readable = true := by simpa using hr
    generalize hd : ldDecode s.fr.dec s.fr.buf = r at hsp
    cases hsp with
    | some h1 h2 h3 => exact hq _ (.decoded hj0 h.noerr hr hd)
    | @none dec' buf' h1 h2 h3 h4 =>
      cases hf : s.fr.eof with
      | false => exact hq _ (.notYet hj0 h.noerr hr hd hf)
      | true =>
        by_cases hb : buf' = []
        · subst hb; exact hq _ (.atEnd hj0 h.noerr hr hd hf)
        · exact hq _ (.cutOff hj0 h.noerr hr hd hb hf)
  have hwire : s.wire = [] := by
    by_contra hw
    exact hq _ (.read 1 hj0 h.noerr hread (by omega) (List.length_pos_iff.2 hw))
  have hcl : s.closed = false := by
    by_contra hc
    have hc : s.closed = true := by simpa using hc
    cases hf : s.fr.eof with
    | false => exact hq _ (.readEof hj0 h.noerr hread hwire hc hf)
    | true => exact hq _ (.stillEof hj0 h.noerr hread hwire hc hf)
  have hout : s.out = [] := by
    by_contra ho
    exact hq _ (.flush 1 (by omega) (List.length_pos_iff.2 ho) (by rw [hwire]; simp; omega))
  have hwc : s.wcur = none := by
    by_contra hc
    obtain ⟨k', hk'⟩ := Option.ne_none_iff_exists'.1 hc
    exact hq _ (.flushed hk' hout)
  have hwq : s.wq = [] := by
    cases hwq : s.wq with
    | nil => rfl
    | cons x rest =>
      obtain ⟨i, m⟩ := x
      cases he : ldEncode m with
      | ok b => exact absurd (.take hwc hwq he) (hq _)
      | error e => exact absurd (.takeErr hwc hwq he) (hq _)
  have hwd : s.wdropped = false := by
    by_contra hd
    exact hq _ (.finish (by simpa using hd) hwq hwc hcl)
  have hsA : s.sends = A := by rw [h.sends, hwq]; simp
  refine ⟨hwd, ?_, ?_⟩
  · intro j hj
    rw [hsA] at hj
    rw [h.wr j (by rw [hwc]; simp) A[j] (List.getElem?_eq_getElem hj)]
    simp
  · intro j hj
    rw [carried_eq, hsA] at hj
    rw [h.unread hread] at hsp
    have hD : (A.filter Fits).drop a = [] := by
      generalize (A.filter Fits).drop a = D at hsp
      cases hsp with
      | none h1 h2 h3 h4 => exact (h3 (by rw [hwire, hout]; rfl)).1
    have hlen := List.drop_eq_nil_iff.1 hD
    rw [h.rep j (by omega)]
    simp [answer, List.getElem?_eq_getElem hj]

/-- C49/C50, a limit that `iris-mpc` does not notice: `Aby3Network::send` drops the status of the send job,
and a message above 8 MiB is not transmitted; the first receive of the peer then returns the *next*
message. -/
theorem C49_oversize_skipped (h : Link.Reach W s) {big m : Bytes} {rest : List Bytes}
    (hs : s.sends = big :: m :: rest) (hb : 8 * 1024 * 1024 < big.length)
    (hm : m.length ≤ 8 * 1024 * 1024) {r : Except IoErr Bytes} (hr : s.rres 0 = some r) : r = .ok m := by
  have hc : carried s.sends = m :: carried rest := by
    rw [hs]
    simp only [carried]
    rw [List.filter_cons_of_neg (by simpa using hb), List.filter_cons_of_pos (by simpa using hm)]
  rcases C49_fifo h hr with ⟨x, hx, h1⟩ | ⟨_, _, h1⟩
  · rw [hc] at h1
    simp at h1
    rw [hx, h1]
  · rw [hc] at h1; simp at h1

/-- A concrete run: one message is submitted, one receive job, and the job is answered with it. -/
example : ∃ s : Link, Link.Reach 16 s ∧ s.rres 0 = some (.ok [7, 9]) ∧ s.wres 0 = some (.ok ()) := by
  have h0 := Link.Reach.init (W := 16)
  have h1 := h0.user (.send [7, 9] (by decide) rfl)
  have h2 := h1.user (.recv (by decide))
  have h3 := h2.actor (.take (k := 0) (m := [7, 9]) (b := [0, 0, 0, 2, 7, 9]) (rest := []) rfl rfl (by decide))
  have h4 := h3.actor (.flush 3 (by decide) (by decide) (by decide))
  have h5 := h4.actor (.takeRead (k := 0) (rest := []) rfl rfl)
  have h6 := h5.actor (.read (k := 0) 3 rfl rfl rfl (by decide) (by decide))
  have h7 := h6.actor (.notYet (k := 0) (buf := [0, 0, 0]) (dec := .head) rfl rfl rfl (by decide) rfl)
  have h8 := h7.actor (.flush 3 (by decide) (by decide) (by decide))
  have h9 := h8.actor (.read (k := 0) 3 rfl rfl rfl (by decide) (by decide))
  have h10 := h9.actor (.decoded (k := 0) (m := [7, 9]) (buf := []) (dec := .head) rfl rfl rfl (by decide))
  have h11 := h10.actor (.flushed (k := 0) rfl (by decide))
  exact ⟨_, h11, rfl, rfl⟩

/-- C50. Whatever the frames (up to 8 MiB each) and however the byte stream of their encodings is cut
into chunks, decoding chunk by chunk gives back exactly the frames and leaves nothing in the buffer. -/
theorem C50_framing (fs : List Bytes) (hf : ∀ m ∈ fs, m.length ≤ 8 * 1024 * 1024) :
    ∃ es : List Bytes, List.Forall₂ (fun m e => ldEncode m = .ok e) fs es ∧
      ∀ cs : List Bytes, cs.flatten = es.flatten → feedChunks .head [] cs = .ok (fs, .head, []) := by
  refine ⟨fs.map frame, ?_, ?_⟩
  · induction fs with
    | nil => exact .nil
    | cons m fs ih =>
      exact .cons (ldEncode_ok (hf m (by simp))) (ih (fun x hx => hf x (by simp [hx])))
  · intro cs hcs
    have hb : Holds .head fs ([] ++ cs.flatten ++ []) := by
      show [] ++ cs.flatten ++ [] = flatFrames fs
      simp [hcs, flatFrames, List.flatMap]
    obtain ⟨ms, rest, dec', buf', e1, e2, e3, e4⟩ := feedChunks_spec cs fs hf .head [] [] hb (by
      rintro rfl _
      refine ⟨?_, rfl, rfl⟩
      cases fs with
      | nil => rfl
      | cons m fs =>
        have := congrArg List.length hb
        rw [flatFrames_cons] at this
        simp at this
        omega)
    obtain ⟨rfl, rfl, rfl⟩ := e4 rfl
    rw [e1, e2]
    simp

/-- C50. A frame above the limit is refused by the encoder; a length field above the limit is refused by the
decoder. -/
theorem C50_limit (m : Bytes) (h : 8 * 1024 * 1024 < m.length) :
    ldEncode m = .error .invalidInput ∧
    ∀ src : Bytes, 4 ≤ src.length → 8 * 1024 * 1024 < fromBe (src.take 4) →
      ldDecode .head src = .error .invalidData := by
  refine ⟨ldEncode_err (by unfold Fits maxFrame; omega), ?_⟩
  intro src hl hn
  simp only [ldDecode]
  rw [if_neg (by omega), if_pos (show _ > maxFrame from hn)]

/-- C50. A value sent through a bincode channel is decoded to the same value, provided its serialization
does not exceed the limit and the serializer round-trips. -/
theorem C50_bincode {M : Type} (B : BincodeT M) (hB : ∀ x rest, B.de (B.ser x ++ rest) = .ok (x, rest))
    (x : M) (hx : (B.ser x).length ≤ 8 * 1024 * 1024) (more : Bytes) :
    ∃ e, bincodeEncode B x = .ok e ∧ bincodeDecode B .head (e ++ more) = .ok (some x, .head, more) := by
  refine ⟨frame (B.ser x), ldEncode_ok hx, ?_⟩
  have hf : Fits (B.ser x) := hx
  have h1 : ldDecode .head (frame (B.ser x) ++ more) = .ok (some (B.ser x), .head, more) := by
    rw [show frame (B.ser x) = be32 (B.ser x).length ++ B.ser x from rfl]
    simp only [ldDecode]
    rw [if_neg (by simp)]
    have h2 : ((be32 (B.ser x).length ++ B.ser x) ++ more).take 4 = be32 (B.ser x).length := by
      rw [List.append_assoc, List.take_left']; rfl
    have h3 : ((be32 (B.ser x).length ++ B.ser x) ++ more).drop 4 = B.ser x ++ more := by
      rw [List.append_assoc, List.drop_left']; rfl
    rw [h2, h3, fromBe_be32 hf.small, if_neg (by unfold Fits at hf; omega)]
    unfold ldDecodeData
    rw [if_neg (by simp)]
    simp
  have h4 := hB x []
  rw [List.append_nil] at h4
  simp only [bincodeDecode, h1, h4, bind, Except.bind]

/-- The framing theorem applies, e.g. to an empty frame followed by a three-byte frame, cut anywhere. -/
example : feedChunks .head [] [[0, 0], [0, 0, 0, 0, 0], [3, 1, 2], [], [3]] = .ok ([[], [1, 2, 3]], .head, []) := by
  obtain ⟨es, he, h⟩ := C50_framing [[], [1, 2, 3]] (by decide)
  refine h _ ?_
  cases he with
  | cons h1 h2 =>
    cases h2 with
    | cons h3 h4 =>
      cases h4
      have e1 : ldEncode [] = .ok [0, 0, 0, 0] := by decide
      have e2 : ldEncode [1, 2, 3] = .ok [0, 0, 0, 3, 1, 2, 3] := by decide
      rw [e1] at h1; rw [e2] at h3
      cases h1; cases h3
      rfl

end Verif
