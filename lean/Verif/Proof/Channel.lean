import Verif.Model.Channel
import Mathlib.Tactic.Ring
import Mathlib.Tactic.Linarith

/-! # Lemmas about framing and the channel actors -/

namespace Verif

/-- The bytes of a sequence of frames. -/
def flatFrames (fs : List Bytes) : Bytes := fs.flatMap frame

@[simp] theorem flatFrames_nil : flatFrames [] = [] := rfl
@[simp] theorem flatFrames_cons (m : Bytes) (fs) : flatFrames (m :: fs) = be32 m.length ++ (m ++ flatFrames fs) := by
  simp [flatFrames, frame]

theorem flatFrames_append (a b : List Bytes) : flatFrames (a ++ b) = flatFrames a ++ flatFrames b := by
  simp [flatFrames]

/-- A message the codec accepts. -/
def Fits (m : Bytes) : Prop := m.length ≤ maxFrame

instance : DecidablePred Fits := fun m => inferInstanceAs (Decidable (m.length ≤ maxFrame))

@[simp] theorem be32_length (n : Nat) : (be32 n).length = 4 := rfl

theorem fromBe_be32 {n : Nat} (h : n < 2 ^ 32) : fromBe (be32 n) = n := by
  simp only [fromBe, be32, List.foldl_cons, List.foldl_nil, BitVec.toNat_ofNat]
  omega

theorem Fits.small {m : Bytes} (h : Fits m) : m.length < 2 ^ 32 := by
  unfold Fits maxFrame at h; omega

theorem ldEncode_ok {m : Bytes} (h : Fits m) : ldEncode m = .ok (frame m) := by
  unfold ldEncode; rw [if_neg (by unfold Fits at h; omega)]

theorem ldEncode_err {m : Bytes} (h : ¬ Fits m) : ldEncode m = .error .invalidInput := by
  unfold ldEncode; rw [if_pos (by unfold Fits at h; omega)]

/-- `bytes` is what a decoder in state `dec` still has to see of the frames `fs`. -/
def Holds : DecState → List Bytes → Bytes → Prop
  | .head, fs, bytes => bytes = flatFrames fs
  | .data n, fs, bytes => ∃ m rest, fs = m :: rest ∧ n = m.length ∧ bytes = m ++ flatFrames rest

theorem Holds.append {dec : DecState} {fs gs : List Bytes} {bytes : Bytes} (h : Holds dec fs bytes) :
    Holds dec (fs ++ gs) (bytes ++ flatFrames gs) := by
  cases dec with
  | head => rw [show bytes = flatFrames fs from h]; exact (flatFrames_append _ _).symm
  | data n =>
    obtain ⟨m, rest, rfl, h1, rfl⟩ := h
    exact ⟨m, rest ++ gs, rfl, h1, by rw [flatFrames_append]; simp⟩

def decWeight : DecState → Nat
  | .head => 0
  | .data _ => 1

/-- Outcome of a decoder that has seen `buf` and will see `more`. -/
inductive Decoded (fs : List Bytes) (more : Bytes) (dec : DecState) (buf : Bytes) :
    Except IoErr (Option Bytes × DecState × Bytes) → Prop
  | some {m : Bytes} {rest : List Bytes} {buf' : Bytes} (h : fs = m :: rest)
      (hr : buf' ++ more = flatFrames rest) (hl : buf'.length < buf.length + decWeight dec) :
      Decoded fs more dec buf (.ok (some m, .head, buf'))
  | none {dec' : DecState} {buf' : Bytes} (hr : Holds dec' fs (buf' ++ more))
      (hl : buf'.length ≤ buf.length) (he : more = [] → fs = [] ∧ buf' = [] ∧ dec' = .head)
      (hi : ldDecode dec' buf' = .ok (none, dec', buf')) :
      Decoded fs more dec buf (.ok (none, dec', buf'))

theorem decodeData_spec {m : Bytes} {rest : List Bytes} {more dat : Bytes}
    (h : dat ++ more = m ++ flatFrames rest) {dec : DecState} {buf : Bytes}
    (hl : dat.length < buf.length + decWeight dec) :
    Decoded (m :: rest) more dec buf (.ok (ldDecodeData m.length dat)) := by
  unfold ldDecodeData
  by_cases hlt : dat.length < m.length
  · rw [if_pos hlt]
    refine .none ⟨m, rest, rfl, rfl, h⟩ ?_ ?_ ?_
    · have : decWeight dec ≤ 1 := by cases dec <;> simp [decWeight]
      omega
    · rintro rfl
      have := congrArg List.length h
      simp at this
      omega
    · simp [ldDecode, ldDecodeData, hlt]
  · rw [if_neg hlt]
    have hm : dat.take m.length = m := by
      have := congrArg (List.take m.length) h
      rwa [List.take_append_of_le_length (by omega), List.take_left'] at this
      rfl
    rw [hm]
    refine .some rfl ?_ ?_
    · have := congrArg (List.drop m.length) h
      rwa [List.drop_append_of_le_length (by omega), List.drop_left'] at this
      rfl
    · simp; omega

theorem ldDecode_spec {fs : List Bytes} (hf : ∀ m ∈ fs, Fits m) {dec : DecState} {buf more : Bytes}
    (h : Holds dec fs (buf ++ more)) : Decoded fs more dec buf (ldDecode dec buf) := by
  cases dec with
  | data n =>
    obtain ⟨m, rest, rfl, rfl, h⟩ := h
    exact decodeData_spec h (by simp [decWeight])
  | head =>
    have h : buf ++ more = flatFrames fs := h
    simp only [ldDecode]
    by_cases hl : buf.length < 4
    · rw [if_pos hl]
      refine .none h le_rfl ?_ ?_
      · rintro rfl
        cases fs with
        | nil => simpa using h
        | cons m fs =>
          have := congrArg List.length h
          simp at this
          omega
      · simp [ldDecode, hl]
    · rw [if_neg hl]
      cases fs with
      | nil =>
        have := (List.append_eq_nil_iff.1 h).1
        subst this
        simp at hl
      | cons m rest =>
        rw [flatFrames_cons] at h
        have h1 : buf.take 4 = be32 m.length := by
          have := congrArg (List.take 4) h
          rwa [List.take_append_of_le_length (by omega), List.take_left'] at this
          rfl
        have h2 : buf.drop 4 ++ more = m ++ flatFrames rest := by
          have := congrArg (List.drop 4) h
          rwa [List.drop_append_of_le_length (by omega), List.drop_left'] at this
          rfl
        have hm := hf m (by simp)
        simp only [h1, fromBe_be32 hm.small]
        rw [if_neg (by unfold Fits at hm; omega)]
        exact decodeData_spec h2 (by simp [decWeight]; omega)

theorem drainFrames_spec {more : Bytes} : ∀ (fuel : Nat) (fs : List Bytes), (∀ m ∈ fs, Fits m) →
    ∀ (dec : DecState) (buf : Bytes), Holds dec fs (buf ++ more) → buf.length + decWeight dec < fuel →
    ∃ ms rest dec' buf', drainFrames fuel dec buf = .ok (ms, dec', buf') ∧ fs = ms ++ rest ∧
      Holds dec' rest (buf' ++ more) ∧ (more = [] → rest = [] ∧ buf' = [] ∧ dec' = .head)
  | 0, _, _, _, _, _, h => absurd h (by omega)
  | fuel + 1, fs, hf, dec, buf, h, hl => by
    have hd := ldDecode_spec hf h
    generalize hr : ldDecode dec buf = r at hd
    cases hd with
    | @none dec' buf' h1 h2 h3 h4 =>
      refine ⟨[], fs, dec', buf', ?_, rfl, h1, h3⟩
      simp [drainFrames, hr, bind, Except.bind]
    | @some m rest buf' h1 h2 h3 =>
      subst h1
      obtain ⟨ms, rest', dec'', buf'', e1, e2, e3, e4⟩ := drainFrames_spec fuel rest
        (fun x hx => hf x (List.mem_cons_of_mem _ hx)) .head buf' h2 (by simp only [decWeight]; omega)
      refine ⟨m :: ms, rest', dec'', buf'', ?_, by rw [e2]; rfl, e3, e4⟩
      simp [drainFrames, hr, e1, bind, Except.bind]

theorem feedChunks_spec : ∀ (cs : List Bytes) (fs : List Bytes), (∀ m ∈ fs, Fits m) →
    ∀ (dec : DecState) (buf more : Bytes), Holds dec fs (buf ++ cs.flatten ++ more) →
    (cs = [] → more = [] → fs = [] ∧ buf = [] ∧ dec = .head) →
    ∃ ms rest dec' buf', feedChunks dec buf cs = .ok (ms, dec', buf') ∧ fs = ms ++ rest ∧
      Holds dec' rest (buf' ++ more) ∧ (more = [] → rest = [] ∧ buf' = [] ∧ dec' = .head)
  | [], fs, hf, dec, buf, more, h, he => by
    refine ⟨[], fs, dec, buf, rfl, rfl, by simpa using h, fun hm => he rfl hm⟩
  | c :: cs, fs, hf, dec, buf, more, h, _ => by
    have h' : Holds dec fs ((buf ++ c) ++ (cs.flatten ++ more)) := by simpa using h
    obtain ⟨ms, rest, dec', buf', e1, e2, e3, e4⟩ := drainFrames_spec ((buf ++ c).length + 2) fs hf dec _ h'
      (by cases dec <;> simp [decWeight])
    have hf' : ∀ m ∈ rest, Fits m := fun m hm => hf m (by rw [e2]; simp [hm])
    obtain ⟨ms', rest', dec'', buf'', g1, g2, g3, g4⟩ := feedChunks_spec cs rest hf' dec' buf' more
      (by simpa using e3) (by rintro rfl rfl; simpa using e4)
    refine ⟨ms ++ ms', rest', dec'', buf'', ?_, by rw [e2, g2]; simp, g3, g4⟩
    simp only [feedChunks, e1, g1, bind, Except.bind]

/-! ## The link invariant -/

/-- The answer to the `k`-th read job when `D` has been sent. -/
def answer (D : List Bytes) (k : Nat) : Except IoErr Bytes :=
  match D[k]? with
  | some m => .ok m
  | none => .error .brokenPipe

/-- The answer to a write job. -/
def wanswer (m : Bytes) : Except IoErr Unit := if Fits m then .ok () else .error .invalidInput

structure LInv (s : Link) (A : List Bytes) (a : Nat) : Prop where
  sends : s.sends = A ++ s.wq.map Prod.snd
  nums : s.wq.map Prod.fst = List.range' A.length s.wq.length
  cur : ∀ k, s.wcur = some k → k + 1 = A.length ∧ ∃ m, A[k]? = some m ∧ Fits m
  idle : s.wcur = none → s.out = []
  clo : s.closed = true → s.wdropped = true ∧ s.wq = [] ∧ s.wcur = none
  bytes : Holds s.fr.dec ((A.filter Fits).drop a) (s.fr.buf ++ (s.wire ++ s.out))
  late : (A.filter Fits).length < a → s.closed = true
  rep : ∀ k < a, s.rres k = some (answer (A.filter Fits) k)
  norep : ∀ k, a ≤ k → s.rres k = none
  jobs : s.rcur.toList ++ s.rq = List.range' a (s.rcount - a)
  ale : a ≤ s.rcount
  noerr : s.fr.errored = false
  eof : s.fr.eof = true → s.wire = [] ∧ s.closed = true ∧
    (s.fr.readable = false → s.fr.dec = .head ∧ s.fr.buf = [])
  unread : s.fr.readable = false → ldDecode s.fr.dec s.fr.buf = .ok (none, s.fr.dec, s.fr.buf)
  wr : ∀ k, s.wcur ≠ some k → ∀ m, A[k]? = some m → s.wres k = some (wanswer m)
  wr0 : ∀ k, A.length ≤ k → s.wres k = none
  wrc : ∀ k, s.wcur = some k → s.wres k = none

theorem LInv.init : LInv Link.init [] 0 := by
  constructor <;> simp [Link.init, Holds, ldDecode]

theorem LInv.user {s t : Link} {A : List Bytes} {a : Nat} (h : LInv s A a) (hs : UserStep s t) :
    LInv t A a := by
  cases hs with
  | send m hq hd =>
    have hc : s.closed = false := by
      by_contra hc
      have := (h.clo (by simpa using hc)).1
      simp [hd] at this
    refine { h with sends := ?_, nums := ?_, clo := ?_ }
    · simp [h.sends]
    · simp only [List.map_append, List.map_cons, List.map_nil, List.length_append, List.length_cons,
        List.length_nil, h.nums, List.range'_concat]
      rw [h.sends]; simp
    · intro hc'; simp [hc] at hc'
  | recv hq =>
    refine { h with jobs := ?_, ale := ?_ }
    · have := h.ale
      show s.rcur.toList ++ (s.rq ++ [s.rcount]) = _
      rw [← List.append_assoc, h.jobs, Nat.sub_add_comm this, List.range'_concat]
      congr 2
      omega
    · have := h.ale; simp only; omega
  | drop =>
    exact { h with clo := fun hc => ⟨rfl, (h.clo hc).2⟩ }

theorem filter_drop_fits (A : List Bytes) (a : Nat) : ∀ m ∈ (A.filter Fits).drop a, Fits m := by
  intro m hm
  have := List.mem_of_mem_drop hm
  simpa using (List.mem_filter.1 this).2

/-- Answering the current job correctly. -/
theorem LInv.reply {s : Link} {A : List Bytes} {a k : Nat} (h : LInv s A a) (hk : s.rcur = some k)
    {fr : FrState} {r : Except IoErr Bytes} (hr : r = answer (A.filter Fits) a)
    (hb : Holds fr.dec ((A.filter Fits).drop (a + 1)) (fr.buf ++ (s.wire ++ s.out)))
    (hl : (A.filter Fits).length < a + 1 → s.closed = true) (hn : fr.errored = false)
    (he : fr.eof = true → s.wire = [] ∧ s.closed = true ∧
      (fr.readable = false → fr.dec = .head ∧ fr.buf = []))
    (hu : fr.readable = false → ldDecode fr.dec fr.buf = .ok (none, fr.dec, fr.buf)) :
    k = a ∧ LInv (s.reply k fr r) A (a + 1) := by
  have hj := h.jobs
  rw [hk] at hj
  simp only [Option.toList_some, List.singleton_append] at hj
  have hlt : a < s.rcount := by
    by_contra hc
    rw [show s.rcount - a = 0 by omega] at hj
    simp at hj
  have hs1 : s.rcount - a = (s.rcount - (a + 1)) + 1 := by omega
  rw [hs1, List.range'_succ, List.cons.injEq] at hj
  obtain ⟨rfl, hj⟩ := hj
  refine ⟨rfl, ?_⟩
  refine { h with bytes := hb, late := hl, rep := ?_, norep := ?_, jobs := ?_, ale := hlt, noerr := hn, eof := he, unread := hu }
  · intro j hj'
    simp only [Link.reply, Function.update_apply]
    split
    · next e => subst e; rw [hr]
    · exact h.rep j (by omega)
  · intro j hj'
    simp only [Link.reply, Function.update_apply]
    rw [if_neg (by omega)]
    exact h.norep j (by omega)
  · simpa [Link.reply] using hj


theorem drop_cons_getElem? {α : Type} {l : List α} {a : Nat} {m : α} {rest : List α}
    (h : l.drop a = m :: rest) : l[a]? = some m ∧ l.drop (a + 1) = rest ∧ a < l.length := by
  have h1 : l[a]? = some m := by
    rw [← List.head?_drop, h]; rfl
  refine ⟨h1, ?_, ?_⟩
  · rw [← List.drop_drop, h]; rfl
  · by_contra hc
    rw [List.drop_eq_nil_of_le (by omega)] at h
    cases h

theorem answer_append {D E : List Bytes} {k : Nat} (h : k < D.length) : answer (D ++ E) k = answer D k := by
  unfold answer
  rw [List.getElem?_append_left h]

/-- A message handed to the write actor. -/
theorem LInv.taken {s : Link} {A : List Bytes} {a k : Nat} {m : Bytes} {rest : List (Nat × Bytes)}
    (h : LInv s A a) (hq : s.wq = (k, m) :: rest) :
    k = A.length ∧ s.closed = false ∧ s.sends = (A ++ [m]) ++ rest.map Prod.snd ∧
    rest.map Prod.fst = List.range' (A ++ [m]).length rest.length ∧ s.wres k = none ∧
    (A.filter Fits).length ≥ a := by
  have hn := h.nums
  rw [hq] at hn
  simp only [List.map_cons, List.length_cons, List.range'_succ, List.cons.injEq] at hn
  have hcl : s.closed = false := by
    by_contra hcc
    have := (h.clo (by simpa using hcc)).2.1
    rw [hq] at this; cases this
  refine ⟨hn.1, hcl, ?_, ?_, h.wr0 k (by omega), ?_⟩
  · rw [h.sends, hq]; simp
  · simp [hn.2]
  · by_contra hcc
    have := h.late (by omega)
    rw [hcl] at this; cases this

theorem LInv.actor {W : Nat} {s t : Link} {A : List Bytes} {a : Nat} (h : LInv s A a)
    (hs : ActorStep W s t) : ∃ A' a', LInv t A' a' := by
  cases hs with
  | @take k m b rest hc hq he =>
    obtain ⟨hk, hcl, hsd, hnm, hw0, hge⟩ := h.taken hq
    have hf : Fits m := by
      by_contra hf; rw [ldEncode_err hf] at he; cases he
    rw [ldEncode_ok hf, Except.ok.injEq] at he
    subst he
    have hfil : (A ++ [m]).filter Fits = A.filter Fits ++ [m] := by simp [List.filter_append, hf]
    refine ⟨A ++ [m], a, ?_⟩
    have ho := h.idle hc
    refine { h with sends := hsd, nums := hnm, cur := ?_, idle := ?_, clo := ?_, bytes := ?_, late := ?_, rep := ?_, wr := ?_, wr0 := ?_, wrc := ?_ }
    · intro j hj
      simp only [Option.some.injEq] at hj
      subst hj
      exact ⟨by simp [hk], m, by simp [hk], hf⟩
    · intro hj; simp at hj
    · intro hcl'; simp only [hcl] at hcl'; cases hcl'
    · rw [hfil, List.drop_append_of_le_length hge]
      have := h.bytes.append (gs := [m])
      simpa [flatFrames, ho] using this
    · rw [hfil]; intro hl; simp at hl; omega
    · intro j hj
      rw [hfil, answer_append (by omega)]
      exact h.rep j hj
    · intro j hj x hx
      have hjk : j ≠ A.length := fun e => hj (by simp [e, hk])
      have : j < A.length := by
        have := (List.getElem?_eq_some_iff.1 hx).1
        simp at this; omega
      rw [List.getElem?_append_left this] at hx
      exact h.wr j (by rw [hc]; simp) x hx
    · intro j hj
      simp at hj
      exact h.wr0 j (by omega)
    · intro j hj
      simp only [Option.some.injEq] at hj
      subst hj; exact hw0
  | @takeErr k m e rest hc hq he =>
    obtain ⟨hk, hcl, hsd, hnm, hw0, hge⟩ := h.taken hq
    have hf : ¬ Fits m := by
      intro hf; rw [ldEncode_ok hf] at he; cases he
    rw [ldEncode_err hf, Except.error.injEq] at he
    subst he
    have hfil : (A ++ [m]).filter Fits = A.filter Fits := by simp [List.filter_append, hf]
    refine ⟨A ++ [m], a, ?_⟩
    refine { h with sends := hsd, nums := hnm, cur := ?_, clo := ?_, bytes := ?_, late := ?_, rep := ?_, wr := ?_, wr0 := ?_, wrc := ?_ }
    · intro j hj; simp only [hc] at hj; cases hj
    · intro hcl'; simp only [hcl] at hcl'; cases hcl'
    · rw [hfil]; exact h.bytes
    · rw [hfil]; exact h.late
    · rw [hfil]; exact h.rep
    · intro j hj x hx
      simp only [Function.update_apply]
      by_cases hjk : j = k
      · rw [if_pos hjk]
        subst hjk; rw [hk] at hx
        simp at hx
        subst hx
        simp [wanswer, hf]
      · rw [if_neg hjk]
        have : j < A.length := by
          have := (List.getElem?_eq_some_iff.1 hx).1
          simp at this; omega
        rw [List.getElem?_append_left this] at hx
        exact h.wr j (by rw [hc]; simp) x hx
    · intro j hj
      simp at hj
      simp only [Function.update_apply]
      rw [if_neg (by omega)]
      exact h.wr0 j (by omega)
    · intro j hj; simp only [hc] at hj; cases hj
  | flush n hn ho hw =>
    refine ⟨A, a, ?_⟩
    have hne : s.wcur ≠ none := fun hc => by
      have := h.idle hc; rw [this] at ho; simp at ho; omega
    refine { h with idle := ?_, bytes := ?_, eof := ?_ }
    · intro hc; exact absurd hc hne
    · have : s.wire ++ s.out.take n ++ s.out.drop n = s.wire ++ s.out := by simp
      show Holds _ _ (s.fr.buf ++ (s.wire ++ s.out.take n ++ s.out.drop n))
      rw [this]; exact h.bytes
    · intro he
      have := (h.clo (h.eof he).2.1).2.2
      exact absurd this hne
  | @flushed k hc ho =>
    obtain ⟨h1, m, h2, h3⟩ := h.cur k hc
    refine ⟨A, a, { h with cur := ?_, idle := fun _ => ho, clo := ?_, wr := ?_, wr0 := ?_, wrc := ?_ }⟩
    · intro j hj; cases hj
    · intro hcl; have := (h.clo hcl).2.2; rw [hc] at this; cases this
    · intro j _ x hx
      simp only [Function.update_apply]
      by_cases hjk : j = k
      · rw [if_pos hjk]
        subst hjk
        rw [h2, Option.some.injEq] at hx
        subst hx; simp [wanswer, h3]
      · rw [if_neg hjk]
        exact h.wr j (by rw [hc]; simp; omega) x hx
    · intro j hj
      simp only [Function.update_apply]
      rw [if_neg (by omega)]
      exact h.wr0 j hj
    · intro j hj; cases hj
  | finish hd hq hc hcl =>
    exact ⟨A, a, { h with
      clo := fun _ => ⟨hd, hq, hc⟩
      late := fun _ => rfl
      eof := fun he => by have := (h.eof he).2.1; rw [hcl] at this; cases this }⟩
  | @takeRead k rest hc hq =>
    refine ⟨A, a, { h with jobs := ?_ }⟩
    have := h.jobs
    rw [hc, hq] at this
    simpa using this
  | afterError hc he => rw [h.noerr] at he; cases he
  | @decoded k m buf dec hc he hr hd =>
    have hsp := ldDecode_spec (filter_drop_fits A a) h.bytes
    rw [hd] at hsp
    generalize hD : (A.filter Fits).drop a = D at hsp
    generalize hmo : s.wire ++ s.out = more at hsp
    cases hsp with
    | some h1 h2 h3 =>
      subst h1
      obtain ⟨g1, g2, g3⟩ := drop_cons_getElem? hD
      refine ⟨A, a + 1, (h.reply hc (fr := { s.fr with dec := .head, buf := buf }) ?_ ?_ ?_ h.noerr ?_ ?_).2⟩
      · simp [answer, g1]
      · rw [g2, hmo]; exact h2
      · intro hl; omega
      · intro he'
        obtain ⟨e1, e2, e3⟩ := h.eof he'
        exact ⟨e1, e2, fun hr' => by simp only [hr] at hr'; cases hr'⟩
      · intro hr'; simp only [hr] at hr'; cases hr'
  | @decodeErr k e hc he hr hd =>
    have hsp := ldDecode_spec (filter_drop_fits A a) h.bytes
    rw [hd] at hsp
    cases hsp
  | @notYet k buf dec hc he hr hd hf =>
    have hsp := ldDecode_spec (filter_drop_fits A a) h.bytes
    rw [hd] at hsp
    generalize hD : (A.filter Fits).drop a = D at hsp
    generalize hmo : s.wire ++ s.out = more at hsp
    cases hsp with
    | none h1 h2 h3 h4 =>
      refine ⟨A, a, { h with bytes := ?_, noerr := ?_, eof := ?_, unread := ?_ }⟩
      · rw [hD]; simp only; rw [hmo]; exact h1
      · exact h.noerr
      · intro he'; simp only [hf] at he'; cases he'
      · intro _; exact h4
  | @atEnd k dec hc he hr hd hf =>
    obtain ⟨e1, e2, e3⟩ := h.eof hf
    have ho := h.idle (h.clo e2).2.2
    have hsp := ldDecode_spec (filter_drop_fits A a) h.bytes
    rw [hd] at hsp
    have hmo : s.wire ++ s.out = [] := by rw [e1, ho]; rfl
    generalize hD : (A.filter Fits).drop a = D at hsp
    generalize hmo' : s.wire ++ s.out = more at hsp
    cases hsp with
    | none h1 h2 h3 h4 =>
      obtain ⟨rfl, hb, rfl⟩ := h3 (hmo'.symm.trans hmo)
      have hlen : (A.filter Fits).length ≤ a := List.drop_eq_nil_iff.1 hD
      refine ⟨A, a + 1, (h.reply hc (fr := { s.fr with dec := .head, buf := [], readable := false })
        ?_ ?_ ?_ h.noerr ?_ ?_).2⟩
      · simp [answer, List.getElem?_eq_none hlen]
      · rw [List.drop_eq_nil_of_le (by omega), hmo]; rfl
      · exact fun _ => e2
      · exact fun _ => ⟨e1, e2, fun _ => ⟨rfl, rfl⟩⟩
      · intro _; simp [ldDecode]
  | @cutOff k buf dec hc he hr hd hb hf =>
    obtain ⟨e1, e2, e3⟩ := h.eof hf
    have ho := h.idle (h.clo e2).2.2
    have hsp := ldDecode_spec (filter_drop_fits A a) h.bytes
    rw [hd] at hsp
    cases hsp with
    | none h1 h2 h3 h4 => exact absurd (h3 (by rw [e1, ho]; rfl)).2.1 hb
  | @read k n hc he hr hn hw =>
    refine ⟨A, a, { h with bytes := ?_, noerr := h.noerr, eof := ?_, unread := ?_ }⟩
    · have : s.fr.buf ++ s.wire.take n ++ (s.wire.drop n ++ s.out) = s.fr.buf ++ (s.wire ++ s.out) := by
        simp only [List.append_assoc]
        rw [← List.append_assoc (s.wire.take n), List.take_append_drop]
      show Holds _ _ (s.fr.buf ++ s.wire.take n ++ (s.wire.drop n ++ s.out))
      rw [this]; exact h.bytes
    · intro he'; cases he'
    · intro hr'; cases hr'
  | @readEof k hc he hr hw hcl hf =>
    refine ⟨A, a, { h with noerr := h.noerr, eof := ?_, unread := ?_ }⟩
    · exact fun _ => ⟨hw, hcl, fun hr' => by cases hr'⟩
    · intro hr'; cases hr'
  | @stillEof k hc he hr hw hcl hf =>
    obtain ⟨e1, e2, e3⟩ := h.eof hf
    obtain ⟨e4, e5⟩ := e3 hr
    have ho := h.idle (h.clo e2).2.2
    have hD : (A.filter Fits).drop a = [] := by
      have := h.bytes
      rw [e4, e5, e1, ho] at this
      have h2 : ([] : Bytes) = flatFrames ((A.filter Fits).drop a) := this
      generalize (A.filter Fits).drop a = D at h2
      cases D with
      | nil => rfl
      | cons m D =>
        rw [flatFrames_cons] at h2
        have := congrArg List.length h2
        simp at this
        omega
    have hlen : (A.filter Fits).length ≤ a := List.drop_eq_nil_iff.1 hD
    refine ⟨A, a + 1, (h.reply hc (fr := s.fr) ?_ ?_ (fun _ => e2) h.noerr h.eof h.unread).2⟩
    · simp [answer, List.getElem?_eq_none hlen]
    · rw [List.drop_eq_nil_of_le (by omega)]
      have := h.bytes
      rwa [hD] at this

theorem Link.Reach.inv {W : Nat} {s : Link} (h : Link.Reach W s) : ∃ A a, LInv s A a := by
  induction h with
  | init => exact ⟨_, _, LInv.init⟩
  | user _ hs ih => obtain ⟨A, a, ih⟩ := ih; exact ⟨A, a, ih.user hs⟩
  | actor _ hs ih => obtain ⟨A, a, ih⟩ := ih; exact ih.actor hs

/-- Remaining work of the actors. -/
def Link.weight (s : Link) : Nat :=
  (s.wq.map (fun x => 6 * (x.2.length + 4) + 3)).sum + s.wcur.toList.length + 6 * s.out.length +
  (if s.closed then 0 else 1) + 4 * s.wire.length + 2 * s.fr.buf.length + 3 * s.rq.length +
  2 * s.rcur.toList.length + (if s.fr.readable then 1 else 0) + (if s.fr.eof then 0 else 2)

theorem Decoded.length_le {fs : List Bytes} {more : Bytes} {dec : DecState} {buf : Bytes}
    {r : Option Bytes} {dec' : DecState} {buf' : Bytes}
    (h : Decoded fs more dec buf (.ok (r, dec', buf'))) : buf'.length ≤ buf.length := by
  have : decWeight dec ≤ 1 := by cases dec <;> simp [decWeight]
  cases h with
  | some h hr hl => omega
  | none _ hl _ _ => exact hl

theorem LInv.weight {W : Nat} {s t : Link} {A : List Bytes} {a : Nat} (h : LInv s A a)
    (hs : ActorStep W s t) : t.weight < s.weight := by
  have hlen : ∀ r dec' buf', ldDecode s.fr.dec s.fr.buf = .ok (r, dec', buf') →
      buf'.length ≤ s.fr.buf.length := by
    intro r dec' buf' hd
    have hsp := ldDecode_spec (filter_drop_fits A a) h.bytes
    rw [hd] at hsp
    exact hsp.length_le
  cases hs with
  | @take k m b rest hc hq he =>
    have hf : Fits m := by
      by_contra hf; rw [ldEncode_err hf] at he; cases he
    rw [ldEncode_ok hf, Except.ok.injEq] at he
    subst he
    simp only [Link.weight, hc, hq, List.map_cons, List.sum_cons, List.length_append, frame, be32_length,
      Option.toList_some, Option.toList_none, List.length_cons, List.length_nil]
    omega
  | @takeErr k m e rest hc hq he =>
    simp only [Link.weight, hq, List.map_cons, List.sum_cons]
    omega
  | flush n hn ho hw =>
    simp only [Link.weight, List.length_append, List.length_drop, List.length_take]
    omega
  | @flushed k hc ho =>
    simp only [Link.weight, hc, Option.toList_some, Option.toList_none, List.length_cons, List.length_nil]
    omega
  | finish hd hq hc hcl =>
    simp only [Link.weight, hcl, if_true]
    simp only [Bool.false_eq_true, if_false]
    omega
  | @takeRead k rest hc hq =>
    simp only [Link.weight, hc, hq, Option.toList_some, Option.toList_none, List.length_cons, List.length_nil]
    omega
  | afterError hc he => rw [h.noerr] at he; cases he
  | @decoded k m buf dec hc he hr hd =>
    have := hlen _ _ _ hd
    simp only [Link.weight, Link.reply, hc, hr, Option.toList_some, Option.toList_none, List.length_cons,
      List.length_nil]
    omega
  | @decodeErr k e hc he hr hd =>
    simp only [Link.weight, Link.reply, hc, hr, Option.toList_some, Option.toList_none, List.length_cons,
      List.length_nil]
    omega
  | @notYet k buf dec hc he hr hd hf =>
    have := hlen _ _ _ hd
    simp only [Link.weight, hr, if_true]
    simp only [Bool.false_eq_true, if_false]
    omega
  | @atEnd k dec hc he hr hd hf =>
    simp only [Link.weight, Link.reply, hc, hr, hf, Option.toList_some, Option.toList_none, List.length_cons,
      List.length_nil, if_true]
    simp only [Bool.false_eq_true, if_false]
    omega
  | @cutOff k buf dec hc he hr hd hb hf =>
    have := hlen _ _ _ hd
    simp only [Link.weight, Link.reply, hc, hr, Option.toList_some, Option.toList_none, List.length_cons,
      List.length_nil]
    omega
  | @read k n hc he hr hn hw =>
    have hf : s.fr.eof = false := by
      by_contra hf
      have := (h.eof (by simpa using hf)).1
      rw [this] at hw; simp at hw; omega
    simp only [Link.weight, hr, hf, List.length_append, List.length_take, List.length_drop, if_true]
    simp only [Bool.false_eq_true, if_false]
    omega
  | @readEof k hc he hr hw hcl hf =>
    simp only [Link.weight, hr, hf, if_true]
    simp only [Bool.false_eq_true, if_false]
    omega
  | @stillEof k hc he hr hw hcl hf =>
    simp only [Link.weight, Link.reply, hc, hf, hcl, hr, Option.toList_some, Option.toList_none,
      List.length_cons, List.length_nil]
    omega

end Verif
