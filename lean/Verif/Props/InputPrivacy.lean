import Verif.Proof.InputAby3
import Verif.Proof.InputMalLock
import Verif.Proof.InputSpdz
import Verif.Proof.S3Input
import Verif.Proof.Swift3InputAll
import Verif.Props.Aby3
import Verif.Props.QueryPrivacy
import Verif.Props.QueryPrivacyMal
import Verif.Props.QueryPrivacySpdz
import Verif.Props.QueryPrivacyS3

/-! # C90: `input` and `input_all` hide the inputs from each of the other parties, in all four MPC backends

`input` of party `id` and `input_all` with any two inputs: the messages that a party `i` receives have the same distribution.
As in C68, C84, C87 and C89, party `i` knows two (Swift3: three) random generators, the other two parties have one in common
that it does not know, and the number of tapes of this generator that lead to a given view is the same.

The `_one_view` theorems say that every tape leads to exactly one view, so that the numbers add up to the number of all
tapes and no probability is lost in runs that do not end. -/

namespace Verif

open Jmp

variable {K V : Nat} {f : Bytes → List Bool}

theorem one_of_wps {α σ : Type} {p : Party → Proto σ α} {st : Party → σ} {Q : (Party → α) → (Party → σ) → Prop}
    (h : WPS p st Q) (i : Party) : ∃! v, Sees (fun j => p j (st j)) i v := by
  obtain ⟨r, hr, -⟩ := h
  obtain ⟨l, hl⟩ := hr.recorded (fun _ => [])
  exact ⟨_, (Sees.of_runs hl _).2 rfl, fun v hv => (Sees.of_runs hl v).1 hv⟩

/-! ## ABY3 -/

theorem C90_aby3_one_view (id i : Party) (inp : Party → Option (BitVec K)) (h : inp id ≠ none) (st : Party → Aby3St bitPrg)
    (hst : Aby3Ready st) (t : List Bool) : ∃! v, Sees (fun j => Aby3.input j (inp j) id.val (withTape i t st j)) i v := by
  obtain ⟨x, hx⟩ := Option.ne_none_iff_exists'.1 h
  exact one_of_wps (Aby3.input_wp (u := 0) (v := 0) hx (withTape_ready hst t)) i

/-- `input` of the value of party `id`, which may be any; what the other parties pass is ignored and may be anything. -/
theorem C90_aby3_input (id i : Party) (inp inp' : Party → Option (BitVec K)) (h : inp id ≠ none) (h' : inp' id ≠ none)
    (st : Party → Aby3St bitPrg) (n : Nat) (hn : K ≤ n) (v : Log) :
    viewCount (fun j => Aby3.input j (inp j) id.val) st i n v = viewCount (fun j => Aby3.input j (inp' j) id.val) st i n v := by
  have hs : fmtSize [(K, 1)] ≤ n := by simpa [fmtSize] using hn
  rw [(aby3Input_uni id h).viewCount st n hs v, (aby3Input_uni id h').viewCount st n hs v]

theorem C90_aby3_input_all_one_view (i : Party) (x : Party → BitVec K) (st : Party → Aby3St bitPrg) (hst : Aby3Ready st)
    (t : List Bool) : ∃! v, Sees (fun j => Aby3.inputAll j (x j) (withTape i t st j)) i v :=
  one_of_wps (Aby3.inputAll_wp (u := 0) (v := 0) x (withTape_ready hst t)) i

/-- `input_all`: all three inputs may differ. -/
theorem C90_aby3_input_all (i : Party) (x x' : Party → BitVec K) (st : Party → Aby3St bitPrg) (n : Nat) (hn : K * 3 ≤ n) (v : Log) :
    viewCount (fun j => Aby3.inputAll j (x j)) st i n v = viewCount (fun j => Aby3.inputAll j (x' j)) st i n v := by
  have hs : fmtSize [(K, 3)] ≤ n := by simpa [fmtSize] using hn
  rw [aby3InputAll_uni.viewCount st n hs v, aby3InputAll_uni.viewCount st n hs v]

/-! ## Malicious ABY3 -/

theorem C90_mal_one_view (id i : Party) (inp : Party → Option (BitVec K)) (h : inp id ≠ none) (st : Party → JmpSt (idealPrg f))
    (hst : JmpOk st) (t : List Bool) : ∃! v, Sees (fun j => MalAby3.input j (inp j) id.val (tapeIn i t st j)) i v := by
  obtain ⟨x, hx⟩ := Option.ne_none_iff_exists'.1 h
  exact one_of_wps (MalAby3.input_wp hx (tapeIn_ok hst t)) i

/-- `input`; party `i` itself passes the same in both situations (it may be the party `id`). -/
theorem C90_mal_input (id i : Party) (inp inp' : Party → Option (BitVec K)) (h : inp id ≠ none) (h' : inp' id ≠ none)
    (hi : inp i = inp' i) (st : Party → JmpSt (idealPrg f)) (hst : JmpOk st) (n : Nat) (hn : K ≤ n) (v : Log) :
    viewCountMal (fun j => MalAby3.input j (inp j) id.val) st i n v = viewCountMal (fun j => MalAby3.input j (inp' j) id.val) st i n v := by
  have := (malInput_cpl (f := f) (inp := Bool.rec inp inp') i id (by rintro (_ | _) <;> assumption) hi).count hst n hn v
  exact this

theorem C90_mal_input_all_one_view (i : Party) (x : Party → BitVec K) (st : Party → JmpSt (idealPrg f)) (hst : JmpOk st)
    (t : List Bool) : ∃! v, Sees (fun j => MalAby3.inputAll j (x j) (tapeIn i t st j)) i v :=
  one_of_wps (MalAby3.inputAll_wp x (tapeIn_ok hst t)) i

theorem C90_mal_input_all (i : Party) (x x' : Party → BitVec K) (hi : x i = x' i) (st : Party → JmpSt (idealPrg f))
    (hst : JmpOk st) (n : Nat) (hn : 3 * K ≤ n) (v : Log) :
    viewCountMal (fun j => MalAby3.inputAll j (x j)) st i n v = viewCountMal (fun j => MalAby3.inputAll j (x' j)) st i n v := by
  have := (malInputAll_cpl (f := f) (x := Bool.rec x x') i hi).count hst n (by omega) v
  exact this

/-! ## SPDZ-wise -/

theorem spdz_shape {key : BitVec V} {p u : Nat} {st : Party → SpdzSt (idealPrg f) V} (h : SpdzOk key p u st) (j : Party) :
    BufShape (st j).buffer := by
  intro hb
  obtain ⟨ws, bits, h1, h2, h3, h4, h5⟩ := h.2.2.2.2
  obtain ⟨xs, ys, hx, hy, ha, hb', hc⟩ := h1
  have := h2 j
  have hw : ws ≠ 0 := by omega
  refine ⟨?_, ?_, ?_⟩ <;> intro he <;> apply hw
  · rw [← hx, ← ha.length j, he]; rfl
  · rw [← hy, ← hb'.length j, he]; rfl
  · have := hc.length j
    simp only [he, List.length_nil, List.length_zipWith, hx, hy, Nat.min_self] at this
    exact this.symm

theorem C90_spdz_one_view (signed : Bool) (id i : Party) (inp : Party → Option (BitVec K)) (h : inp id ≠ none) (key : BitVec V)
    (p u : Nat) (st : Party → SpdzSt (idealPrg f) V) (hst : SpdzOk key p u st) (t : List Bool) :
    ∃! v, Sees (fun j => Spdz.input signed j (inp j) id.val (tapeS i t st j)) i v := by
  obtain ⟨x, hx⟩ := Option.ne_none_iff_exists'.1 h
  exact one_of_wps (Spdz.input_wp signed hx (tapeS_ok hst i t)) i

/-- `input`: the input and the MAC key may differ, and so may the states. -/
theorem C90_spdz_input (signed : Bool) (id i : Party) (inp inp' : Party → Option (BitVec K)) (h : inp id ≠ none)
    (h' : inp' id ≠ none) (key key' : BitVec V) (p u p' u' L : Nat) (st st' : Party → SpdzSt (idealPrg f) V)
    (hst : SpdzOk key p u st) (hst' : SpdzOk key' p' u' st') (hL : ∀ j, (st j).verifyQueue.length = L)
    (hL' : ∀ j, (st' j).verifyQueue.length = L) (n : Nat) (hn : 2 * V ≤ n) (v : Log) :
    viewCountSpdz (fun j => Spdz.input signed j (inp j) id.val) st i n v =
    viewCountSpdz (fun j => Spdz.input signed j (inp' j) id.val) st' i n v := by
  have := (spdzInput_cpl (f := f) (V := V) (i := i) (L := L) signed id (x := Bool.rec inp inp') (by rintro (_ | _) <;> assumption)).count
    (st := Bool.rec st st') (by
      rintro (_ | _) j
      · exact ⟨spdz_shape hst j, hL j⟩
      · exact ⟨spdz_shape hst' j, hL' j⟩) n (by unfold spdzInputBits; omega) v
  exact this

theorem C90_spdz_input_all_one_view (signed : Bool) (i : Party) (x : Party → BitVec K) (key : BitVec V)
    (p u : Nat) (st : Party → SpdzSt (idealPrg f) V) (hst : SpdzOk key p u st) (t : List Bool) :
    ∃! v, Sees (fun j => Spdz.inputAll signed j (x j) (tapeS i t st j)) i v :=
  one_of_wps (Spdz.inputAll_wp signed x (tapeS_ok hst i t)) i

theorem C90_spdz_input_all (signed : Bool) (i : Party) (x x' : Party → BitVec K) (key key' : BitVec V) (p u p' u' L : Nat)
    (st st' : Party → SpdzSt (idealPrg f) V) (hst : SpdzOk key p u st) (hst' : SpdzOk key' p' u' st')
    (hL : ∀ j, (st j).verifyQueue.length = L) (hL' : ∀ j, (st' j).verifyQueue.length = L) (n : Nat) (hn : 6 * V ≤ n) (v : Log) :
    viewCountSpdz (fun j => Spdz.inputAll signed j (x j)) st i n v =
    viewCountSpdz (fun j => Spdz.inputAll signed j (x' j)) st' i n v := by
  have := (spdzInputAll_cpl (f := f) (V := V) (i := i) (L := L) signed (x := Bool.rec x x')).count
    (st := Bool.rec st st') (by
      rintro (_ | _) j
      · exact ⟨spdz_shape hst j, hL j⟩
      · exact ⟨spdz_shape hst' j, hL' j⟩) n (by unfold spdzInputBits; omega) v
  exact this

/-! ## Swift3 -/

/-- `input_all`: the three results are consistent sharings of the inputs of parties 0, 1, 2. -/
theorem C90_swift3_input_all_correct {G : Prg} (x : Party → BitVec K) (u v : Nat) (w : DotCount) (st : Party → S3St G K)
    (hst : S3Ok u v w st) :
    EverySchedule (fun i => Swift3.inputAll i (x i)) st (fun s st' => Rels S3SharesOf [x 0, x 1, x 2] s ∧ S3Ok u v w st') :=
  (Swift3.inputAll_wp x hst).allSchedules

theorem C90_swift3_one_view (id i : Party) (inp : Party → Option (BitVec K)) (h : inp id ≠ none) (u v : Nat) (w : DotCount)
    (st : Party → S3St (idealPrg f) K) (hst : S3Ok u v w st) (t : List Bool) :
    ∃! l, Sees (fun j => Swift3.input j (inp j) id.val (s3TapeIn i t st j)) i l := by
  obtain ⟨x, hx⟩ := Option.ne_none_iff_exists'.1 h
  exact one_of_wps (Swift3.input_wp hx (s3TapeIn_ok hst i t)) i

/-- `input`, in any states. -/
theorem C90_swift3_input (id i : Party) (inp inp' : Party → Option (BitVec K)) (h : inp id ≠ none) (h' : inp' id ≠ none)
    (st st' : Party → S3St (idealPrg f) K) (n : Nat) (hn : K ≤ n) (v : Log) :
    viewCountS3 (fun j => Swift3.input j (inp j) id.val) st i n v = viewCountS3 (fun j => Swift3.input j (inp' j) id.val) st' i n v := by
  have := (s3Input_cpl (f := f) (inp := Bool.rec inp inp') i id (by rintro (_ | _) <;> assumption)).count (Bool.rec st st') n
    (by split_ifs <;> omega) v
  exact this

theorem C90_swift3_input_all_one_view (i : Party) (x : Party → BitVec K) (u v : Nat) (w : DotCount)
    (st : Party → S3St (idealPrg f) K) (hst : S3Ok u v w st) (t : List Bool) :
    ∃! l, Sees (fun j => Swift3.inputAll j (x j) (s3TapeIn i t st j)) i l :=
  one_of_wps (Swift3.inputAll_wp x (s3TapeIn_ok hst i t)) i

theorem C90_swift3_input_all (i : Party) (x x' : Party → BitVec K) (st st' : Party → S3St (idealPrg f) K) (n : Nat) (hn : 2 * K ≤ n)
    (v : Log) :
    viewCountS3 (fun j => Swift3.inputAll j (x j)) st i n v = viewCountS3 (fun j => Swift3.inputAll j (x' j)) st' i n v := by
  have := (s3InputAll_cpl (f := f) (x := Bool.rec x x') i).count (Bool.rec st st') n hn v
  exact this

/-! ## The hypotheses can be met -/

/-- Party 0 inputs 5 or 77; consistent states of all backends; the states of the SPDZ-wise backend for two different keys. -/
example (f : Bytes → List Bool) : let inp (x : BitVec 16) : Party → Option (BitVec 16) := fun j => if j = 0 then some x else none
    inp 5 0 ≠ none ∧ inp 77 0 ≠ none ∧ inp 5 0 ≠ inp 77 0 ∧ inp 5 1 = inp 77 1 ∧ Aby3Ready emptyTapes ∧ JmpOk (jmpTapes f) ∧
    SpdzOk 3 0 0 (spdzTapes f (3 : BitVec 64)) ∧ SpdzOk 4 0 0 (spdzTapes f (4 : BitVec 64)) ∧
    (∀ j, (spdzTapes f (3 : BitVec 64) j).verifyQueue.length = 0) ∧ S3Ok 0 0 ⟨0, 0⟩ (s3Tapes f 16) :=
  ⟨by decide, by decide, by decide, rfl, fun _ => rfl, ⟨fun _ => rfl, fun _ => rfl⟩, spdzTapes_ok f _, spdzTapes_ok f _, fun _ => rfl,
    s3Tapes_ok f 16⟩

end Verif
