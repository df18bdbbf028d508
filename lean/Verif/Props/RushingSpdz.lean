import Verif.Proof.RushingSpdz
import Verif.Props.Rushing
import Verif.Props.Spdz

/-!
# C64: a corrupt party that waits for the coin defeats the check of AND triples

Negative results about the SPDZ-wise backend: the programs of the corrupt party are in `Spec/RushingSpdz.lean`; they use
only what that party knows. The other two parties run the code of the repository.
-/

namespace Verif

open Jmp Spdz

variable {G : Prg} {H : Hash} {V : Nat}

/-- **Generation.** Whatever errors `es` party 0 chooses, under every schedule no check of `generate_triples` fails, and
all parties accept triples whose products are off by `es`. -/
theorem C64_generate (num : Nat) (es : List (BitVec 128)) (he : es.length = max num (2 ^ 13)) (st : Party → SpdzSt G V)
    (hst : JmpOk fun i => (st i).jmp) :
    ∃ (t : Party → Triples) (st' : Party → SpdzSt G V),
      AllSchedules (corrupt (fun i => generateTriples H i num (st i)) 0 (rushGenerate H 0 num es (st 0)))
        (fun i => (t i, st' i)) ∧
      ∃ xs ys : List (BitVec 128), xs.length = es.length ∧ ys.length = es.length ∧
        Rels BinSharesOf xs (fun i => (t i).a) ∧ Rels BinSharesOf ys (fun i => (t i).b) ∧
        Rels BinSharesOf (List.zipWith (· ^^^ ·) (List.zipWith (· &&& ·) xs ys) es) (fun i => (t i).c) := by
  obtain ⟨t, st', h, hT⟩ := corrupt_run (p := fun i => if i = 0 then rushGenerate H i num es else generateTriples H i num)
    (p' := fun i => generateTriples H i num) (q := fun i => rushGenerate H i num es)
    (Q := fun t _ => WrongTriplesOf es (fun i => (t i).a) (fun i => (t i).b) (fun i => (t i).c))
    ((rushGenerate_wp num es he hst).mono fun t st' h => h.1.1) rfl (fun i hi => by simp only [if_neg hi])
  exact ⟨t, st', h, hT⟩

/-- If some error does not vanish, the accepted triples are not multiplication triples. -/
theorem C64_generate_wrong (num : Nat) (es : List (BitVec 128)) (he : es.length = max num (2 ^ 13)) (hne : ∃ e ∈ es, e ≠ 0)
    (st : Party → SpdzSt G V) (hst : JmpOk fun i => (st i).jmp) :
    ∃ (t : Party → Triples) (st' : Party → SpdzSt G V),
      AllSchedules (corrupt (fun i => generateTriples H i num (st i)) 0 (rushGenerate H 0 num es (st 0)))
        (fun i => (t i, st' i)) ∧
      ¬ ∃ n, TriplesOf n (fun i => (t i).a) (fun i => (t i).b) (fun i => (t i).c) := by
  obtain ⟨t, st', h, xs, ys, hx, hy, ha, hb, hc⟩ := C64_generate (H := H) num es he st hst
  refine ⟨t, st', h, ?_⟩
  rintro ⟨n, xs', ys', hx', hy', ha', hb', hc'⟩
  obtain rfl := ha.uniqueBin ha'
  obtain rfl := hb.uniqueBin hb'
  have e := hc.uniqueBin hc'
  obtain ⟨e0, hm, h0⟩ := hne
  have e1 := errorsOf_wrong (xs := xs) (ys := ys) (es := es) (by omega) (by omega)
  rw [e, errorsOf, zipWith_xor_self] at e1
  rw [← e1, List.mem_replicate] at hm
  exact h0 hm.2

/-- **A whole computation.** The parties precompute triples, compute the conjunctions of words of 128 bits and verify.
Party 0 makes every bit of every triple and of every conjunction wrong. Under every schedule no check fails, and the
accepted results are the complements of the conjunctions. -/
theorem C64_and_many (amount : Nat) (xs ys : List (BitVec 128)) (hl : xs.length = ys.length)
    (ha' : xs.length ≤ max ((amount + 127) / 128) (2 ^ 13)) (a b : Party → List (AShare 128)) (ha : Rels BinSharesOf xs a)
    (hb : Rels BinSharesOf ys b) (key : BitVec V) (st : Party → SpdzSt G V) (hst : SpdzOk key 0 0 st) :
    ∃ (c : Party → List (AShare 128)) (st' : Party → SpdzSt G V),
      AllSchedules
        (corrupt
          (fun i => (do precompute H i amount; let c ← andMany i (a i) (b i); verify H i; pure c :
            Proto (SpdzSt G V) (List (AShare 128))) (st i)) 0
          ((do rushPrecompute H 0 amount; let c ← rushAndMany 0 (a 0) (b 0); verify H 0; pure c :
            Proto (SpdzSt G V) (List (AShare 128))) (st 0)))
        (fun i => (c i, st' i)) ∧
      Rels BinSharesOf (List.zipWith (fun x y => ~~~ (x &&& y)) xs ys) c := by
  refine corrupt_run (p := fun i => do
      (if i = 0 then rushPrecompute H i amount else precompute H i amount)
      let c ← (if i = 0 then rushAndMany i (a i) (b i) else andMany i (a i) (b i))
      verify H i
      pure c)
    (p' := fun i => do precompute H i amount; let c ← andMany i (a i) (b i); verify H i; pure c)
    (q := fun i => do rushPrecompute H i amount; let c ← rushAndMany i (a i) (b i); verify H i; pure c)
    (Q := fun c _ => Rels BinSharesOf (List.zipWith (fun x y => ~~~ (x &&& y)) xs ys) c) ?_ rfl
    (fun i hi => by simp only [if_neg hi])
  refine WPS.bind ((rushPrecompute_wp hst amount).mono ?_)
  rintro _ st1 h1
  refine WPS.bind ((rushAndMany_wp h1 ha hb hl).mono ?_)
  rintro c st2 ⟨hc, h2⟩
  refine WPS.bind ((verifyWrongQueue_wp (H := H) h2 (by rw [Nat.zero_add]; exact ha') (le_max_right _ _)).mono ?_)
  rintro _ st3 -
  refine WPS.pure (a := c) ?_
  convert hc using 1
  clear hc h2 ha ha' hb
  induction xs generalizing ys with
  | nil => rfl
  | cons x xs ih =>
    cases ys with
    | nil => simp at hl
    | cons y ys =>
      simp only [List.zipWith_cons_cons, List.length_cons, List.replicate_succ]
      rw [← ih ys (by simpa using hl)]
      congr 1
      rw [BitVec.xor_allOnes]

/-- With honest parties the same computation yields the conjunctions (from C10 and C25 for the whole backend). -/
theorem C64_honest (amount : Nat) (xs ys : List (BitVec 128)) (hl : xs.length = ys.length)
    (ha' : xs.length ≤ max ((amount + 127) / 128) (2 ^ 13)) (a b : Party → List (AShare 128)) (ha : Rels BinSharesOf xs a)
    (hb : Rels BinSharesOf ys b) (key : BitVec V) (st : Party → SpdzSt G V) (hst : SpdzOk key 0 0 st) :
    ∃ (c : Party → List (AShare 128)) (st' : Party → SpdzSt G V),
      AllSchedules
        (fun i => (do precompute H i amount; let c ← andMany i (a i) (b i); verify H i; pure c :
            Proto (SpdzSt G V) (List (AShare 128))) (st i))
        (fun i => (c i, st' i)) ∧
      Rels BinSharesOf (List.zipWith (· &&& ·) xs ys) c := by
  have main : WPS (fun i => (do precompute H i amount; let c ← andMany i (a i) (b i); verify H i; pure c :
      Proto (SpdzSt G V) (List (AShare 128)))) st
      (fun c _ => Rels BinSharesOf (List.zipWith (· &&& ·) xs ys) c) := by
    refine WPS.bind ((precompute_wp hst amount).mono ?_)
    rintro _ st1 h1
    refine WPS.bind ((andMany_wp (by omega) le_rfl h1 ha hb hl).mono ?_)
    rintro c st2 ⟨hc, h2⟩
    unfold Spdz.verify
    refine WPS.bind (WPS.bind ((verifyMacs_wp (H := H) h2).mono ?_))
    rintro _ st3 ⟨h3, -⟩
    refine (verifyTripleQueue_wp (H := H) h3 ?_).mono ?_
    · rw [if_pos (Nat.zero_le _), usedWords, minTriples]
      split
      · omega
      · omega
    rintro _ st4 -
    exact WPS.pure (a := c) hc
  obtain ⟨c, s, h, hc⟩ := main.allSchedules
  exact ⟨c, s, h.1, hc⟩

example : (List.replicate (max 5 (2 ^ 13)) (BitVec.allOnes 128)).length = max 5 (2 ^ 13) ∧
    (∃ e ∈ List.replicate (max 5 (2 ^ 13)) (BitVec.allOnes 128), e ≠ 0) ∧
    Rels BinSharesOf [5, (7 : BitVec 128)] (fun i => [5, (7 : BitVec 128)].map (exBinShare · i)) ∧
    ([5, 7] : List (BitVec 128)).length ≤ max ((256 + 127) / 128) (2 ^ 13) ∧ SpdzOk 77#64 0 0 (exSpdzSt 77#64) := by
  refine ⟨List.length_replicate, ⟨BitVec.allOnes 128, ?_, by decide⟩, exBinShares_ok _, ?_, exSpdzSt_ok _⟩
  · rw [List.mem_replicate]
    exact ⟨by omega, rfl⟩
  · have : max ((256 + 127) / 128) (2 ^ 13) = 8192 := by decide
    rw [this]
    simp

end Verif
