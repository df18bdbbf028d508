import Verif.Proof.UniGates
import Verif.Proof.SpdzGates
import Verif.Proof.MalGates
import Verif.Props.InputPrivacy

/-! # C93: the single gates reveal nothing

`mul`, `dot`, `dot_many`, AND, OR and `get_msb`, called by themselves. In the semi-honest backend and in the SPDZ-wise backend the
gates re-share their results with fresh randomness and check nothing on the spot, so the messages that a party receives have the
same distribution for any two inputs: the shares of all three parties, the party itself included, may differ.

In the malicious ABY3 backend the gates check themselves, by opening differences to multiplication triples: the views are the same
for any two inputs that agree in the shares of the party that looks.

(The single gates of Swift3 are in C91, the vectorised gates of all backends in C68, C84, C87 and C89.) -/

namespace Verif

open Jmp

variable {K V : Nat} {f : Bytes → List Bool}

/-! ## ABY3 -/

/-- `mul`: there is one view for each tape. -/
theorem C93_aby3_one_view (i : Party) (x y : BitVec K) (a b : Party → AShare K) (ha : SharesOf x a) (hb : SharesOf y b)
    (st : Party → Aby3St bitPrg) (hst : Aby3Ready st) (t : List Bool) :
    ∃! v, Sees (fun j => Aby3.mul j (a j) (b j) (withTape i t st j)) i v :=
  one_of_wps (Aby3.mul_wp (u := 0) (v := 0) (withTape_ready hst t) ha hb) i

/-- `mul` of two shared values. -/
theorem C93_aby3_mul (i : Party) (a b a' b' : Party → AShare K) (st : Party → Aby3St bitPrg) (n : Nat) (hn : K ≤ n) (v : Log) :
    viewCount (fun j => Aby3.mul j (a j) (b j)) st i n v = viewCount (fun j => Aby3.mul j (a' j) (b' j)) st i n v := by
  have h : fmtSize [(K, 1)] ≤ n := by simpa [fmtSize] using hn
  rw [(Uni.mul (i := i)).viewCount st n h v, (Uni.mul (i := i)).viewCount st n h v]

/-- `dot` of two vectors; even their lengths may differ between the two situations. -/
theorem C93_aby3_dot (i : Party) (a b a' b' : Party → List (AShare K)) (h : ∀ j, (a j).length = (b j).length)
    (h' : ∀ j, (a' j).length = (b' j).length) (st : Party → Aby3St bitPrg) (n : Nat) (hn : K ≤ n) (v : Log) :
    viewCount (fun j => Aby3.dot j (a j) (b j)) st i n v = viewCount (fun j => Aby3.dot j (a' j) (b' j)) st i n v := by
  have hN : fmtSize [(K, 1)] ≤ n := by simpa [fmtSize] using hn
  rw [(Uni.dot (i := i) h).viewCount st n hN v, (Uni.dot (i := i) h').viewCount st n hN v]

/-- `dot_many`: only the number of products is visible. -/
theorem C93_aby3_dot_many (m : Nat) (i : Party) (a b a' b' : Party → List (List (AShare K)))
    (ha : ∀ j, (a j).length = m) (hb : ∀ j, (b j).length = m) (hl : ∀ j, ∀ p ∈ (a j).zip (b j), p.1.length = p.2.length)
    (ha' : ∀ j, (a' j).length = m) (hb' : ∀ j, (b' j).length = m) (hl' : ∀ j, ∀ p ∈ (a' j).zip (b' j), p.1.length = p.2.length)
    (st : Party → Aby3St bitPrg) (n : Nat) (hn : K * m ≤ n) (v : Log) :
    viewCount (fun j => Aby3.dotMany j (a j) (b j)) st i n v = viewCount (fun j => Aby3.dotMany j (a' j) (b' j)) st i n v := by
  have hN : fmtSize [(K, m)] ≤ n := by simpa [fmtSize] using hn
  rw [(Uni.dotMany (i := i) ha hb hl).viewCount st n hN v, (Uni.dotMany (i := i) ha' hb' hl').viewCount st n hN v]

/-- AND of two shared words. -/
theorem C93_aby3_and (i : Party) (a b a' b' : Party → AShare K) (st : Party → Aby3St bitPrg) (n : Nat) (hn : K ≤ n) (v : Log) :
    viewCount (fun j => Aby3.and j (a j) (b j)) st i n v = viewCount (fun j => Aby3.and j (a' j) (b' j)) st i n v := by
  have h : fmtSize [(K, 1)] ≤ n := by simpa [fmtSize] using hn
  rw [(Uni.and (i := i)).viewCount st n h v, (Uni.and (i := i)).viewCount st n h v]

/-- `get_msb` of a shared value. -/
theorem C93_aby3_get_msb : ∃ n₀, ∀ (i : Party) (a a' : Party → AShare K) (st : Party → Aby3St bitPrg), ∀ n ≥ n₀, ∀ v : Log,
    viewCount (fun j => Aby3.getMsb j (a j)) st i n v = viewCount (fun j => Aby3.getMsb j (a' j)) st i n v := by
  refine ⟨fmtSize ([(K, 1)] ++ ([(K, 1)] ++ (List.replicate (ceilLog2 K) (K, 2) ++ []))), fun i a a' st n hn v => ?_⟩
  rw [(Uni.getMsb i a).viewCount st n hn v, (Uni.getMsb i a').viewCount st n hn v]

/-! ## Malicious ABY3 -/

theorem tripleBits_eq (V n : Nat) : tripleBits V n = 5 * V * n + 256 := by
  show V * n + (V * n + (V * n + (V * (n + n) + 8 * 32))) = _
  rw [Nat.mul_add, show 8 * 32 = 256 from rfl, Nat.mul_assoc]
  generalize V * n = k
  generalize 256 = c
  omega

theorem dotBits_one (V m : Nat) : dotBits V [m] = V * (m + 2) + 256 := by
  show V * (m + 0) + (V * 2 + 8 * 32) = _
  rw [Nat.mul_add V m 2, show 8 * 32 = 256 from rfl, Nat.add_zero, Nat.add_assoc]

theorem C93_mal_one_view (H : Hash) (hV : 40 ≤ verifWidth K - K) (i : Party) (x y : BitVec K) (a b : Party → AShare K)
    (ha : SharesOf x a) (hb : SharesOf y b) (st : Party → JmpSt (idealPrg f)) (hst : JmpOk st) (t : List Bool) :
    ∃! v, Sees (fun j => MalAby3.mul H j (a j) (b j) (tapeIn i t st j)) i v :=
  one_of_wps (MalAby3.mul_wp hV (tapeIn_ok hst t) ha hb) i

/-- `mul` of two shared values, with the triple that is made and checked for it. -/
theorem C93_mal_mul (H : Hash) (hV : 40 ≤ verifWidth K - K) (i : Party) (x y x' y' : BitVec K) (a b a' b' : Party → AShare K)
    (ha : SharesOf x a) (hb : SharesOf y b) (ha' : SharesOf x' a') (hb' : SharesOf y' b') (ia : a i = a' i) (ib : b i = b' i)
    (st : Party → JmpSt (idealPrg f)) (hst : JmpOk st) (n : Nat) (hn : 5 * verifWidth K + 256 ≤ n) (v : Log) :
    viewCountMal (fun j => MalAby3.mul H j (a j) (b j)) st i n v = viewCountMal (fun j => MalAby3.mul H j (a' j) (b' j)) st i n v := by
  have := (malMul_cpl (f := f) (i := i) H hV (a := Bool.rec a a') (b := Bool.rec b b') (x := Bool.rec x x') (y := Bool.rec y y')
    (by rintro (_ | _) <;> assumption) (by rintro (_ | _) <;> assumption) ia ib).count hst n (le_trans (le_of_eq (by rw [tripleBits_eq, Nat.mul_one])) hn) v
  exact this

/-- `dot` of two vectors of length `m`. -/
theorem C93_mal_dot (H : Hash) (hV : 40 ≤ verifWidth K - K) (m : Nat) (i : Party) (xs ys xs' ys' : List (BitVec K))
    (a b a' b' : Party → List (AShare K)) (h1 : xs.length = m) (h2 : ys.length = m) (h3 : xs'.length = m) (h4 : ys'.length = m)
    (ha : Rels SharesOf xs a) (hb : Rels SharesOf ys b) (ha' : Rels SharesOf xs' a') (hb' : Rels SharesOf ys' b')
    (ia : a i = a' i) (ib : b i = b' i) (st : Party → JmpSt (idealPrg f)) (hst : JmpOk st) (n : Nat)
    (hn : verifWidth K * (m + 2) + 256 ≤ n) (v : Log) :
    viewCountMal (fun j => MalAby3.dot H j (a j) (b j)) st i n v = viewCountMal (fun j => MalAby3.dot H j (a' j) (b' j)) st i n v := by
  have := (malDot_cpl (f := f) (i := i) H hV (n := m) (a := Bool.rec a a') (b := Bool.rec b b') (X := Bool.rec xs xs') (Y := Bool.rec ys ys')
    (by rintro (_ | _) <;> assumption) (by rintro (_ | _) <;> assumption) (by rintro (_ | _) <;> assumption)
    (by rintro (_ | _) <;> assumption) ia ib).count hst n (le_trans (le_of_eq (dotBits_one _ _)) hn) v
  exact this

/-- AND of two shared words. -/
theorem C93_mal_and (H : Hash) (i : Party) (x y x' y' : BitVec K) (a b a' b' : Party → AShare K)
    (ha : BinSharesOf x a) (hb : BinSharesOf y b) (ha' : BinSharesOf x' a') (hb' : BinSharesOf y' b') (ia : a i = a' i) (ib : b i = b' i)
    (st : Party → JmpSt (idealPrg f)) (hst : JmpOk st) (n : Nat) (hn : 320 * K + 256 ≤ n) (v : Log) :
    viewCountMal (fun j => MalAby3.and H j (a j) (b j)) st i n v = viewCountMal (fun j => MalAby3.and H j (a' j) (b' j)) st i n v := by
  have := (malAnd_cpl (f := f) (i := i) H (a := Bool.rec a a') (b := Bool.rec b b') (x := Bool.rec x x') (y := Bool.rec y y')
    (by rintro (_ | _) <;> assumption) (by rintro (_ | _) <;> assumption) ia ib).count hst n (le_trans (le_of_eq (by rw [tripleBits_eq]; rfl)) hn) v
  exact this

/-- OR of two shared words. -/
theorem C93_mal_or (H : Hash) (i : Party) (x y x' y' : BitVec K) (a b a' b' : Party → AShare K)
    (ha : BinSharesOf x a) (hb : BinSharesOf y b) (ha' : BinSharesOf x' a') (hb' : BinSharesOf y' b') (ia : a i = a' i) (ib : b i = b' i)
    (st : Party → JmpSt (idealPrg f)) (hst : JmpOk st) (n : Nat) (hn : 320 * K + 256 ≤ n) (v : Log) :
    viewCountMal (fun j => (MalAby3.binOps (idealPrg f) H K j).or (a j) (b j)) st i n v =
      viewCountMal (fun j => (MalAby3.binOps (idealPrg f) H K j).or (a' j) (b' j)) st i n v := by
  have := (malOr_two (f := f) (i := i) H (a := Bool.rec a a') (b := Bool.rec b b') ⟨by rintro (_ | _); exacts [⟨x, ha⟩, ⟨x', ha'⟩], ia⟩
    ⟨by rintro (_ | _); exacts [⟨y, hb⟩, ⟨y', hb'⟩], ib⟩).count hst n (le_trans (le_of_eq (by rw [Nat.add_zero, tripleBits_eq]; rfl)) hn) v
  exact this

/-- `get_msb` of a shared value. -/
theorem C93_mal_get_msb (H : Hash) (hK : K ≠ 0) : ∃ n₀, ∀ (i : Party) (x x' : BitVec K) (a a' : Party → AShare K)
    (st : Party → JmpSt (idealPrg f)), SharesOf x a → SharesOf x' a' → a i = a' i → JmpOk st → ∀ n ≥ n₀, ∀ v : Log,
    viewCountMal (fun j => MalAby3.getMsb H j (a j)) st i n v = viewCountMal (fun j => MalAby3.getMsb H j (a' j)) st i n v := by
  refine ⟨malMsbBits K, fun i x x' a a' st ha ha' ia hst n hn v => ?_⟩
  have := (malGetMsb_two (f := f) (i := i) H hK (a := Bool.rec a a') (x := Bool.rec x x') (by rintro (_ | _) <;> assumption) ia).count hst n hn v
  exact this

/-! ## SPDZ-wise

The values computed so far, the keys and the triples may differ as well; the number `L` of values waiting for the check of
their MACs is the same. -/

theorem C93_spdz_one_view (i : Party) (key x y : BitVec V) (a b : Party → SShare V) (ha : MacSharesOf key x a) (hb : MacSharesOf key y b)
    (p u : Nat) (st : Party → SpdzSt (idealPrg f) V) (hst : SpdzOk key p u st) (t : List Bool) :
    ∃! v, Sees (fun j => Spdz.mul j (a j) (b j) (tapeS i t st j)) i v :=
  one_of_wps (Spdz.mul_wp (tapeS_ok hst i t) ha hb) i

/-- `mul` of two shared values. -/
theorem C93_spdz_mul (i : Party) (a b a' b' : Party → SShare V) (key key' : BitVec V) (p u p' u' L : Nat)
    (st st' : Party → SpdzSt (idealPrg f) V) (hst : SpdzOk key p u st) (hst' : SpdzOk key' p' u' st')
    (hL : ∀ j, (st j).verifyQueue.length = L) (hL' : ∀ j, (st' j).verifyQueue.length = L) (n : Nat) (hn : V * 2 ≤ n) (v : Log) :
    viewCountSpdz (fun j => Spdz.mul j (a j) (b j)) st i n v = viewCountSpdz (fun j => Spdz.mul j (a' j) (b' j)) st' i n v := by
  have := (spdzMul_cpl (f := f) (i := i) (L := L) (a := Bool.rec a a') (b := Bool.rec b b')).count (st := Bool.rec st st') (by
    rintro (_ | _) j
    · exact ⟨spdz_shape hst j, hL j⟩
    · exact ⟨spdz_shape hst' j, hL' j⟩) n hn v
  exact this

/-- `dot` of two vectors. -/
theorem C93_spdz_dot (i : Party) (a b a' b' : Party → List (SShare V)) (h : ∀ j, (a j).length = (b j).length)
    (h' : ∀ j, (a' j).length = (b' j).length) (key key' : BitVec V) (p u p' u' L : Nat)
    (st st' : Party → SpdzSt (idealPrg f) V) (hst : SpdzOk key p u st) (hst' : SpdzOk key' p' u' st')
    (hL : ∀ j, (st j).verifyQueue.length = L) (hL' : ∀ j, (st' j).verifyQueue.length = L) (n : Nat) (hn : V * 2 ≤ n) (v : Log) :
    viewCountSpdz (fun j => Spdz.dot j (a j) (b j)) st i n v = viewCountSpdz (fun j => Spdz.dot j (a' j) (b' j)) st' i n v := by
  have := (spdzDot_cpl (f := f) (i := i) (L := L) (a := Bool.rec a a') (b := Bool.rec b b')
    (by rintro (_ | _) j; exacts [h j, h' j])).count (st := Bool.rec st st') (by
    rintro (_ | _) j
    · exact ⟨spdz_shape hst j, hL j⟩
    · exact ⟨spdz_shape hst' j, hL' j⟩) n hn v
  exact this

/-- `dot_many`. -/
theorem C93_spdz_dot_many (m : Nat) (i : Party) (a b a' b' : Party → List (List (SShare V)))
    (ha : ∀ j, (a j).length = m) (hb : ∀ j, (b j).length = m) (hl : ∀ j, ∀ p ∈ (a j).zip (b j), p.1.length = p.2.length)
    (ha' : ∀ j, (a' j).length = m) (hb' : ∀ j, (b' j).length = m) (hl' : ∀ j, ∀ p ∈ (a' j).zip (b' j), p.1.length = p.2.length)
    (key key' : BitVec V) (p u p' u' L : Nat)
    (st st' : Party → SpdzSt (idealPrg f) V) (hst : SpdzOk key p u st) (hst' : SpdzOk key' p' u' st')
    (hL : ∀ j, (st j).verifyQueue.length = L) (hL' : ∀ j, (st' j).verifyQueue.length = L) (n : Nat) (hn : V * (2 * m) ≤ n) (v : Log) :
    viewCountSpdz (fun j => Spdz.dotMany j (a j) (b j)) st i n v = viewCountSpdz (fun j => Spdz.dotMany j (a' j) (b' j)) st' i n v := by
  have := (spdzDotMany_cpl (f := f) (i := i) (L := L) (m := m) (a := Bool.rec a a') (b := Bool.rec b b')
    (by rintro (_ | _) j; exacts [ha j, ha' j]) (by rintro (_ | _) j; exacts [hb j, hb' j])
    (by rintro (_ | _) j; exacts [hl j, hl' j])).count (st := Bool.rec st st') (by
    rintro (_ | _) j
    · exact ⟨spdz_shape hst j, hL j⟩
    · exact ⟨spdz_shape hst' j, hL' j⟩) n hn v
  exact this

/-- AND of two shared words. -/
theorem C93_spdz_and (i : Party) (a b a' b' : Party → AShare K) (key key' : BitVec V) (p u p' u' L : Nat)
    (st st' : Party → SpdzSt (idealPrg f) V) (hst : SpdzOk key p u st) (hst' : SpdzOk key' p' u' st')
    (hL : ∀ j, (st j).verifyQueue.length = L) (hL' : ∀ j, (st' j).verifyQueue.length = L) (n : Nat) (hn : K * 1 ≤ n) (v : Log) :
    viewCountSpdz (fun j => Spdz.and j (a j) (b j)) st i n v = viewCountSpdz (fun j => Spdz.and j (a' j) (b' j)) st' i n v := by
  have := (and_cplB (f := f) (V := V) (i := i) (L := L) (a := Bool.rec a a') (b := Bool.rec b b')).count (st := Bool.rec st st') (by
    rintro (_ | _) j
    · exact ⟨spdz_shape hst j, hL j⟩
    · exact ⟨spdz_shape hst' j, hL' j⟩) n hn v
  exact this

/-- OR of two shared bits. -/
theorem C93_spdz_or (i : Party) (a b a' b' : Party → AShare 1) (key key' : BitVec V) (p u p' u' L : Nat)
    (st st' : Party → SpdzSt (idealPrg f) V) (hst : SpdzOk key p u st) (hst' : SpdzOk key' p' u' st')
    (hL : ∀ j, (st j).verifyQueue.length = L) (hL' : ∀ j, (st' j).verifyQueue.length = L) (n : Nat) (hn : 1 ≤ n) (v : Log) :
    viewCountSpdz (fun j => Spdz.binaryOr j (a j) (b j)) st i n v = viewCountSpdz (fun j => Spdz.binaryOr j (a' j) (b' j)) st' i n v := by
  have := (spdzOr_cplB (f := f) (V := V) (i := i) (L := L) (a := Bool.rec a a') (b := Bool.rec b b')).count (st := Bool.rec st st') (by
    rintro (_ | _) j
    · exact ⟨spdz_shape hst j, hL j⟩
    · exact ⟨spdz_shape hst' j, hL' j⟩) n hn v
  exact this

/-! ## Non-vacuity -/

/-- Different factors with the same shares of party 1, in the malicious backend. -/
example (f : Bytes → List Bool) : 40 ≤ verifWidth 16 - 16 ∧ SharesOf 5 (exShare (5 : BitVec 16)) ∧ SharesOf 7 (exShare (7 : BitVec 16)) ∧
    exShare (5 : BitVec 16) 1 = exShare 7 1 ∧ BinSharesOf 5 (exBinShare (5 : BitVec 16)) ∧ BinSharesOf 7 (exBinShare (7 : BitVec 16)) ∧
    exBinShare (5 : BitVec 16) 1 = exBinShare 7 1 ∧ JmpOk (jmpTapes f) :=
  ⟨by decide, exShare_ok _, exShare_ok _, rfl, exBinShare_ok _, exBinShare_ok _, rfl, ⟨fun _ => rfl, fun _ => rfl⟩⟩

/-- Two pairs of factors, with different keys, in fresh states. -/
example (f : Bytes → List Bool) : let s (key x : BitVec 64) : Party → SShare 64 := fun j => ⟨exShare x j, exShare (key * x) j⟩
    MacSharesOf 3 5 (s 3 5) ∧ MacSharesOf 3 7 (s 3 7) ∧ (s 3 5 0).value.b ≠ (s 3 7 0).value.b ∧ SpdzOk 3 0 0 (spdzTapes f (3 : BitVec 64)) ∧
    SpdzOk 4 0 0 (spdzTapes f (4 : BitVec 64)) ∧ (∀ j, (spdzTapes f (3 : BitVec 64) j).verifyQueue.length = 0) ∧
    (∀ j, (spdzTapes f (4 : BitVec 64) j).verifyQueue.length = 0) ∧ Aby3Ready emptyTapes ∧ SharesOf 9 (exShare (9 : BitVec 16)) ∧
    (∀ j : Party, ∀ p ∈ [[exShare (1 : BitVec 16) j], [exShare 2 j, exShare 3 j]].zip [[exShare (4 : BitVec 16) j], [exShare 5 j, exShare 6 j]],
      p.1.length = p.2.length) :=
  ⟨⟨exShare_ok _, exShare_ok _⟩, ⟨exShare_ok _, exShare_ok _⟩, by decide, spdzTapes_ok f _, spdzTapes_ok f _, fun _ => rfl, fun _ => rfl,
    fun _ => rfl, exShare_ok _, fun j p hp => by
      simp only [List.zip_cons_cons, List.zip_nil_right, List.mem_cons, List.not_mem_nil, or_false] at hp
      rcases hp with rfl | rfl <;> rfl⟩

end Verif
