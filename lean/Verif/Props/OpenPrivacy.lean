import Verif.Proof.OpenLock
import Verif.Props.InputPrivacy

/-! # C91: what the openings and the single gates reveal

`open`, `open_many`, `open_bit` and `open_bit_many` show each party the opened values and nothing else: for two sharings of
the same values in which party `i` has the same shares, the messages it receives have the same distribution. In the ABY3
backend there is exactly one message, and it is a function of the values and of the own shares.

In the SPDZ-wise backend this is true for the values of the larger ring that it computes in, not for the values that `open`
returns: the `_reveals` theorems say that the last message, together with the own share, is the value with the upper bits that
`open` cuts off, and that two sharings that differ only there are told apart with certainty.

The single gates of Swift3 (`mul`, `dot`, AND) reveal nothing about their inputs. -/

namespace Verif

open Jmp

variable {K V : Nat} {f : Bytes → List Bool}

/-! ## ABY3 -/

/-- `open`: one message, the opened value minus the two own components. -/
theorem C91_aby3_open_view (i : Party) (x : BitVec K) (s : Party → AShare K) (hs : SharesOf x s) (st : Party → Aby3St bitPrg) (v : Log) :
    Sees (fun j => Aby3.openShare j (s j) (st j)) i v ↔ v = [(i.prev, toBytes (x - (s i).a - (s i).b))] := by
  rw [← missing_add_eq hs]
  exact sees_net (k := fun j c => (s j).a + (s j).b + c) (runs_value (fun j => (s j).b) fun _ => []) st v

/-- `open_many`: one message. -/
theorem C91_aby3_open_many_view (i : Party) (xs : List (BitVec K)) (s : Party → List (AShare K)) (hs : Rels SharesOf xs s)
    (st : Party → Aby3St bitPrg) (v : Log) :
    Sees (fun j => Aby3.openMany j (s j) (st j)) i v ↔
      v = [(i.prev, ringSliceToBytes (List.zipWith (fun x s => x - s.a - s.b) xs (s i)))] := by
  rw [← missing_adds hs]
  exact sees_net (k := fun j cs => List.zipWith (fun s c => c + s.a + s.b) (s j) cs)
    (runs_iter (fun j => (s j).map (·.b)) (fun j => by simp [hs.length]) fun _ => []) st v

/-- `open_bit`: one message, the opened bit plus the two own components. -/
theorem C91_aby3_open_bit_view (i : Party) (x : BitVec 1) (s : Party → AShare 1) (hs : BinSharesOf x s) (st : Party → Aby3St bitPrg) (v : Log) :
    Sees (fun j => Aby3.openBit j (s j) (st j)) i v ↔ v = [(i.prev, toBytes (x ^^^ (s i).a ^^^ (s i).b))] := by
  rw [← missing_xor_eq hs]
  exact sees_net (k := fun j c => bitVal ((s j).a ^^^ (s j).b ^^^ c)) (runs_value (fun j => (s j).b) fun _ => []) st v

/-- `open_bit_many`: one message. -/
theorem C91_aby3_open_bit_many_view (i : Party) (xs : List (BitVec 1)) (s : Party → List (AShare 1)) (hs : Rels BinSharesOf xs s)
    (st : Party → Aby3St bitPrg) (v : Log) :
    Sees (fun j => Aby3.openBitMany j (s j) (st j)) i v ↔
      v = [(i.prev, ringSliceToBytes (List.zipWith (fun x s => x ^^^ s.a ^^^ s.b) xs (s i)))] := by
  rw [← missing_xors hs]
  exact sees_net (k := fun j cs => List.zipWith (fun s c => bitVal (c ^^^ s.a ^^^ s.b)) (s j) cs)
    (runs_iter (fun j => (s j).map (·.b)) (fun j => by simp [hs.length]) fun _ => []) st v

/-! ## Malicious ABY3

No randomness is needed, so `n` may be 0: the views are equal. -/

theorem C91_mal_one_view (H : Hash) (i : Party) (x : BitVec K) (s : Party → AShare K) (hs : SharesOf x s) (st : Party → JmpSt (idealPrg f))
    (hst : JmpOk st) (t : List Bool) : ∃! v, Sees (fun j => Jmp.openShare H j (s j) (tapeIn i t st j)) i v :=
  one_of_wps (Jmp.openShare_wp H hs (tapeIn_ok hst t)) i

theorem C91_mal_open (H : Hash) (i : Party) (x : BitVec K) (s s' : Party → AShare K) (hs : SharesOf x s) (hs' : SharesOf x s') (hi : s i = s' i)
    (st : Party → JmpSt (idealPrg f)) (hst : JmpOk st) (n : Nat) (v : Log) :
    viewCountMal (fun j => Jmp.openShare H j (s j)) st i n v = viewCountMal (fun j => Jmp.openShare H j (s' j)) st i n v := by
  have := (JmpOpen.openShare_two (f := f) (i := i) H (s := Bool.rec s s') (by rintro (_ | _) <;> assumption) hi).count hst n (Nat.zero_le _) v
  exact this

theorem C91_mal_open_many (H : Hash) (i : Party) (xs : List (BitVec K)) (s s' : Party → List (AShare K)) (hs : Rels SharesOf xs s)
    (hs' : Rels SharesOf xs s') (hi : s i = s' i) (st : Party → JmpSt (idealPrg f)) (hst : JmpOk st) (n : Nat) (v : Log) :
    viewCountMal (fun j => Jmp.openMany H j (s j)) st i n v = viewCountMal (fun j => Jmp.openMany H j (s' j)) st i n v := by
  have := (JmpOpen.openMany_two (f := f) (i := i) H (s := Bool.rec s s') (by rintro (_ | _) <;> assumption) hi).count hst n (Nat.zero_le _) v
  exact this

theorem C91_mal_open_bit (H : Hash) (i : Party) (x : BitVec 1) (s s' : Party → AShare 1) (hs : BinSharesOf x s) (hs' : BinSharesOf x s') (hi : s i = s' i)
    (st : Party → JmpSt (idealPrg f)) (hst : JmpOk st) (n : Nat) (v : Log) :
    viewCountMal (fun j => Jmp.openBit H j (s j)) st i n v = viewCountMal (fun j => Jmp.openBit H j (s' j)) st i n v := by
  have := (openBit_two (f := f) (i := i) H (x := fun _ => x) (s := Bool.rec s s') (by rintro (_ | _) <;> assumption) rfl hi).count hst n (Nat.zero_le _) v
  exact this

theorem C91_mal_open_bit_many (H : Hash) (i : Party) (xs : List (BitVec 1)) (s s' : Party → List (AShare 1)) (hs : Rels BinSharesOf xs s)
    (hs' : Rels BinSharesOf xs s') (hi : s i = s' i) (st : Party → JmpSt (idealPrg f)) (hst : JmpOk st) (n : Nat) (v : Log) :
    viewCountMal (fun j => Jmp.openBitMany H j (s j)) st i n v = viewCountMal (fun j => Jmp.openBitMany H j (s' j)) st i n v := by
  have := (JmpOpen.openBitMany_two (f := f) (i := i) H (s := Bool.rec s s') (by rintro (_ | _) <;> assumption) hi).count hst n (Nat.zero_le _) v
  exact this

/-! ## SPDZ-wise -/

theorem C91_spdz_one_view (H : Hash) (i : Party) (key x : BitVec V) (s : Party → SShare V) (hs : MacSharesOf key x s) (p u : Nat)
    (st : Party → SpdzSt (idealPrg f) V) (hst : SpdzOk key p u st) (t : List Bool) :
    ∃! v, Sees (fun j => Spdz.openShare H K j (s j) (tapeS i t st j)) i v :=
  one_of_wps (Spdz.open_wp (tapeS_ok hst i t) hs) i

/-- `open`, with the check of the MACs of all values in the queue: nothing but the value in the larger ring. The MAC keys and
the values in the queue, of which there are `L`, may differ. -/
theorem C91_spdz_open (H : Hash) (i : Party) (x key key' : BitVec V) (s s' : Party → SShare V) (hs : MacSharesOf key x s)
    (hs' : MacSharesOf key' x s') (hi : s i = s' i) (p p' u L : Nat) (st st' : Party → SpdzSt (idealPrg f) V) (hst : SpdzOk key p u st)
    (hst' : SpdzOk key' p' u st') (est : st i = st' i) (hL : ∀ j, (st j).verifyQueue.length = L) (hL' : ∀ j, (st' j).verifyQueue.length = L)
    (n : Nat) (hn : V * (L + 4) ≤ n) (v : Log) :
    viewCountSpdz (fun j => Spdz.openShare H K j (s j)) st i n v = viewCountSpdz (fun j => Spdz.openShare H K j (s' j)) st' i n v := by
  have := SpdzOpen.count_prec (r := Bool.rec key key') (SpdzOpen.openShare_cpl (f := f) (K := K) (H := H) (i := i) (u := u) (L := L) (r := Bool.rec key key')
    (s := Bool.rec s s') (by rintro (_ | _) <;> assumption) hi) hst hst' est hL hL' n (by
      unfold macBits
      split
      · omega
      · refine le_trans (le_of_eq ?_) hn; ring) v
  exact this

/-- `open_many`: the same for a list of `m` values. -/
theorem C91_spdz_open_many (H : Hash) (i : Party) (xs : List (BitVec V)) (key key' : BitVec V) (s s' : Party → List (SShare V))
    (hs : Rels (MacSharesOf key) xs s) (hs' : Rels (MacSharesOf key') xs s') (hi : s i = s' i) (p p' u L : Nat)
    (st st' : Party → SpdzSt (idealPrg f) V) (hst : SpdzOk key p u st) (hst' : SpdzOk key' p' u st') (est : st i = st' i)
    (hL : ∀ j, (st j).verifyQueue.length = L) (hL' : ∀ j, (st' j).verifyQueue.length = L) (n : Nat) (hn : V * (L + xs.length + 3) ≤ n) (v : Log) :
    viewCountSpdz (fun j => Spdz.openMany H K j (s j)) st i n v = viewCountSpdz (fun j => Spdz.openMany H K j (s' j)) st' i n v := by
  have := SpdzOpen.count_prec (r := Bool.rec key key') (SpdzOpen.openMany_cpl (f := f) (K := K) (H := H) (i := i) (u := u) (L := L) (r := Bool.rec key key')
    (s := Bool.rec s s') (x := xs) rfl (by rintro (_ | _) <;> assumption) hi) hst hst' est hL hL' n (by
      unfold macBits
      split
      · omega
      · refine le_trans (le_of_eq ?_) hn; ring) v
  exact this

/-- `open_bit`. -/
theorem C91_spdz_open_bit (H : Hash) (i : Party) (x : BitVec 1) (s s' : Party → AShare 1) (hs : BinSharesOf x s) (hs' : BinSharesOf x s')
    (hi : s i = s' i) (key key' : BitVec V) (p p' u L : Nat) (st st' : Party → SpdzSt (idealPrg f) V) (hst : SpdzOk key p u st)
    (hst' : SpdzOk key' p' u st') (est : st i = st' i) (hL : ∀ j, (st j).verifyQueue.length = L) (hL' : ∀ j, (st' j).verifyQueue.length = L)
    (n : Nat) (v : Log) :
    viewCountSpdz (fun j => Spdz.openBit H j (s j)) st i n v = viewCountSpdz (fun j => Spdz.openBit H j (s' j)) st' i n v := by
  have := SpdzOpen.count_prec (r := Bool.rec key key') (SpdzOpen.openBit_cpl (f := f) (i := i) (u := u) (L := L) (r := Bool.rec key key')
    (openBit_two (f := f) (i := i) H (x := fun _ => x) (s := Bool.rec s s') (by rintro (_ | _) <;> assumption) rfl hi)) hst hst' est hL hL' n (Nat.zero_le _) v
  exact this

/-- `open_bit_many`. -/
theorem C91_spdz_open_bit_many (H : Hash) (i : Party) (xs : List (BitVec 1)) (s s' : Party → List (AShare 1)) (hs : Rels BinSharesOf xs s)
    (hs' : Rels BinSharesOf xs s') (hi : s i = s' i) (key key' : BitVec V) (p p' u L : Nat) (st st' : Party → SpdzSt (idealPrg f) V)
    (hst : SpdzOk key p u st) (hst' : SpdzOk key' p' u st') (est : st i = st' i) (hL : ∀ j, (st j).verifyQueue.length = L)
    (hL' : ∀ j, (st' j).verifyQueue.length = L) (n : Nat) (v : Log) :
    viewCountSpdz (fun j => Spdz.openBitMany H j (s j)) st i n v = viewCountSpdz (fun j => Spdz.openBitMany H j (s' j)) st' i n v := by
  have := SpdzOpen.count_prec (r := Bool.rec key key') (SpdzOpen.openBit_cpl (f := f) (i := i) (u := u) (L := L) (r := Bool.rec key key')
    (JmpOpen.openBitMany_two (f := f) (i := i) H (s := Bool.rec s s') (by rintro (_ | _) <;> assumption) hi)) hst hst' est hL hL' n (Nat.zero_le _) v
  exact this

/-- `open` reveals the value in the larger ring: the last message that a party sees is this value minus the two own components,
while the result of `open` is only its lower `K` bits. -/
theorem C91_spdz_open_reveals (H : Hash) (i : Party) (key x : BitVec V) (s : Party → SShare V) (hs : MacSharesOf key x s) (p u : Nat)
    (st : Party → SpdzSt (idealPrg f) V) (hst : SpdzOk key p u st) (t : List Bool) (v : Log)
    (h : Sees (fun j => Spdz.openShare H K j (s j) (tapeS i t st j)) i v) :
    ∃ v', v = v' ++ [(i.prev, toBytes (x - (s i).value.a - (s i).value.b))] := by
  have hw : WPS (fun j => Spdz.queueAll [s j] >>= fun _ => Spdz.verifyMacs H j) (tapeS i t st) fun _ _ => True :=
    WPS.bind ((Spdz.queueAll_wp (xs := [x]) (tapeS_ok hst i t) (Rels.singleton hs)).mono fun _ _ h1 =>
      (Spdz.verifyMacs_wp h1).mono fun _ _ _ => trivial)
  simp only [SpdzOpen.openShare_eq] at h
  have := SpdzOpen.last_message (l := fun j => [(j.prev, toBytes (s j.prev).value.b)]) hw (runs_value fun j => (s j).value.b) h
  rw [← missing_add_eq (s := fun j => (s j).value) (i := i) hs.1]
  exact this

/-- `open_many` reveals the values in the larger ring. -/
theorem C91_spdz_open_many_reveals (H : Hash) (i : Party) (key : BitVec V) (xs : List (BitVec V)) (s : Party → List (SShare V))
    (hs : Rels (MacSharesOf key) xs s) (p u : Nat) (st : Party → SpdzSt (idealPrg f) V) (hst : SpdzOk key p u st) (t : List Bool) (v : Log)
    (h : Sees (fun j => Spdz.openMany H K j (s j) (tapeS i t st j)) i v) :
    ∃ v', v = v' ++ [(i.prev, ringSliceToBytes (List.zipWith (fun x s => x - s.a - s.b) xs ((s i).map (·.value))))] := by
  have hw : WPS (fun j => Spdz.queueAll (s j) >>= fun _ => Spdz.verifyMacs H j) (tapeS i t st) fun _ _ => True :=
    WPS.bind ((Spdz.queueAll_wp (tapeS_ok hst i t) hs).mono fun _ _ h1 =>
      (Spdz.verifyMacs_wp h1).mono fun _ _ _ => trivial)
  simp only [SpdzOpen.openMany_eq] at h
  have := SpdzOpen.last_message (l := fun j => [(j.prev, ringSliceToBytes (((s j.prev).map (·.value)).map (·.b)))]) hw
    (runs_iter (fun j => ((s j).map (·.value)).map (·.b)) fun j => by simp [hs.length]) h
  rw [← missing_adds (s := fun j => (s j).map (·.value)) (i := i) hs.values]
  exact this

/-- Two sharings in which party `i` has the same shares, of two values in the larger ring that may well agree in the lower `K`
bits: party `i` never sees the same. -/
theorem C91_spdz_open_distinguishes (H : Hash) (i : Party) (x x' key key' : BitVec V) (hx : x ≠ x') (s s' : Party → SShare V) (hs : MacSharesOf key x s)
    (hs' : MacSharesOf key' x' s') (hi : s i = s' i) (p p' u u' : Nat) (st st' : Party → SpdzSt (idealPrg f) V) (hst : SpdzOk key p u st)
    (hst' : SpdzOk key' p' u' st') (t t' : List Bool) (v v' : Log) (h : Sees (fun j => Spdz.openShare H K j (s j) (tapeS i t st j)) i v)
    (h' : Sees (fun j => Spdz.openShare H K j (s' j) (tapeS i t' st' j)) i v') : v ≠ v' := by
  obtain ⟨l, rfl⟩ := C91_spdz_open_reveals H i key x s hs p u st hst t v h
  obtain ⟨l', rfl⟩ := C91_spdz_open_reveals H i key' x' s' hs' p' u' st' hst' t' v' h'
  rw [hi]
  intro e
  have e1 := (List.append_inj' e rfl).2
  simp only [List.cons.injEq, Prod.mk.injEq, and_true, true_and] at e1
  have e2 : ∀ {y z : BitVec V}, toBytes y = toBytes z → y = z := fun {y z} h => by
    have := fromBytes_toBytes y
    rw [h, fromBytes_toBytes] at this
    injection this with this
    exact this.symm
  have e3 := e2 e1
  exact hx (sub_left_injective (sub_left_injective e3))

/-! ## Swift3 -/

theorem C91_swift3_one_view (H : Hash) (i : Party) (x : BitVec K) (s : Party → S3Share K) (hs : S3SharesOf x s) (u y : Nat) (w : DotCount)
    (st : Party → S3St (idealPrg f) K) (hst : S3Ok u y w st) (t : List Bool) :
    ∃! v, Sees (fun j => Swift3.openShare H j (s j) (s3TapeIn i t st j)) i v :=
  one_of_wps (Swift3.openShare_wp hs (s3TapeIn_ok hst i t)) i

theorem s3_count {α : Type} {i : Party} {p : Bool → Party → Proto (S3St (idealPrg f) K) α} {st st' : Party → S3St (idealPrg f) K}
    {u u' y y' : Nat} {w w' : DotCount} (hst : S3Ok u y w st) (hst' : S3Ok u' y' w' st') (est : st i = st' i)
    (h : ∀ S : Bool → Party → S3St (idealPrg f) K, Twin3 i S → Lock3 i (fun _ => []) p S fun _ t => Twin3 i t) (n : Nat) (v : Log) :
    viewCountS3 (p false) st i n v = viewCountS3 (p true) st' i n v := by
  have hT : Twin3 i (Bool.rec st st' : Bool → Party → S3St (idealPrg f) K) :=
    Twin3.start (by rintro (_ | _); exacts [⟨_, _, _, hst⟩, ⟨_, _, _, hst'⟩]) est
  have := lock3_count (i := i) (p := p) (st := Bool.rec st st') (N := 0) (φ := fun _ u => u) (fun _ _ h => h) (fun _ _ _ _ _ h => h) (fun u hu => by
      have e := List.length_eq_zero_iff.1 hu
      subst e
      exact (h _ hT).mono fun _ _ _ => trivial) n (Nat.zero_le _) v
  exact this

/-- `open`. -/
theorem C91_swift3_open (H : Hash) (i : Party) (x : BitVec K) (s s' : Party → S3Share K) (hs : S3SharesOf x s) (hs' : S3SharesOf x s')
    (hi : s i = s' i) (u u' y y' : Nat) (w w' : DotCount) (st st' : Party → S3St (idealPrg f) K) (hst : S3Ok u y w st) (hst' : S3Ok u' y' w' st')
    (est : st i = st' i) (n : Nat) (v : Log) :
    viewCountS3 (fun j => Swift3.openShare H j (s j)) st i n v = viewCountS3 (fun j => Swift3.openShare H j (s' j)) st' i n v := by
  have := s3_count (p := fun w j => Swift3.openShare H j ((Bool.rec s s' : Bool → Party → S3Share K) w j)) hst hst' est
    (fun S hS => S3Open.openShare_lock hS (by rintro (_ | _) <;> assumption) hi) n v
  exact this

/-- `open_many`. -/
theorem C91_swift3_open_many (H : Hash) (i : Party) (xs : List (BitVec K)) (s s' : Party → List (S3Share K)) (hs : Rels S3SharesOf xs s)
    (hs' : Rels S3SharesOf xs s') (hi : s i = s' i) (u u' y y' : Nat) (w w' : DotCount) (st st' : Party → S3St (idealPrg f) K)
    (hst : S3Ok u y w st) (hst' : S3Ok u' y' w' st') (est : st i = st' i) (n : Nat) (v : Log) :
    viewCountS3 (fun j => Swift3.openMany H j (s j)) st i n v = viewCountS3 (fun j => Swift3.openMany H j (s' j)) st' i n v := by
  have := s3_count (p := fun w j => Swift3.openMany H j ((Bool.rec s s' : Bool → Party → List (S3Share K)) w j)) hst hst' est
    (fun S hS => S3Open.openMany_lock hS (by rintro (_ | _) <;> assumption) hi) n v
  exact this

/-- `open_bit_many`; `open_bit` is C89. -/
theorem C91_swift3_open_bit_many (H : Hash) (i : Party) (xs : List (BitVec 1)) (s s' : Party → List (S3Share 1)) (hs : Rels S3BinSharesOf xs s)
    (hs' : Rels S3BinSharesOf xs s') (hi : s i = s' i) (u u' y y' : Nat) (w w' : DotCount) (st st' : Party → S3St (idealPrg f) K)
    (hst : S3Ok u y w st) (hst' : S3Ok u' y' w' st') (est : st i = st' i) (n : Nat) (v : Log) :
    viewCountS3 (fun j => Swift3.openBitMany H j (s j)) st i n v = viewCountS3 (fun j => Swift3.openBitMany H j (s' j)) st' i n v := by
  have := s3_count (p := fun w j => Swift3.openBitMany H j ((Bool.rec s s' : Bool → Party → List (S3Share 1)) w j)) hst hst' est
    (fun S hS => S3Open.openBitMany_lock hS (by rintro (_ | _) <;> assumption) hi) n v
  exact this

/-- The product of two values: nothing, for any inputs and any states. -/
theorem C91_swift3_mul (i : Party) (a b a' b' : Party → S3Share K) (st st' : Party → S3St (idealPrg f) K) (n : Nat) (hn : 3 * K ≤ n) (v : Log) :
    viewCountS3 (fun j => Swift3.mul j (a j) (b j)) st i n v = viewCountS3 (fun j => Swift3.mul j (a' j) (b' j)) st' i n v := by
  have := (s3Mul_cpl (f := f) (K := K) (i := i) (a := Bool.rec a a') (b := Bool.rec b b')).count (Bool.rec st st') n
    (by unfold gateBits jbits; split <;> omega) v
  exact this

/-- A dot product: nothing, not even the length. -/
theorem C91_swift3_dot (i : Party) (a b a' b' : Party → List (S3Share K)) (h : ∀ j, (a j).length = (b j).length)
    (h' : ∀ j, (a' j).length = (b' j).length) (st st' : Party → S3St (idealPrg f) K) (n : Nat) (hn : 3 * K ≤ n) (v : Log) :
    viewCountS3 (fun j => Swift3.dot j (a j) (b j)) st i n v = viewCountS3 (fun j => Swift3.dot j (a' j) (b' j)) st' i n v := by
  have := (s3Dot_cpl (f := f) (K := K) (i := i) (a := Bool.rec a a') (b := Bool.rec b b') (by rintro (_ | _) <;> assumption)).count (Bool.rec st st') n
    (by unfold gateBits jbits; split <;> omega) v
  exact this

/-- An AND gate on words. -/
theorem C91_swift3_and {L : Nat} (i : Party) (a b a' b' : Party → S3Share L) (st st' : Party → S3St (idealPrg f) K) (n : Nat) (hn : 3 * L ≤ n) (v : Log) :
    viewCountS3 (fun j => Swift3.and j (a j) (b j)) st i n v = viewCountS3 (fun j => Swift3.and j (a' j) (b' j)) st' i n v := by
  have := (s3And_cpl (f := f) (K := K) (L := L) (i := i) (a := Bool.rec a a') (b := Bool.rec b b')).count (Bool.rec st st') n
    (by unfold gateBits jbits; split <;> omega) v
  exact this

/-! ## The hypotheses can be met -/

/-- Another sharing of `x` in which party 1 has the same shares as in `exShare x` is `exShare x` itself: the third component is
determined. In the SPDZ-wise backend the components of the MAC may differ: two keys, and values 5 and 5 + 2^16 whose lower 16
bits agree, all with the same share of party 1. -/
example (f : Bytes → List Bool) : let s (key x : BitVec 64) : Party → SShare 64 := fun j => ⟨exShare x j, exShare (key * x) j⟩
    MacSharesOf 3 5 (s 3 5) ∧ MacSharesOf 4 5 (s 4 5) ∧ s 3 5 1 = s 4 5 1 ∧ MacSharesOf 3 65541 (s 3 65541) ∧ s 3 5 1 = s 3 65541 1 ∧
    (65541 : BitVec 64).setWidth 16 = (5 : BitVec 64).setWidth 16 ∧ (65541 : BitVec 64) ≠ 5 ∧ SpdzOk 3 0 0 (spdzTapes f (3 : BitVec 64)) ∧
    SpdzOk 4 0 0 (spdzTapes f (4 : BitVec 64)) ∧ spdzTapes f (3 : BitVec 64) 1 = spdzTapes f (4 : BitVec 64) 1 ∧
    (∀ j, (spdzTapes f (3 : BitVec 64) j).verifyQueue.length = 0) :=
  ⟨⟨exShare_ok _, exShare_ok _⟩, ⟨exShare_ok _, exShare_ok _⟩, rfl, ⟨exShare_ok _, exShare_ok _⟩, rfl, by decide, by decide, spdzTapes_ok f _,
    spdzTapes_ok f _, rfl, fun _ => rfl⟩

example (f : Bytes → List Bool) : SharesOf 9 (exShare (9 : BitVec 16)) ∧ BinSharesOf 1 (exBinShare (1 : BitVec 1)) ∧ JmpOk (jmpTapes f) ∧
    S3SharesOf 9 (exS3Hidden (9 : BitVec 16)) ∧ S3BinSharesOf 1 (exS3Bin (1 : BitVec 1)) ∧ S3Ok 0 0 ⟨0, 0⟩ (s3Tapes f 16) :=
  ⟨exShare_ok _, exBinShare_ok _, ⟨fun _ => rfl, fun _ => rfl⟩, exS3Hidden_ok _, exS3Bin_ok _, s3Tapes_ok f 16⟩

end Verif
