import Verif.Proof.App
import Verif.Props.Iris
import Verif.Props.MalAby3
import Verif.Props.SpdzIris
import Verif.Props.Swift3Verify

/-!
# C61, C62, C63: the programs that create a database and match an iris against it
-/

namespace Verif

open App Jmp Spdz

variable {R : AppRng} {G : Prg} {H : Hash}

/-! ## C61: raw bytes, random irises, similar irises -/

/-- The bytes of an iris code array as they are stored: 1600 of them, bit `i` of the array is bit `i % 8` of byte
`i / 8`; reading them back gives the array. -/
theorem C61_raw (c : IrisCodeArray) :
    c.raw.length = 1600 ∧
    (∀ i : Fin 12800, ∃ b, c.raw[i.val / 8]? = some b ∧ b.getLsbD (i.val % 8) = c.bitAt i) ∧
    IrisCodeArray.ofRaw c.raw = .ok c :=
  ⟨c.raw_length, c.raw_bit, c.ofRaw_raw⟩

/-- Every string of 1600 bytes is the raw form of exactly one array; any other string makes the program panic. -/
theorem C61_of_raw (bs : Bytes) :
    (bs.length = 1600 → ∃! c : IrisCodeArray, IrisCodeArray.ofRaw bs = .ok c ∧ c.raw = bs) ∧
    (bs.length ≠ 1600 → IrisCodeArray.ofRaw bs = .error .panic) := by
  refine ⟨fun h => ?_, IrisCodeArray.ofRaw_short⟩
  obtain ⟨c, h1, h2⟩ := IrisCodeArray.raw_ofRaw h
  refine ⟨c, ⟨h1, h2⟩, fun c' h' => ?_⟩
  have := h'.1
  rw [h1] at this
  exact (Except.ok.inj this).symm

/-- A random iris: the code is the 1600 bytes drawn; position `i` is invalid exactly if draw `i` of the Bernoulli
distribution with parameter 0.10 is `true`. -/
theorem C61_random (s : R.S) :
    ∃ c s', IrisCode.randomRng R s = .ok (c, s') ∧ s' = after R.bern10 12800 (R.fill s).2 ∧
      c.code.raw = (R.fill s).1.toList ∧
      ∀ i : Fin 12800, c.mask.bitAt i = !drawAt R.bern10 i.val (R.fill s).2 := by
  obtain ⟨c, h1, h2⟩ := IrisCode.randomRng_ok R s
  exact ⟨c, _, h1, rfl, h2⟩

/-- A similar iris: bit `i` of the code is flipped exactly if draw `2i` of the Bernoulli distribution with parameter
0.05 is `true`, bit `i` of the mask exactly if draw `2i + 1` is. -/
theorem C61_similar (c : IrisCode) (s : R.S) :
    ∃ c' s', c.similar R s = .ok (c', s') ∧ s' = after R.bern05 25600 s ∧
      ∀ i : Fin 12800, c'.code.bitAt i = (c.code.bitAt i ^^ drawAt R.bern05 (2 * i.val) s) ∧
        c'.mask.bitAt i = (c.mask.bitAt i ^^ drawAt R.bern05 (2 * i.val + 1) s) := by
  obtain ⟨c', h1, h2⟩ := IrisCode.similar_ok R c s
  exact ⟨c', _, h1, rfl, h2⟩

/-- The distance of a similar iris from the original is the number of flipped bits at positions that are valid and whose
validity is not flipped. -/
theorem C61_similar_distance (c c' : IrisCode) (s s' : R.S) (h : c.similar R s = .ok (c', s')) :
    commonBits c c' = (List.finRange 12800).countP (fun i => c.mask.bitAt i && !drawAt R.bern05 (2 * i.val + 1) s) ∧
    hammingDistance c c' = (List.finRange 12800).countP (fun i =>
      drawAt R.bern05 (2 * i.val) s && (c.mask.bitAt i && !drawAt R.bern05 (2 * i.val + 1) s)) := by
  obtain ⟨c2, h1, h2⟩ := IrisCode.similar_ok R c s
  rw [h1] at h
  obtain ⟨rfl, -⟩ := Prod.mk.inj (Except.ok.inj h)
  unfold commonBits hammingDistance
  constructor
  · refine List.countP_congr fun i _ => ?_
    rw [(h2 i).2]
    cases c.mask.bitAt i <;> cases drawAt R.bern05 (2 * i.val + 1) s <;> rfl
  · refine List.countP_congr fun i _ => ?_
    rw [(h2 i).1, (h2 i).2]
    cases c.mask.bitAt i <;> cases drawAt R.bern05 (2 * i.val + 1) s <;> cases c.code.bitAt i <;>
      cases drawAt R.bern05 (2 * i.val) s <;> rfl

/-- Non-vacuity: a generator that never yields `true` leaves the iris as it is; one that always does inverts it. -/
def exRng (b : Bool) : AppRng where
  S := Unit
  ofU64 _ := ()
  fill _ := (Vector.replicate 1600 0xA5#8, ())
  bern10 _ := (b, ())
  bern05 _ := (b, ())
  gen K _ := (BitVec.ofNat K 5, ())

example (c : IrisCode) : ∃ s', c.similar (exRng false) () = .ok (c, s') := by
  obtain ⟨c', s', h, -, hb⟩ := C61_similar (R := exRng false) c ()
  refine ⟨s', ?_⟩
  rw [h]
  have : ∀ n, drawAt (exRng false).bern05 n () = false := fun _ => rfl
  have e1 : c'.code = c.code := C17_ext _ _ fun i => by rw [(hb i).1, this, Bool.xor_false]
  have e2 : c'.mask = c.mask := C17_ext _ _ fun i => by rw [(hb i).2, this, Bool.xor_false]
  rw [show c' = c from by cases c; cases c'; simp_all]

/-! ## C62: databases -/

/-- The plain database: every run adds the irises it draws, and reading gives them all back in this order. -/
theorem C62_plain (n : Nat) (s : R.S) (cs : List IrisCode) (db : List CodeCols) (h : readCodes db = .ok cs) :
    ∃ db' new s', createPlain R n s db = .ok (db', s') ∧ randomCodes R n s = .ok (new, s') ∧ new.length = n ∧
      readCodes db' = .ok (cs ++ new) := by
  obtain ⟨new, s', e, hl⟩ := randomCodes_ok n s
  refine ⟨_, new, s', by unfold createPlain; rw [e]; rfl, e, hl, ?_⟩
  induction db generalizing cs with
  | nil =>
    rw [readCodes, Except.ok.injEq] at h
    rw [← h]
    exact readCodes_raw new
  | cons r db ih =>
    simp only [readCodes, bind, Except.bind, pure, Except.pure] at h
    cases hr : readCode r with
    | error e => rw [hr] at h; cases h
    | ok c =>
      rw [hr] at h
      cases hd : readCodes db with
      | error e => rw [hd] at h; cases h
      | ok cs' =>
        rw [hd] at h
        obtain rfl := Except.ok.inj h
        simp only [List.cons_append, readCodes, hr, ih cs' hd, bind, Except.bind, pure, Except.pure]

/-- ABY3: creation always succeeds and adds `n` rows. -/
theorem C62_aby3_create (n : Nat) (s : R.S) (db : List AbyRow) :
    ∃ rows s', createAby3 R n s db = .ok (db ++ rows, s') ∧ rows.length = n := by
  obtain ⟨cs, rows, s', e, hl, h, -⟩ := createAby3_ok n s db
  exact ⟨rows, s', e, by rw [← h.length_eq, hl]⟩

/-- ABY3: from a database made by the creation program the three parties read consistent shares of the codes in it, and
the same masks. -/
theorem C62_aby3_read {db : List AbyRow} (hdb : Aby3Db R db) :
    ∃ codes sh, readCodes (db.map (·.toCodeCols)) = .ok codes ∧ codes.length = db.length ∧
      (∀ i : Party, readAby3 i.val db = .ok (sh i, codes.map fun c => c.mask)) ∧
      Rels (Rels SharesOf) (codes.map fun c => encode 16 c.code) sh := by
  obtain ⟨cs, h⟩ := hdb.holds
  obtain ⟨sh, h1, h2⟩ := readAby3_ok h
  exact ⟨cs, sh, by rw [RowHolds.cols_eq h, readCodes_raw], h.length_eq, h1, h2⟩

/-- Swift3: creation always succeeds and adds `n` rows. -/
theorem C62_swift3_create (n : Nat) (s : R.S) (db : List Swift3Row) :
    ∃ rows s', createSwift3 R n s db = .ok (db ++ rows, s') ∧ rows.length = n := by
  obtain ⟨cs, rows, s', e, hl, h, -⟩ := createSwift3_ok n s db
  exact ⟨rows, s', e, by rw [← h.length_eq, hl]⟩

/-- Swift3: what the parties read. -/
theorem C62_swift3_read {db : List Swift3Row} (hdb : Swift3Db R db) :
    ∃ codes sh, readCodes (db.map (·.toCodeCols)) = .ok codes ∧ codes.length = db.length ∧
      (∀ i : Party, readSwift3 i.val db = .ok (sh i, codes.map fun c => c.mask)) ∧
      Rels (Rels S3SharesOf) (codes.map fun c => encode 16 c.code) sh := by
  obtain ⟨cs, h⟩ := hdb.holds
  obtain ⟨sh, h1, h2⟩ := readSwift3_ok h
  exact ⟨cs, sh, by rw [RowHolds.cols_eq h, readCodes_raw], h.length_eq, h1, h2⟩

/-- SPDZ-wise: creation always succeeds and adds `n` rows and one key. -/
theorem C62_spdz_create (n : Nat) (s : R.S) (db : SpdzDb) :
    ∃ key rows s', createSpdz R n s db = .ok (⟨db.keys ++ [key], db.rows ++ rows⟩, s') ∧ rows.length = n := by
  obtain ⟨key, a, b, cs, rows, s', e, hl, h, -⟩ := createSpdz_ok n s db
  exact ⟨_, rows, s', e, by rw [← h.length_eq, hl]⟩

/-- SPDZ-wise: what the parties read from a database made in one run: the key in the clear, shares of it, and shares of
the codes with valid MACs under this key. -/
theorem C62_spdz_read {db : SpdzDb} (hdb : SpdzDbNew R db) :
    ∃ codes key sh ks, readCodes (db.rows.map (·.toCodeCols)) = .ok codes ∧ codes.length = db.rows.length ∧
      (∀ i : Party, readSpdz i.val db = .ok ⟨sh i, codes.map fun c => c.mask, key, ⟨AShare.zero 64, ks i⟩⟩) ∧
      SharesOf key ks ∧ Rels (Rels (MacSharesOf key)) (codes.map fun c => encode 64 c.code) sh := by
  obtain ⟨n, s, s', hc⟩ := hdb
  obtain ⟨key, a, b, cs, rows, s'', e, hl, h, -⟩ := createSpdz_ok n s ⟨[], []⟩
  rw [hc] at e
  obtain ⟨rfl, -⟩ := Prod.mk.inj (Except.ok.inj e)
  obtain ⟨sh, h1, h2⟩ := readSpdz_ok (a := a) (b := b) h
  exact ⟨cs, key, sh, keyParts key a b, by
    show readCodes (rows.map (·.toCodeCols)) = _
    rw [RowHolds.cols_eq h, readCodes_raw], h.length_eq, h1,
    keyParts_ok key a b, h2⟩

/-- SPDZ-wise: running the creation program a second time on the same file makes the database unusable: no party can
read it any more. -/
theorem C62_spdz_twice {db db' : SpdzDb} (hdb : SpdzDbNew R db) (n : Nat) (s s' : R.S)
    (h : createSpdz R n s db = .ok (db', s')) (i : Party) : readSpdz i.val db' = .error .other := by
  obtain ⟨m, t, t', hc⟩ := hdb
  obtain ⟨key, a, b, cs, rows, s'', e, -⟩ := createSpdz_ok m t ⟨[], []⟩
  rw [hc] at e
  obtain ⟨rfl, -⟩ := Prod.mk.inj (Except.ok.inj e)
  obtain ⟨key2, a2, b2, cs2, rows2, s2, e2, -⟩ := createSpdz_ok n s ⟨[] ++ [keyRow key a b], [] ++ rows⟩
  rw [h] at e2
  obtain ⟨rfl, -⟩ := Prod.mk.inj (Except.ok.inj e2)
  obtain ⟨ksel, hk, k1, k2⟩ : ∃ ksel, keyCols i.val = .ok ksel ∧
      (ksel (keyRow key a b)).1 = Bincode.enc (keyParts key a b i).a ∧
      (ksel (keyRow key a b)).2 = Bincode.enc (keyParts key a b i).b := by
    match i with
    | 0 => exact ⟨_, rfl, rfl, rfl⟩
    | 1 => exact ⟨_, rfl, rfl, rfl⟩
    | 2 => exact ⟨_, rfl, rfl, rfl⟩
  have k3 : (keyRow key a b).key = Bincode.enc key := rfl
  unfold readSpdz
  simp only [List.nil_append, List.cons_append, hk, k1, k2, k3, deserialize_bv, bind, Except.bind]
  rw [if_pos (by simp)]

/-- A party number other than 0, 1, 2 is refused. -/
theorem C62_party (i : Nat) (hi : 2 < i) (db : List AbyRow) (db3 : List Swift3Row) (dbs : SpdzDb) :
    readAby3 i db = .error (.idError i) ∧ readSwift3 i db3 = .error (.idError i) ∧
    readSpdz i dbs = .error (.idError i) := by
  obtain ⟨k, rfl⟩ : ∃ k, i = k + 3 := ⟨i - 3, by omega⟩
  exact ⟨rfl, rfl, rfl⟩

/-- Non-vacuity: databases with several entries, made in several runs. -/
example (b : Bool) : ∃ db : List AbyRow, Aby3Db (exRng b) db ∧ db.length = 5 := by
  obtain ⟨rows, s, e, h⟩ := C62_aby3_create (R := exRng b) 2 () []
  obtain ⟨rows', s', e', h'⟩ := C62_aby3_create (R := exRng b) 3 () ([] ++ rows)
  exact ⟨_, .create (.create .empty e) e', by simp [h, h']⟩

example (b : Bool) : ∃ db : List Swift3Row, Swift3Db (exRng b) db ∧ db.length = 2 := by
  obtain ⟨rows, s, e, h⟩ := C62_swift3_create (R := exRng b) 2 () []
  exact ⟨_, .create .empty e, by simp [h]⟩

example (b : Bool) : ∃ db, SpdzDbNew (exRng b) db ∧ db.rows.length = 2 := by
  obtain ⟨k, rows, s, e, h⟩ := C62_spdz_create (R := exRng b) 2 () ⟨[], []⟩
  exact ⟨_, ⟨2, (), s, e⟩, by simp [h]⟩

/-! ## C63: the whole programs -/

theorem findMatchDb_eq {q : IrisCode} {cols : List CodeCols} {codes : List IrisCode}
    (h : readCodes cols = .ok codes) : findMatchDb q cols = findMatch q codes false := by
  unfold findMatchDb; rw [h]; rfl

theorem findMatch_panics (q : IrisCode) (db : List IrisCode) (acc : Bool) (h : ∃ c ∈ db, commonBits c q < 8960) :
    findMatch q db acc = .error .panic := by
  induction db generalizing acc with
  | nil => simp at h
  | cons c db ih =>
    rw [findMatch]
    by_cases hc : commonBits c q < 8960
    · rw [(C19_is_close c q).2 hc]; rfl
    · rw [(C19_is_close c q).1 (by omega)]
      refine ih _ ?_
      obtain ⟨d, hd, hlt⟩ := h
      rcases List.mem_cons.1 hd with rfl | hd
      · exact absurd hlt hc
      · exact ⟨d, hd, hlt⟩

/-- The iris to be matched exists if the database is not empty; it is the same at all parties. With `should_match` it
is an iris similar to the first one in the database. -/
theorem C63_query (seed : BitVec 64) (cols : List CodeCols) (codes : List IrisCode) (h : readCodes cols = .ok codes)
    (hne : cols ≠ []) :
    (∃ q s, queryIris R seed false cols = .ok (q, s) ∧ IrisCode.randomRng R (R.ofU64 seed) = .ok (q, s)) ∧
    ∃ c q s, codes.head? = some c ∧ queryIris R seed true cols = .ok (q, s) ∧ c.similar R (R.ofU64 seed) = .ok (q, s) := by
  constructor
  · obtain ⟨c, e, -⟩ := IrisCode.randomRng_ok R (R.ofU64 seed)
    exact ⟨c, _, e, e⟩
  · cases cols with
    | nil => exact absurd rfl hne
    | cons r cols =>
      simp only [readCodes, bind, Except.bind, pure, Except.pure] at h
      cases hr : readCode r with
      | error e => rw [hr] at h; cases h
      | ok c =>
        rw [hr] at h
        cases hd : readCodes cols with
        | error e => rw [hd] at h; cases h
        | ok cs' =>
          rw [hd] at h
          obtain rfl := Except.ok.inj h
          obtain ⟨q, e, -⟩ := IrisCode.similar_ok R c (R.ofU64 seed)
          refine ⟨c, q, _, rfl, ?_, e⟩
          unfold queryIris
          simp only [if_true, List.head?_cons, hr, bind, Except.bind]
          exact e

/-- `examples/aby3.rs` on a database made by the creation program: under every schedule every party gets the answer of
the plaintext program on the same database and the same iris; if some entry has too few bits in common with the iris,
every party reports an error, and the plaintext program panics. -/
theorem C63_aby3 {db : List AbyRow} (hdb : Aby3Db R db) (hne : db ≠ []) (seed : BitVec 64) (shouldMatch : Bool)
    (cs : Nat) (hcs : cs ≠ 0) (hov : (db.length + cs) * 32 < 2 ^ 64)
    (osSeeds : Party → Bytes) (hs : ∀ i, (osSeeds i).length = 32) (st : Party → Aby3St G) :
    ∃ codes q s, readCodes (db.map (·.toCodeCols)) = .ok codes ∧
      queryIris R seed shouldMatch (db.map (·.toCodeCols)) = .ok (q, s) ∧
      ((∀ c ∈ codes, 8960 ≤ commonBits c q) →
        EverySchedule (fun i => mainAby3 G R seed shouldMatch cs db (osSeeds i) i) st
          (fun r _ => ∀ i, findMatchDb q (db.map (·.toCodeCols)) = .ok (r i))) ∧
      ((∃ c ∈ codes, commonBits c q < 8960) →
        EveryScheduleFails (fun i => mainAby3 G R seed shouldMatch cs db (osSeeds i) i) st .maskHW ∧
        findMatchDb q (db.map (·.toCodeCols)) = .error .panic) := by
  obtain ⟨codes, h⟩ := hdb.holds
  have hcols := RowHolds.cols_eq h
  have hread : readCodes (db.map (·.toCodeCols)) = .ok codes := by rw [hcols, readCodes_raw]
  have hcne : codes ≠ [] := by
    rintro rfl
    exact hne (List.length_eq_zero_iff.1 (by rw [← h.length_eq]; rfl))
  obtain ⟨q, s, hq⟩ := queryIris_ok R seed shouldMatch codes (fun _ => hcne)
  rw [← hcols] at hq
  obtain ⟨sh, e1, hb⟩ := readAby3_ok h
  obtain ⟨a, e2, ha⟩ := irisShareAby3_ok hq
  have hnew : Iris.new 16 = .ok () := (C16_new 16).1.2 (by omega)
  have hov' : (codes.length + cs) * (2 * 16) < 2 ^ 64 := by rw [h.length_eq]; exact hov
  refine ⟨codes, q, s, hread, hq, fun hm => ?_, fun hm => ⟨?_, ?_⟩⟩
  · unfold mainAby3
    refine WPS.allSchedules (WPS.bind (WPS.lift (a := fun i => (sh i, codes.map fun c => c.mask)) e1 ?_))
    refine WPS.bind (WPS.lift (a := fun i => (a i, q.mask)) e2 ?_)
    refine WPS.bind (WPS.lift (a := fun _ => ()) (fun _ => hnew) ?_)
    refine WPS.bind ((Aby3.setup_wp osSeeds hs st).mono ?_)
    rintro _ st' rfl
    refine ((Aby3.mpcLawful G (by omega) false).irisInDb_wp (by omega) le_rfl ha hcne hm hb hcs trivial hov' trivial
      (fun _ => rfl)).mono ?_
    rintro r st'' ⟨h, -⟩ i
    rw [findMatchDb_eq hread, C19_find_match q codes hm, h i, inDb]
  · unfold mainAby3
    refine WPSF.every (WPSF.bind (WPS.lift (a := fun i => (sh i, codes.map fun c => c.mask)) e1 ?_))
    refine WPSF.bind (WPS.lift (a := fun i => (a i, q.mask)) e2 ?_)
    refine WPSF.bind (WPS.lift (a := fun _ => ()) (fun _ => hnew) ?_)
    refine WPSF.bind ((Aby3.setup_wp osSeeds hs st).mono ?_)
    rintro _ st' rfl
    exact (Aby3.mpcLawful G (by omega) false).irisInDb_fails (by omega) le_rfl ha hm hb hcs hov' (fun _ => rfl)
  · rw [findMatchDb_eq hread, findMatch_panics q codes false hm]

/-- `examples/aby3_mal.rs`, likewise. -/
theorem C63_mal_aby3 {db : List AbyRow} (hdb : Aby3Db R db) (hne : db ≠ []) (seed : BitVec 64) (shouldMatch : Bool)
    (cs : Nat) (hcs : cs ≠ 0) (hcs' : cs * 128 < 2 ^ 64) (hov : (db.length + cs) * 32 < 2 ^ 64)
    (seed1 seed2 rand1 rand2 : Party → Bytes) (h1 : ∀ i, (seed1 i).length = 32)
    (h2 : ∀ i, (seed2 i).length = 32) (h3 : ∀ i, (rand1 i).length = 32) (h4 : ∀ i, (rand2 i).length = 32)
    (prf₀ : Prf G) :
    ∃ codes q s, readCodes (db.map (·.toCodeCols)) = .ok codes ∧
      queryIris R seed shouldMatch (db.map (·.toCodeCols)) = .ok (q, s) ∧
      ((∀ c ∈ codes, 8960 ≤ commonBits c q) →
        EverySchedule (fun i => mainMalAby3 G H R seed shouldMatch cs db (seed1 i) (seed2 i) (rand1 i) (rand2 i) i)
          (fun _ => ⟨prf₀, [], []⟩) (fun r _ => ∀ i, findMatchDb q (db.map (·.toCodeCols)) = .ok (r i))) ∧
      ((∃ c ∈ codes, commonBits c q < 8960) →
        EveryScheduleFails (fun i => mainMalAby3 G H R seed shouldMatch cs db (seed1 i) (seed2 i) (rand1 i) (rand2 i) i)
          (fun _ => ⟨prf₀, [], []⟩) .maskHW) := by
  obtain ⟨codes, h⟩ := hdb.holds
  have hcols := RowHolds.cols_eq h
  have hread : readCodes (db.map (·.toCodeCols)) = .ok codes := by rw [hcols, readCodes_raw]
  have hcne : codes ≠ [] := by
    rintro rfl
    exact hne (List.length_eq_zero_iff.1 (by rw [← h.length_eq]; rfl))
  obtain ⟨q, s, hq⟩ := queryIris_ok R seed shouldMatch codes (fun _ => hcne)
  rw [← hcols] at hq
  obtain ⟨sh, e1, hb⟩ := readAby3_ok h
  obtain ⟨a, e2, ha⟩ := irisShareAby3_ok hq
  have hnew : Iris.new 16 = .ok () := (C16_new 16).1.2 (by omega)
  have hov' : (codes.length + cs) * (2 * 16) < 2 ^ 64 := by rw [h.length_eq]; exact hov
  have hV : 40 ≤ verifWidth 16 - 16 := by decide
  refine ⟨codes, q, s, hread, hq, fun hm => ?_, fun hm => ?_⟩
  · unfold mainMalAby3
    refine WPS.allSchedules (WPS.bind (WPS.lift (a := fun i => (sh i, codes.map fun c => c.mask)) e1 ?_))
    refine WPS.bind (WPS.lift (a := fun i => (a i, q.mask)) e2 ?_)
    refine WPS.bind (WPS.lift (a := fun _ => ()) (fun _ => hnew) ?_)
    refine WPS.bind ((MalAby3.setup_wp seed1 seed2 rand1 rand2 h1 h2 h3 h4 _).mono ?_)
    intro _ st' h
    refine ((MalAby3.mpcLawful G H hV (by omega) false).irisInDb_wp (by omega) le_rfl ha hcne hm hb hcs hcs' hov' trivial
      (MalAby3.setup_ok (fun _ => rfl) h)).mono ?_
    rintro r st'' ⟨h, -⟩ i
    rw [findMatchDb_eq hread, C19_find_match q codes hm, h i, inDb]
  · unfold mainMalAby3
    refine WPSF.every (WPSF.bind (WPS.lift (a := fun i => (sh i, codes.map fun c => c.mask)) e1 ?_))
    refine WPSF.bind (WPS.lift (a := fun i => (a i, q.mask)) e2 ?_)
    refine WPSF.bind (WPS.lift (a := fun _ => ()) (fun _ => hnew) ?_)
    refine WPSF.bind ((MalAby3.setup_wp seed1 seed2 rand1 rand2 h1 h2 h3 h4 _).mono ?_)
    intro _ st' h
    exact (MalAby3.mpcLawful G H hV (by omega) false).irisInDb_fails (by omega) le_rfl ha hm hb hcs hov'
      (MalAby3.setup_ok (fun _ => rfl) h)

/-- `examples/spdzwise.rs` on a database made in one run, in chunks of a multiple of 128 greater than 128. -/
theorem C63_spdz {db : SpdzDb} (hdb : SpdzDbNew R db) (hne : db.rows ≠ []) (seed : BitVec 64) (shouldMatch : Bool)
    (k : Nat) (hk : 2 ≤ k) (hov : (db.rows.length + 128 * k) * 32 < 2 ^ 64)
    (osSeeds : Party → Bytes) (hs : ∀ i, (osSeeds i).length = 32) (prf₀ : Prf G) :
    ∃ codes q s, readCodes (db.rows.map (·.toCodeCols)) = .ok codes ∧
      queryIris R seed shouldMatch (db.rows.map (·.toCodeCols)) = .ok (q, s) ∧
      ((∀ c ∈ codes, 8960 ≤ commonBits c q) →
        EverySchedule (fun i => mainSpdz G H R seed shouldMatch (128 * k) db (osSeeds i) i) (fun _ => Spdz.init prf₀)
          (fun r _ => ∀ i, findMatchDb q (db.rows.map (·.toCodeCols)) = .ok (r i))) ∧
      ((∃ c ∈ codes, commonBits c q < 8960) →
        EveryScheduleFails (fun i => mainSpdz G H R seed shouldMatch (128 * k) db (osSeeds i) i)
          (fun _ => Spdz.init prf₀) .maskHW) := by
  obtain ⟨n, s0, s', hc⟩ := hdb
  obtain ⟨key, ka, kb, codes, rows, s'', e, hl, h, -⟩ := createSpdz_ok n s0 ⟨[], []⟩
  rw [hc] at e
  obtain ⟨rfl, -⟩ := Prod.mk.inj (Except.ok.inj e)
  simp only [List.nil_append] at hne hov ⊢
  have hcols := RowHolds.cols_eq h
  have hread : readCodes (rows.map (·.toCodeCols)) = .ok codes := by rw [hcols, readCodes_raw]
  have hcne : codes ≠ [] := by
    rintro rfl
    exact hne (List.length_eq_zero_iff.1 (by rw [← h.length_eq]; rfl))
  have hlen : codes.length ≠ 0 := by simpa using hcne
  obtain ⟨q, s, hq⟩ := queryIris_ok R seed shouldMatch codes (fun _ => hcne)
  rw [← hcols] at hq
  obtain ⟨sh, e1, hb⟩ := readSpdz_ok (a := ka) (b := kb) h
  obtain ⟨a, e2, ha⟩ := irisShareSpdz_ok (key := key) (db := ⟨[keyRow key ka kb], rows⟩) hq
  have hnew : Iris.new 16 = .ok () := (C16_new 16).1.2 (by omega)
  have hov' : (codes.length + 128 * k) * (2 * 16) < 2 ^ 64 := by rw [h.length_eq]; exact hov
  have hset := setup_key_wp osSeeds hs prf₀ key (fun i => ⟨AShare.zero 64, keyParts key ka kb i⟩) (keyParts_ok key ka kb)
  refine ⟨codes, q, s, hread, hq, fun hm => ?_, fun hm => ?_⟩
  · refine WPS.allSchedules (WPS.congr (q := fun i => do
      let shared ← Proto.lift (readSpdz i.val ⟨[keyRow key ka kb], rows⟩)
      let x ← Proto.lift (irisShareSpdz R seed shouldMatch i.val ⟨[keyRow key ka kb], rows⟩ shared.macKey)
      Proto.lift (Iris.new 16)
      (do Spdz.preprocess i (osSeeds i)
          Spdz.setMacKey shared.macKeyShare)
      Iris.irisInDb (Spdz.ops G H 16 false i) x.1 shared.shares x.2 shared.masks (128 * k)) (fun i => ?_) ?_)
    · unfold mainSpdz; simp only [bind_assoc]
    refine WPS.bind (WPS.lift (a := fun i => ⟨sh i, codes.map fun c => c.mask, key, ⟨AShare.zero 64, keyParts key ka kb i⟩⟩) e1 ?_)
    refine WPS.bind (WPS.lift (a := fun i => (a i, q.mask)) e2 ?_)
    refine WPS.bind (WPS.lift (a := fun _ => ()) (fun _ => hnew) ?_)
    refine WPS.bind (hset.mono ?_)
    rintro _ st hst
    refine ((Spdz.mpcLawful (K := 16) G H (by omega) (by omega) false key 0 0 _).irisInDb_wp (by omega) (by decide)
      ha hcne hm hb (by omega) trivial hov' ⟨?_, rfl⟩ hst).mono ?_
    · simp only [Nat.add_zero]; rw [used_eq hlen (by omega), avail_eq]; exact C29_multiple (by omega) _ _ hlen hk
    · rintro r st' ⟨hr, -⟩ i
      rw [findMatchDb_eq hread, C19_find_match q codes hm, hr i, inDb]
  · refine WPSF.every (?_ : WPSF _ _ _)
    rw [show (fun i => mainSpdz G H R seed shouldMatch (128 * k) ⟨[keyRow key ka kb], rows⟩ (osSeeds i) i) = fun i => do
      let shared ← Proto.lift (readSpdz i.val ⟨[keyRow key ka kb], rows⟩)
      let x ← Proto.lift (irisShareSpdz R seed shouldMatch i.val ⟨[keyRow key ka kb], rows⟩ shared.macKey)
      Proto.lift (Iris.new 16)
      (do Spdz.preprocess i (osSeeds i)
          Spdz.setMacKey shared.macKeyShare)
      Iris.irisInDb (Spdz.ops G H 16 false i) x.1 shared.shares x.2 shared.masks (128 * k) from by
        funext i; unfold mainSpdz; simp only [bind_assoc]]
    refine WPSF.bind (WPS.lift (a := fun i => ⟨sh i, codes.map fun c => c.mask, key, ⟨AShare.zero 64, keyParts key ka kb i⟩⟩) e1 ?_)
    refine WPSF.bind (WPS.lift (a := fun i => (a i, q.mask)) e2 ?_)
    refine WPSF.bind (WPS.lift (a := fun _ => ()) (fun _ => hnew) ?_)
    refine WPSF.bind (hset.mono ?_)
    rintro _ st hst
    exact (Spdz.mpcLawful (K := 16) G H (by omega) (by omega) false key 0 0 0).irisInDb_fails (by omega) (by decide)
      ha hm hb (by omega) hov' hst

/-- Composition of a phase that succeeds with one that ends in `Q`. -/
theorem EndsIn.after {σ α β : Type} {p : Party → Proto σ α} {k : Party → α → Proto σ β} {st : Party → σ}
    {Q : Config (β × σ) → Prop} (h : WPS p st (fun a s => EndsIn (fun i => k i (a i) (s i)) Q)) :
    EndsIn (fun i => (p i >>= k i) (st i)) Q := by
  obtain ⟨x, ⟨n, hn⟩, hQ⟩ := h
  obtain ⟨m, t, hm, ht⟩ := (Config.init fun i => k i (x i).1 (x i).2).exists_stuck
  have h1 := hn.toSteps.bind fun i (y : α × σ) => k i y.1 y.2
  exact EndsIn.of_run (h1.trans hm) ht (hQ.2 _ t hm ht)

/-- `examples/swift3.rs` on a database made by the creation program. The parties reach consistent states `st1` before
the check; `res` are the outcomes of the check of the registered dot products there. If every check accepts, every party
gets the answer of the plaintext program, under every schedule. If the check of party `j` rejects (an unlucky draw of
the check's randomness), `j` panics and no party gets any answer. -/
theorem C63_swift3 (hG : G.Lively 16) {db : List Swift3Row} (hdb : Swift3Db R db) (hne : db ≠ []) (seed : BitVec 64)
    (shouldMatch : Bool) (cs : Nat) (hcs : cs ≠ 0) (hov : (db.length + cs) * 32 < 2 ^ 64)
    (hn : 51202 * db.length ≤ 2 ^ 44) (os : Party → Swift3Os G)
    (hos : ∀ i, ∀ b ∈ [(os i).s0, (os i).s1, (os i).s2, (os i).r0, (os i).r1, (os i).r2], b.length = 32)
    (p : Party → S3Prf G) :
    ∃ codes q s, readCodes (db.map (·.toCodeCols)) = .ok codes ∧
      queryIris R seed shouldMatch (db.map (·.toCodeCols)) = .ok (q, s) ∧
      ((∀ c ∈ codes, 8960 ≤ commonBits c q) → ∃ (st1 : Party → S3St G 16) (u1 : Nat) (w1 : DotCount) (res : Party → Except Err Unit),
        S3Ok u1 0 w1 st1 ∧ w1.n = db.length ∧
        DotOutcome w1 (G.genSeed (st1 0).prf.pp).2 (fun i => (os i).rngDot) (fun i => (st1 i).dotProof) res ∧
        ((∀ i, res i = .ok ()) →
          EverySchedule (fun i => mainSwift3 G H R seed shouldMatch cs db (os i) i) (fun i => Swift3.new (p i))
            (fun r _ => ∀ i, findMatchDb q (db.map (·.toCodeCols)) = .ok (r i))) ∧
        ∀ j e, res j = .error e →
          EndsIn (fun i => mainSwift3 G H R seed shouldMatch cs db (os i) i (Swift3.new (p i)))
            (fun c => c.prog j = .fail .panic ∧ ∀ i a, c.prog i ≠ .ret a)) ∧
      ((∃ c ∈ codes, commonBits c q < 8960) →
        EveryScheduleFails (fun i => mainSwift3 G H R seed shouldMatch cs db (os i) i) (fun i => Swift3.new (p i))
          .maskHW) := by
  obtain ⟨codes, h⟩ := hdb.holds
  have hcols := RowHolds.cols_eq h
  have hread : readCodes (db.map (·.toCodeCols)) = .ok codes := by rw [hcols, readCodes_raw]
  have hcne : codes ≠ [] := by
    rintro rfl
    exact hne (List.length_eq_zero_iff.1 (by rw [← h.length_eq]; rfl))
  obtain ⟨q, s, hq⟩ := queryIris_ok R seed shouldMatch codes (fun _ => hcne)
  rw [← hcols] at hq
  obtain ⟨sh, e1, hb⟩ := readSwift3_ok h
  obtain ⟨a, e2, ha⟩ := irisShareSwift3_ok hq
  have hnew : Iris.new 16 = .ok () := (C16_new 16).1.2 (by omega)
  have hov' : (codes.length + cs) * (2 * 16) < 2 ^ 64 := by rw [h.length_eq]; exact hov
  have hset := Swift3.setup_wp (H := H) (fun i => (os i).s0) (fun i => (os i).s1) (fun i => (os i).s2)
    (fun i => (os i).r0) (fun i => (os i).r1) (fun i => (os i).r2) (fun i => hos i _ (by simp)) (fun i => hos i _ (by simp))
    (fun i => hos i _ (by simp)) (fun i => hos i _ (by simp)) (fun i => hos i _ (by simp)) (fun i => hos i _ (by simp))
    (fun i => (Swift3.new (p i) : S3St G 16))
  have hl : codes.length = db.length := h.length_eq
  refine ⟨codes, q, s, hread, hq, fun hm => ?_, fun hm => ?_⟩
  · have hok : S3Ok 0 0 ⟨0, 0⟩ (fun i => { (Swift3.new (p i) : S3St G 16) with prf := Swift3.setupPrf (fun i => (os i).s0) (fun i => (os i).s1) (fun i => (os i).s2) i }) :=
      Swift3.setup_ok fun _ => rfl
    obtain ⟨st1, size, rd, h1, h2, h3, h4, h5, h6⟩ := Swift3.query_wpe (H := H) (by omega) (by omega) hG false hok
      (by simp) ha hcne hm hb hcs hov' (by omega) (by simp only; omega)
      (fun i => (os i).rngMul) (fun i => (os i).rngAnd) (fun i => (os i).rngDot)
    refine ⟨st1, _, ⟨0 + codes.length, size⟩, rd, h2, by simp [hl], h4, fun hr => ?_, fun j e hj => ?_⟩
    · unfold mainSwift3
      refine WPS.allSchedules (WPS.bind (WPS.lift (a := fun i => (sh i, codes.map fun c => c.mask)) e1 ?_))
      refine WPS.bind (WPS.lift (a := fun i => (a i, q.mask)) e2 ?_)
      refine WPS.bind (WPS.lift (a := fun _ => ()) (fun _ => hnew) ?_)
      refine WPS.bind (hset.mono ?_)
      intro _ st' hst
      obtain rfl := funext hst
      refine (h5 hr).mono ?_
      rintro r st'' ⟨h, -⟩ i
      rw [findMatchDb_eq hread, C19_find_match q codes hm, h i, inDb]
    · unfold mainSwift3
      refine EndsIn.after (WPS.lift (a := fun i => (sh i, codes.map fun c => c.mask)) e1 ?_)
      refine EndsIn.after (WPS.lift (a := fun i => (a i, q.mask)) e2 ?_)
      refine EndsIn.after (WPS.lift (a := fun _ => ()) (fun _ => hnew) ?_)
      refine EndsIn.after (hset.mono ?_)
      intro _ st' hst
      obtain rfl := funext hst
      exact h6 j e hj
  · unfold mainSwift3
    refine WPSF.every (WPSF.bind (WPS.lift (a := fun i => (sh i, codes.map fun c => c.mask)) e1 ?_))
    refine WPSF.bind (WPS.lift (a := fun i => (a i, q.mask)) e2 ?_)
    refine WPSF.bind (WPS.lift (a := fun _ => ()) (fun _ => hnew) ?_)
    refine WPSF.bind (hset.mono ?_)
    intro _ st' hst
    exact (Swift3.mpcLawful G H (by omega) false
      (fun i => Swift3.verify H i (os i).rngMul (os i).rngAnd (os i).rngDot) 0 0 ⟨0, 0⟩ 0 0).irisInDb_fails (by omega) le_rfl
      ha hm hb hcs hov' ⟨0, by simp, Swift3.setup_ok hst⟩

/-- With `should_match`, and if enough positions survive and few of them are flipped, the answer is `true`. -/
theorem C63_should_match (seed : BitVec 64) (cols : List CodeCols) (codes : List IrisCode) (c q : IrisCode) (s : R.S)
    (h : readCodes cols = .ok codes) (hc : codes.head? = some c) (hq : queryIris R seed true cols = .ok (q, s))
    (hm : ∀ c ∈ codes, 8960 ≤ commonBits c q)
    (hf : 100 * ((List.finRange 12800).countP (fun i => drawAt R.bern05 (2 * i.val) (R.ofU64 seed) &&
        (c.mask.bitAt i && !drawAt R.bern05 (2 * i.val + 1) (R.ofU64 seed))) + 1) ≤
      34 * (List.finRange 12800).countP (fun i => c.mask.bitAt i && !drawAt R.bern05 (2 * i.val + 1) (R.ofU64 seed))) :
    findMatchDb q cols = .ok true := by
  have hne : cols ≠ [] := by
    rintro rfl
    obtain rfl := Except.ok.inj h
    simp at hc
  obtain ⟨-, c', q', s', h1, h2, h3⟩ := C63_query (R := R) seed cols codes h hne
  rw [hc] at h1
  obtain rfl := Option.some.inj h1
  rw [hq] at h2
  obtain ⟨rfl, rfl⟩ := Prod.mk.inj (Except.ok.inj h2)
  obtain ⟨h4, h5⟩ := C61_similar_distance _ _ _ _ h3
  rw [findMatchDb_eq h, C19_find_match q codes hm]
  refine congrArg Except.ok ?_
  rw [List.any_eq_true]
  refine ⟨c, List.mem_of_head? hc, ?_⟩
  rw [← h4, ← h5] at hf
  rw [decide_eq_true_eq]
  omega

/-- Non-vacuity: a database of one entry, with enough valid positions (`b = false`) or none (`b = true`). -/
theorem ex_app (b : Bool) : ∃ (db : List AbyRow) (c q : IrisCode) (s : Unit), Aby3Db (exRng b) db ∧ db ≠ [] ∧
    readCodes (db.map (·.toCodeCols)) = .ok [c] ∧
    queryIris (exRng b) 7 false (db.map (·.toCodeCols)) = .ok (q, s) ∧
    (b = false → 8960 ≤ commonBits c q) ∧ (b = true → commonBits c q < 8960) := by
  obtain ⟨cs, rows, s', e, hl, h, s'', e2⟩ := createAby3_ok (R := exRng b) 1 () []
  obtain ⟨c, e3, -, hm⟩ := IrisCode.randomRng_ok (exRng b) ()
  have hcs : cs = [c] := by
    simp only [randomCodes, e3, bind, Except.bind, pure, Except.pure] at e2
    exact (Prod.mk.inj (Except.ok.inj e2)).1.symm
  subst hcs
  refine ⟨[] ++ rows, c, c, _, .create .empty e, ?_, ?_, e3, fun hb => ?_, fun hb => ?_⟩
  · intro h0
    rw [List.nil_append] at h0
    subst h0
    cases h
  · rw [List.nil_append, RowHolds.cols_eq h, readCodes_raw]
  · subst hb
    have : c = ⟨c.code, IrisCodeArray.ones⟩ := by
      have : c.mask = IrisCodeArray.ones := C17_ext _ _ fun i => by
        rw [hm i, (C17_bitwise IrisCodeArray.zero IrisCodeArray.zero i).2.2.2]; rfl
      cases c; simp_all
    rw [this, fullMask_common]; omega
  · subst hb
    unfold commonBits
    rw [List.countP_eq_zero.2 fun i _ => ?_]
    · omega
    · rw [hm i]; exact Bool.noConfusion

end Verif
