import Verif.Proof.IrisInst
import Verif.Props.Aby3

/-! # C14, C15, C16, C53: the iris protocol over ABY3 and over the plaintext backend -/

namespace Verif

/-- With full masks the distance counts all differing positions. -/
theorem distance_full (p c : IrisCodeArray) : hammingDistance ⟨p, IrisCodeArray.ones⟩ ⟨c, IrisCodeArray.ones⟩
    = (List.finRange 12800).countP fun i => p.bitAt i != c.bitAt i := by
  unfold hammingDistance
  congr 1
  funext i
  rw [(C17_bitwise IrisCodeArray.zero IrisCodeArray.zero i).2.2.2]
  simp

attribute [local irreducible] hammingDistance commonBits encode

variable {G : Prg} {K : Nat}

/-! ## C14: the query over ABY3 -/

/-- `iris_in_db` over ABY3: under every schedule all three parties return `Ok` of the answer, i.e. whether some
database entry differs from the query in fewer than 34% (rounded down) of the common valid bits. `signed`:
signed or unsigned ring type. The bound excludes overflow of `usize` in the gate count. -/
theorem C14_iris_in_db (hK : 15 ≤ K) (signed : Bool) (q : IrisCode) (db : List IrisCode) (hne : db ≠ [])
    (hm : ∀ c ∈ db, 8960 ≤ commonBits c q) (a : Party → List (AShare K)) (b : Party → List (List (AShare K)))
    (ha : Rels SharesOf (encode K q.code) a) (hb : Rels (Rels SharesOf) (db.map fun c => encode K c.code) b)
    (cs : Nat) (hcs : cs ≠ 0) (hov : (db.length + cs) * (2 * K) < 2 ^ 64) (st : Party → Aby3St G)
    (hst : Aby3Ready st) :
    EverySchedule (fun i => Iris.irisInDb (Aby3.ops G K signed i) (a i) (b i) q.mask (db.map fun c => c.mask) cs) st
      (fun r st' => (∀ i, r i = inDb q db) ∧ Aby3Ready st') :=
  ((Aby3.mpcLawful G (by omega) signed).irisInDb_wp hK le_rfl ha hne hm hb hcs trivial hov trivial hst).allSchedules

/-- The answer is that of the plaintext matching program. -/
theorem C14_equals_plain_search (hK : 15 ≤ K) (signed : Bool) (q : IrisCode) (db : List IrisCode) (hne : db ≠ [])
    (hm : ∀ c ∈ db, 8960 ≤ commonBits c q) (a : Party → List (AShare K)) (b : Party → List (List (AShare K)))
    (ha : Rels SharesOf (encode K q.code) a) (hb : Rels (Rels SharesOf) (db.map fun c => encode K c.code) b)
    (cs : Nat) (hcs : cs ≠ 0) (hov : (db.length + cs) * (2 * K) < 2 ^ 64) (st : Party → Aby3St G)
    (hst : Aby3Ready st) :
    EverySchedule (fun i => Iris.irisInDb (Aby3.ops G K signed i) (a i) (b i) q.mask (db.map fun c => c.mask) cs) st
      (fun r st' => (∀ i, findMatch q db false = .ok (r i)) ∧ Aby3Ready st') := by
  obtain ⟨r, st', h, hr, hst'⟩ := C14_iris_in_db hK signed q db hne hm a b ha hb cs hcs hov st hst
  refine ⟨r, st', h, fun i => ?_, hst'⟩
  rw [C19_find_match q db hm, hr i, inDb]

/-- The code shares as the client makes them with `share`: entry `k` of party `i` is element `i` of the sharing of
bit `k`, made with the random pair `rnd k`. -/
def dealt (xs : List (BitVec K)) (rnd : List (BitVec K × BitVec K)) (i : Party) : List (AShare K) :=
  List.zipWith (fun x r => (Aby3.share x r.1 r.2)[i.val]'(by have := i.isLt; simp [Aby3.share])) xs rnd

theorem dealt_ok (xs : List (BitVec K)) (rnd : List (BitVec K × BitVec K)) (h : rnd.length = xs.length) :
    Rels SharesOf xs (dealt xs rnd) := by
  induction xs generalizing rnd with
  | nil => exact Rels.nil
  | cons x xs ih =>
    cases rnd with
    | nil => simp at h
    | cons r rs =>
      exact Rels.cons (b := fun i : Party => (Aby3.share x r.1 r.2)[i.val]'(by have := i.isLt; simp [Aby3.share]))
        (.mk' (by simp [Aby3.share]) rfl rfl rfl) (ih rs (by simpa using h))

theorem dealts_ok (xss : List (List (BitVec K))) (rnds : List (List (BitVec K × BitVec K)))
    (h : List.Forall₂ (fun xs rnd => rnd.length = xs.length) xss rnds) :
    Rels (Rels SharesOf) xss (fun i => List.zipWith (fun xs rnd => dealt xs rnd i) xss rnds) := by
  induction h with
  | nil => exact Rels.nil
  | @cons xs rnd xss rnds h _ ih => exact Rels.cons (b := dealt xs rnd) (dealt_ok xs rnd h) ih

/-- End to end: the parties run the PRF set-up with any seeds and then the query, on the shares a client makes with
`share` and any randomness; every party obtains the answer of the plaintext program. -/
theorem C14_end_to_end (hK : 15 ≤ K) (signed : Bool) (q : IrisCode) (db : List IrisCode) (hne : db ≠ [])
    (hm : ∀ c ∈ db, 8960 ≤ commonBits c q) (rnd : List (BitVec K × BitVec K)) (hr : rnd.length = 12800)
    (rnds : List (List (BitVec K × BitVec K))) (hrs : rnds.length = db.length) (hrl : ∀ r ∈ rnds, r.length = 12800)
    (seeds : Party → Bytes) (hs : ∀ i, (seeds i).length = 32) (st : Party → Aby3St G)
    (cs : Nat) (hcs : cs ≠ 0) (hov : (db.length + cs) * (2 * K) < 2 ^ 64) :
    EverySchedule (fun i => do
        Aby3.preprocess i (seeds i)
        Iris.irisInDb (Aby3.ops G K signed i) (dealt (encode K q.code) rnd i)
          (List.zipWith (fun c r => dealt (encode K c.code) r i) db rnds) q.mask (db.map fun c => c.mask) cs) st
      (fun r _ => ∀ i, findMatch q db false = .ok (r i)) := by
  have hb : Rels (Rels SharesOf) (db.map fun c => encode K c.code)
      (fun i => List.zipWith (fun c r => dealt (encode K c.code) r i) db rnds) := by
    have := dealts_ok (db.map fun c => encode K c.code) rnds (by
      rw [List.forall₂_map_left_iff]
      refine List.forall₂_iff_zip.2 ⟨hrs.symm, fun {c r} h => ?_⟩
      rw [hrl r (List.of_mem_zip h).2, MpcLawful.encode_length]; rfl)
    simpa only [List.zipWith_map_left] using this
  refine WPS.allSchedules (WPS.bind ((Aby3.setup_wp seeds hs st).mono ?_))
  rintro _ st' rfl
  refine ((Aby3.mpcLawful G (by omega) signed).irisInDb_wp hK le_rfl
    (dealt_ok _ rnd (by rw [hr, MpcLawful.encode_length]; rfl)) hne hm hb hcs trivial hov trivial ?_).mono ?_
  · exact fun _ => rfl
  · rintro r st'' ⟨h, -⟩ i
    rw [C19_find_match q db hm, h i, inDb]

/-- `compare_iris_many`: one shared match bit per entry. -/
theorem C14_compare_iris_many (hK : 15 ≤ K) (signed : Bool) (q : IrisCode) (cs : List IrisCode) (hne : cs ≠ [])
    (hm : ∀ c ∈ cs, 8960 ≤ commonBits q c) (a : Party → List (AShare K)) (b : Party → List (List (AShare K)))
    (ha : Rels SharesOf (encode K q.code) a) (hb : Rels (Rels SharesOf) (cs.map fun c => encode K c.code) b)
    (st : Party → Aby3St G) (hst : Aby3Ready st) :
    EverySchedule (fun i => Iris.compareIrisMany (Aby3.ops G K signed i) (a i) (b i) q.mask (cs.map fun c => c.mask)) st
      (fun r st' => Rels BinSharesOf
        (cs.map fun c => bitOf (decide (hammingDistance q c < 34 * commonBits q c / 100))) r ∧ Aby3Ready st') :=
  ((Aby3.mpcLawful G (by omega) signed).compareIrisMany_wp (n := 0) (u := 0) hK le_rfl ha hne hm hb hst).allSchedules

/-- `compare_iris`: the match bit of one pair. -/
theorem C14_compare_iris (hK : 15 ≤ K) (signed : Bool) (q c : IrisCode) (hm : 8960 ≤ commonBits q c)
    (a b : Party → List (AShare K)) (ha : Rels SharesOf (encode K q.code) a) (hb : Rels SharesOf (encode K c.code) b)
    (st : Party → Aby3St G) (hst : Aby3Ready st) :
    EverySchedule (fun i => Iris.compareIris (Aby3.ops G K signed i) (a i) (b i) q.mask c.mask) st
      (fun r st' => BinSharesOf (bitOf (decide (hammingDistance q c < 34 * commonBits q c / 100))) r ∧ Aby3Ready st') := by
  refine WPS.allSchedules ?_
  unfold Iris.compareIris
  refine WPS.bind (((Aby3.mpcLawful G (by omega) signed).compareIrisMany_wp (n := 0) (u := 0) (cs := [c])
    (b := fun i => [b i]) hK le_rfl ha (by simp) (by simpa using hm) (Rels.singleton hb) hst).mono ?_)
  rintro r st' ⟨hr, hst'⟩
  obtain ⟨r1, r2, h1, h2, rfl⟩ := hr.uncons
  exact WPS.lift (a := r1) (fun i => rfl) ⟨h1, hst'⟩

/-- Full masks, and a database of any size made of such entries, meet the hypotheses. -/
theorem fullMask_common (c d : IrisCodeArray) : commonBits ⟨c, IrisCodeArray.ones⟩ ⟨d, IrisCodeArray.ones⟩ = 12800 := by
  rw [← countOnes_masks, C17_count_ones, count_bitList]
  have : ∀ i, (IrisCodeArray.and IrisCodeArray.ones IrisCodeArray.ones).bitAt i = true := fun i => by
    rw [(C17_bitwise _ _ i).1, (C17_bitwise IrisCodeArray.zero IrisCodeArray.zero i).2.2.2]; rfl
  rw [List.countP_eq_length.2 (fun i _ => this i), List.length_finRange]

example (c : IrisCodeArray) : let e : IrisCode := ⟨c, IrisCodeArray.ones⟩
    [e, e, e] ≠ [] ∧ (∀ d ∈ [e, e, e], 8960 ≤ commonBits d e) ∧
    Rels SharesOf (encode 16 e.code) (fun i => (encode 16 e.code).map (exShare · i)) ∧
    ([e, e, e].length + 128) * (2 * 16) < 2 ^ 64 ∧ Aby3Ready exSt := by
  refine ⟨by simp, fun d hd => ?_, exShares_ok _, by simp, exSt_ready⟩
  have : d = ⟨c, IrisCodeArray.ones⟩ := by simpa using hd
  rw [this, fullMask_common]; omega

/-! ## C15: the distance does not wrap -/

/-- The shared distance is the number of differing common valid positions, as an element of the ring whose
representative is that number. -/
theorem C15_hamming_many (hK : 15 ≤ K) (signed : Bool) (q : IrisCode) (cs : List IrisCode) (hne : cs ≠ [])
    (a : Party → List (AShare K)) (b : Party → List (List (AShare K)))
    (ha : Rels SharesOf (encode K q.code) a) (hb : Rels (Rels SharesOf) (cs.map fun c => encode K c.code) b)
    (st : Party → Aby3St G) (hst : Aby3Ready st) :
    EverySchedule (fun i => Iris.hammingMany (Aby3.ops G K signed i) (a i) (b i) (cs.map fun c => q.mask.and c.mask)) st
      (fun r st' => Rels (fun c s => ∃ x : BitVec K, SharesOf x s ∧ x.toNat = hammingDistance q c) cs r ∧ Aby3Ready st') := by
  refine WPS.allSchedules (((Aby3.mpcLawful G (by omega) signed).hammingMany_wp (n := 0) (u := 0) hK ha hne hb hst).mono ?_)
  rintro r st' ⟨⟨js, hjs, rfl⟩, hst'⟩
  refine ⟨⟨js, ?_, rfl⟩, hst'⟩
  rw [List.forall₂_map_left_iff] at hjs
  refine hjs.imp fun c s hs => ⟨_, hs, ?_⟩
  rw [BitVec.toNat_ofNat, Nat.mod_eq_of_lt]
  have h1 := hammingDistance_le q c
  have h14 : (2 : Nat) ^ 15 ≤ 2 ^ K := Nat.pow_le_pow_right (by omega) hK
  omega

/-- `hamming_distance` (no masks): all 12800 positions count. -/
theorem C15_hamming_distance (hK : 15 ≤ K) (signed : Bool) (p c : IrisCodeArray)
    (a b : Party → List (AShare K)) (ha : Rels SharesOf (encode K p) a) (hb : Rels SharesOf (encode K c) b)
    (st : Party → Aby3St G) (hst : Aby3Ready st) :
    EverySchedule (fun i => Iris.hammingDist (Aby3.ops G K signed i) (a i) (b i)) st
      (fun r st' => (∃ x : BitVec K, SharesOf x r ∧
        x.toNat = (List.finRange 12800).countP fun i => p.bitAt i != c.bitAt i) ∧ Aby3Ready st') := by
  refine WPS.allSchedules ?_
  unfold Iris.hammingDist
  have hw := (Aby3.mpcLawful G (by omega) signed).hammingMany_wp (n := 0) (u := 0) (q := ⟨p, IrisCodeArray.ones⟩)
    (cs := [⟨c, IrisCodeArray.ones⟩]) (b := fun i => [b i]) hK ha (by simp) (Rels.singleton hb) hst
  have hm : IrisCodeArray.ones.and IrisCodeArray.ones = IrisCodeArray.ones := by
    apply C17_ext; intro i; rw [(C17_bitwise _ _ i).1, Bool.and_self]
  simp only [List.map_cons, List.map_nil, hm] at hw
  refine WPS.bind (hw.mono ?_)
  rintro r st' ⟨hr, hst'⟩
  obtain ⟨r1, r2, h1, h2, rfl⟩ := hr.uncons
  refine WPS.lift (a := r1) (fun i => rfl) ⟨⟨_, h1, ?_⟩, hst'⟩
  have hd := distance_full p c
  rw [← hd, BitVec.toNat_ofNat, Nat.mod_eq_of_lt]
  have h1 := hammingDistance_le ⟨p, IrisCodeArray.ones⟩ ⟨c, IrisCodeArray.ones⟩
  have h14 : (2 : Nat) ^ 15 ≤ 2 ^ K := Nat.pow_le_pow_right (by omega) hK
  omega

/-- The sign bit of distance minus threshold is the comparison. -/
theorem C15_sign (hK : 15 ≤ K) (q c : IrisCode) :
    (BitVec.ofNat K (hammingDistance q c) - BitVec.ofNat K (matchThreshold (commonBits q c))).msb
      = decide (hammingDistance q c < 34 * commonBits q c / 100) := by
  have h := C18_match_threshold (commonBits q c) (commonBits_le q c)
  have := commonBits_le q c
  rw [msb_sub_lt hK _ _ (hammingDistance_le q c) (by rw [h]; omega), h]

/-- The bound on the width is needed: with 14 bits a distance of 12800 against the largest threshold 4352 would
be taken for a match. -/
theorem C15_width_needed : (BitVec.ofNat 14 12800 - BitVec.ofNat 14 4352).msb ≠ decide (12800 < 4352) := by decide

/-- The same comparison for signed and unsigned readings: the difference, read as a signed number, is exact. -/
theorem C15_signed_exact (hK : 15 ≤ K) (d t : Nat) (hd : d ≤ 12800) (ht : t ≤ 12800) :
    (BitVec.ofNat K d - BitVec.ofNat K t).toInt = (d : Int) - t := by
  have h14 : (2 : Nat) ^ 14 ≤ 2 ^ (K - 1) := Nat.pow_le_pow_right (by omega) (by omega)
  have hp : (2 : Nat) ^ K = 2 * 2 ^ (K - 1) := by rw [← Nat.pow_succ']; congr 1; omega
  rw [BitVec.toInt_eq_toNat_cond, BitVec.toNat_sub, BitVec.toNat_ofNat, BitVec.toNat_ofNat,
    Nat.mod_eq_of_lt (a := d) (by omega), Nat.mod_eq_of_lt (a := t) (by omega)]
  by_cases h : d < t
  · rw [Nat.mod_eq_of_lt (by omega)]
    split <;> omega
  · have : 2 ^ K - t + d = 2 ^ K + (d - t) := by omega
    rw [this, Nat.add_mod_left, Nat.mod_eq_of_lt (by omega)]
    split <;> omega

/-! ## C16: validation -/

/-- `IrisProtocol::new` accepts exactly the rings of at least 15 bits, i.e. with a sign bit above all distances. -/
theorem C16_new (K : Nat) : (Iris.new K = .ok () ↔ 15 ≤ K) ∧ (Iris.new K = .error .config ↔ K < 15) := by
  have h1 : ¬ ratio34 ≥ 2 ^ 54 := by decide
  have h2 : ¬ ratio34 = 0 := by decide
  have h3 : ceilLog2 irisCodeSize = 14 := by decide +kernel
  unfold Iris.new
  by_cases h : K ≤ 14
  · rw [if_pos (by rw [h3]; tauto)]; simp; omega
  · rw [if_neg (by rw [h3]; tauto)]; simp; omega

variable {σ A B : Type}

/-- An empty database, or a number of masks different from the number of codes, is rejected before anything is
sent; this holds for every backend. -/
theorem C16_size (o : MpcOps σ A B K) (a : List A) (b : List (List A)) (m : IrisCodeArray) (ms : List IrisCodeArray)
    (cs : Nat) (h : b = [] ∨ b.length ≠ ms.length) :
    FailsAtOnce (Iris.irisInDb o a b m ms cs) .invalidSize ∧
    FailsAtOnce (Iris.compareIrisMany o a b m ms) .invalidSize := by
  have hc : b.length ≠ ms.length ∨ b.length = 0 := by
    rcases h with rfl | h
    · exact .inr rfl
    · exact .inl h
  constructor
  · unfold Iris.irisInDb; rw [if_pos hc]; exact .throw _
  · unfold Iris.compareIrisMany; rw [if_pos hc]; exact .throw _

/-- A mask check that fails is noticed before the first message of that comparison; every backend. -/
theorem C16_mask (o : MpcOps σ A B K) (a : List A) (b : List (List A)) (q : IrisCode) (cs : List IrisCode)
    (hl : b.length = cs.length) (h : ∃ c ∈ cs, commonBits q c < 8960) :
    FailsAtOnce (Iris.compareIrisMany o a b q.mask (cs.map fun c => c.mask)) .maskHW :=
  MpcLawful.compareIrisMany_maskHW o a b q cs hl h

theorem C16_mask_one (o : MpcOps σ A B K) (a b : List A) (q c : IrisCode) (h : commonBits q c < 8960) :
    FailsAtOnce (Iris.compareIris o a b q.mask c.mask) .maskHW :=
  (C16_mask o a [b] q [c] rfl ⟨c, by simp, h⟩).bind_left

/-- Over ABY3 a query with one such entry anywhere in the database ends, under every schedule, with the mask error at
every party: nobody gets an answer. (Comparisons of earlier chunks are sent before.) -/
theorem C16_mask_query (hK : 15 ≤ K) (signed : Bool) (q : IrisCode) (db : List IrisCode)
    (hm : ∃ c ∈ db, commonBits c q < 8960) (a : Party → List (AShare K)) (b : Party → List (List (AShare K)))
    (ha : Rels SharesOf (encode K q.code) a) (hb : Rels (Rels SharesOf) (db.map fun c => encode K c.code) b)
    (cs : Nat) (hcs : cs ≠ 0) (hov : (db.length + cs) * (2 * K) < 2 ^ 64) (st : Party → Aby3St G)
    (hst : Aby3Ready st) :
    EveryScheduleFails
      (fun i => Iris.irisInDb (Aby3.ops G K signed i) (a i) (b i) q.mask (db.map fun c => c.mask) cs) st .maskHW :=
  ((Aby3.mpcLawful G (by omega) signed).irisInDb_fails hK le_rfl ha hm hb hcs hov hst).every

/-- A chunk size of zero panics (division by zero in the gate count) before anything is sent. -/
theorem C16_chunk_zero (o : MpcOps σ A B K) (a : List A) (b : List (List A)) (m : IrisCodeArray)
    (ms : List IrisCodeArray) (hb : b ≠ []) (hl : b.length = ms.length) :
    FailsAtOnce (Iris.irisInDb o a b m ms 0) .panic := by
  unfold Iris.irisInDb
  rw [if_neg (by simp [← hl, hb])]
  refine .bind_left (.lift ?_)
  unfold Iris.numAndTriples Iris.msbAndGates usizeE
  split <;> rfl

private theorem maskedDotLoop_rejects (a : List (AShare K)) (ps : List (List (AShare K) × IrisCodeArray))
    (h : ∃ p ∈ ps, a.length ≠ p.1.length) (s : Aby3St G) :
    Aby3.maskedDotLoop a ps s = .fail .invalidSize := by
  induction ps generalizing s with
  | nil => simp at h
  | cons p ps ih =>
    obtain ⟨b, m⟩ := p
    unfold Aby3.maskedDotLoop
    by_cases hab : a.length = b.length
    · have h' : ∃ p ∈ ps, a.length ≠ p.1.length := by
        obtain ⟨p, hp, hne⟩ := h
        rcases List.mem_cons.1 hp with rfl | hp
        · exact absurd hab hne
        · exact ⟨p, hp, hne⟩
      simp [Aby3.genZero, Proto.step, hab, StateT.bind, bind, Prog.bind, ih h']
    · simp [Aby3.genZero, Proto.step, hab, Proto.throw, StateT.bind, bind, Prog.bind]

/-- Over ABY3 a query or a database entry of the wrong length is rejected before anything is sent. -/
theorem C16_code_length (me : Party) (signed : Bool) (a : List (AShare K)) (b : List (List (AShare K)))
    (masks : List IrisCodeArray) (hl : b.length = masks.length)
    (h : a.length ≠ 12800 ∨ ∃ c ∈ b, c.length ≠ 12800) :
    FailsAtOnce (Iris.hammingMany (Aby3.ops G K signed me) a b masks) .invalidSize := by
  refine .bind_left ?_
  show FailsAtOnce (Aby3.maskedDotMany me a b masks) _
  unfold Aby3.maskedDotMany
  by_cases ha : a.length = 12800
  · rw [if_neg (by rw [ha]; simp [irisCodeSize])]
    refine .bind_left fun s => maskedDotLoop_rejects a _ ?_ s
    obtain ⟨c, hc, hne⟩ := h.resolve_left (by simp [ha])
    obtain ⟨k, hk, rfl⟩ := List.mem_iff_getElem.1 hc
    refine ⟨(b[k], masks[k]'(by omega)), ?_, by simp only [ha]; exact fun h => hne h.symm⟩
    rw [List.mem_iff_getElem]
    exact ⟨k, by simp; omega, by simp⟩
  · rw [if_pos (by simpa [irisCodeSize] using ha)]; exact .throw _

/-- Entries with an empty mask have no common valid bits. -/
example (c d : IrisCodeArray) : commonBits ⟨c, IrisCodeArray.zero⟩ ⟨d, IrisCodeArray.ones⟩ < 8960 := by
  rw [← countOnes_masks, C17_count_ones, count_bitList]
  have : ∀ i, (IrisCodeArray.and IrisCodeArray.zero IrisCodeArray.ones).bitAt i = false := fun i => by
    rw [(C17_bitwise _ _ i).1]
    have : IrisCodeArray.zero.bitAt i = false := by simp [IrisCodeArray.bitAt, IrisCodeArray.zero]
    rw [this]; rfl
  rw [List.countP_eq_zero.2 (fun i _ => by rw [this i]; simp)]; omega

example : Iris.new 16 = .ok () ∧ Iris.new 8 = .error .config := ⟨(C16_new 16).1.2 (by omega), (C16_new 8).2.2 (by omega)⟩

/-! ## C53: the plaintext backend -/

theorem netFree_dotManyLoop (ps : List (List (BitVec K) × List (BitVec K))) : NetFree (PlainMpc.dotManyLoop ps) := by
  induction ps with
  | nil => exact .pure _
  | cons p ps ih =>
    exact .bind (.ite (.throw _) (.pure _)) fun _ => .bind ih fun _ => .pure _

theorem netFree_compareIrisMany (signed : Bool) (a : List (BitVec K)) (b : List (List (BitVec K)))
    (m : IrisCodeArray) (ms : List IrisCodeArray) :
    NetFree (Iris.compareIrisMany (PlainMpc.ops K signed) a b m ms) := by
  unfold Iris.compareIrisMany
  refine .ite (.throw _) (.bind (.lift _) fun _ => .bind ?_ fun _ => ?_)
  · refine .bind (.bind (.lift _) fun _ => .ite (.throw _) (netFree_dotManyLoop _)) fun _ => .lift _
  · exact .ite (.throw _) (.bind .get fun _ => .bind (.lift _) fun _ => .pure _)

theorem netFree_chunkLoop (signed : Bool) (a : List (BitVec K)) (m : IrisCodeArray)
    (ps : List (List (List (BitVec K)) × List IrisCodeArray)) :
    NetFree (Iris.chunkLoop (PlainMpc.ops K signed) a m ps) := by
  induction ps with
  | nil => exact .pure _
  | cons p ps ih =>
    exact .bind (netFree_compareIrisMany signed a p.1 m p.2) fun _ => .bind ih fun _ => .pure _

theorem netFree_irisInDb (signed : Bool) (a : List (BitVec K)) (b : List (List (BitVec K)))
    (m : IrisCodeArray) (ms : List IrisCodeArray) (cs : Nat) :
    NetFree (Iris.irisInDb (PlainMpc.ops K signed) a b m ms cs) := by
  unfold Iris.irisInDb
  refine .ite (.throw _) (.bind (.lift _) fun _ => .bind (.pure _) fun _ => .bind (.lift _) fun _ =>
    .bind (.lift _) fun _ => .bind (netFree_chunkLoop _ _ _ _) fun _ => .bind (.pure _) fun _ =>
    .bind (NetFree.unwrap (.pure _)) fun _ => .pure _)

/-- The protocol code over the plaintext backend returns, without any network, the answer of the plaintext matching
program. -/
theorem C53_plain_backend (hK : 15 ≤ K) (signed : Bool) (q : IrisCode) (db : List IrisCode) (hne : db ≠ [])
    (hm : ∀ c ∈ db, 8960 ≤ commonBits c q) (cs : Nat) (hcs : cs ≠ 0) (hov : (db.length + cs) * (2 * K) < 2 ^ 64) :
    Returns (Iris.irisInDb (PlainMpc.ops K signed) (encode K q.code) (db.map fun c => encode K c.code) q.mask
      (db.map fun c => c.mask) cs) () (inDb q db) ∧ findMatch q db false = .ok (inDb q db) := by
  refine ⟨?_, by rw [C19_find_match q db hm, inDb]⟩
  have h := (PlainMpc.lawful hK signed).irisInDb_wp (a := fun _ => encode K q.code)
    (b := fun _ => db.map fun c => encode K c.code) (st := fun _ => ()) hK le_rfl (PlainMpc.rels_holds.2 fun _ => rfl)
    hne hm (PlainMpc.rels_rels_holds.2 fun _ => rfl) hcs trivial hov trivial trivial
  obtain ⟨r, s', e, hr, -⟩ := (netFree_irisInDb signed _ _ _ _ cs).returns h
  exact ⟨s', by rw [e]; exact congrArg (fun b => Prog.ret (b, s')) (hr 0)⟩

/-- Also the mask error is the same as over ABY3. -/
theorem C53_plain_mask (hK : 15 ≤ K) (signed : Bool) (q : IrisCode) (db : List IrisCode)
    (hm : ∃ c ∈ db, commonBits c q < 8960) (cs : Nat) (hcs : cs ≠ 0) (hov : (db.length + cs) * (2 * K) < 2 ^ 64) :
    FailsAtOnce (Iris.irisInDb (PlainMpc.ops K signed) (encode K q.code) (db.map fun c => encode K c.code) q.mask
      (db.map fun c => c.mask) cs) .maskHW := by
  intro s
  have h := (PlainMpc.lawful hK signed).irisInDb_fails (a := fun _ => encode K q.code)
    (b := fun _ => db.map fun c => encode K c.code) (st := fun _ => s) hK le_rfl (PlainMpc.rels_holds.2 fun _ => rfl)
    hm (PlainMpc.rels_rels_holds.2 fun _ => rfl) hcs hov trivial
  obtain ⟨n, ch, hn⟩ := h
  have heq := hn.eq_of_stuck (Config.stuck_of_done fun i => netFree_irisInDb signed _ _ _ _ cs s)
  exact congrArg (fun c => c.prog 0) heq

/-- Over the plaintext backend inner products are exact: `dot` is the sum of products. -/
theorem C53_dot (xs ys : List (BitVec K)) (h : xs.length = ys.length) :
    Returns (PlainMpc.dot xs ys) () (List.zipWith (· * ·) xs ys).sum := by
  refine ⟨(), ?_⟩
  unfold PlainMpc.dot
  rw [if_neg (by simp [h]), PlainMpc.dotLoop_eq, zero_add]; rfl

example : PlainMpc.checkedAdd true (0x7FFF : BitVec 16) 1 = .error .panic ∧
    PlainMpc.checkedAdd false (0x7FFF : BitVec 16) 1 = .ok 0x8000 := by decide

end Verif
