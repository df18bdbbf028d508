import Verif.Props.Spdz

/-! # C29, C54: the protocols of the SPDZ-wise backend and its supply of AND triples -/

namespace Verif

open Jmp Spdz

variable {G : Prg} {H : Hash} {V K : Nat}

attribute [local irreducible] hammingDistance commonBits encode

/-! ## C54: operations -/

/-- `input` by party `id`: everyone gets shares, with valid MACs, of the input converted to the verification ring. -/
theorem C54_input (signed : Bool) (id : Party) (x : BitVec K) (inp : Party → Option (BitVec K)) (hx : inp id = some x)
    (key : BitVec V) (p u : Nat) (st : Party → SpdzSt G V) (hst : SpdzOk key p u st) :
    EverySchedule (fun i => Spdz.input signed i (inp i) id.val) st
      (fun s st' => MacSharesOf key (if signed then x.signExtend V else x.setWidth V) s ∧ SpdzOk key p u st') :=
  (input_wp signed hx hst).allSchedules

/-- `input_all`: the inputs of all three parties. -/
theorem C54_input_all (signed : Bool) (x : Party → BitVec K) (key : BitVec V) (p u : Nat) (st : Party → SpdzSt G V)
    (hst : SpdzOk key p u st) :
    EverySchedule (fun i => Spdz.inputAll signed i (x i)) st (fun s st' => Rels (MacSharesOf key)
      ([x 0, x 1, x 2].map fun x => if signed then x.signExtend V else x.setWidth V) s ∧ SpdzOk key p u st') :=
  (inputAll_wp signed x hst).allSchedules

/-- What is input is opened: the truncation undoes both conversions. -/
theorem C54_input_open (hKV : K ≤ V) (signed : Bool) (id : Party) (x : BitVec K) (inp : Party → Option (BitVec K))
    (hx : inp id = some x) (key : BitVec V) (p u : Nat) (st : Party → SpdzSt G V) (hst : SpdzOk key p u st) :
    EverySchedule (fun i => do
        let s ← Spdz.input signed i (inp i) id.val
        Spdz.openShare H K i s) st (fun o st' => (∀ i, o i = x) ∧ SpdzOk key p u st') := by
  refine WPS.allSchedules (WPS.bind ((input_wp signed hx hst).mono ?_))
  rintro s st' ⟨hs, hst'⟩
  refine (open_wp hst' hs).mono ?_
  rintro o st'' ⟨ho, h⟩
  refine ⟨fun i => ?_, h⟩
  rw [ho i]
  unfold toVerifShare
  split
  · apply BitVec.eq_of_getLsbD_eq
    intro k hk
    simp only [BitVec.getLsbD_setWidth, BitVec.getLsbD_signExtend]
    rw [if_pos hk]
    simp [hk, show k < V by omega]
  · rw [BitVec.setWidth_setWidth_of_le x hKV, BitVec.setWidth_eq]

/-- `mul`. -/
theorem C54_mul (key x y : BitVec V) (a b : Party → SShare V) (ha : MacSharesOf key x a) (hb : MacSharesOf key y b)
    (p u : Nat) (st : Party → SpdzSt G V) (hst : SpdzOk key p u st) :
    EverySchedule (fun i => Spdz.mul i (a i) (b i)) st (fun c st' => MacSharesOf key (x * y) c ∧ SpdzOk key p u st') :=
  (mul_wp hst ha hb).allSchedules

/-- `dot`. -/
theorem C54_dot (key : BitVec V) (xs ys : List (BitVec V)) (hl : xs.length = ys.length) (a b : Party → List (SShare V))
    (ha : Rels (MacSharesOf key) xs a) (hb : Rels (MacSharesOf key) ys b) (p u : Nat) (st : Party → SpdzSt G V)
    (hst : SpdzOk key p u st) :
    EverySchedule (fun i => Spdz.dot i (a i) (b i)) st
      (fun c st' => MacSharesOf key (List.zipWith (· * ·) xs ys).sum c ∧ SpdzOk key p u st') :=
  (dot_wp hst ha hb hl).allSchedules

/-- `dot_many`. -/
theorem C54_dot_many (key : BitVec V) (xss yss : List (List (BitVec V)))
    (hl : List.Forall₂ (fun xs ys => xs.length = ys.length) xss yss) (a b : Party → List (List (SShare V)))
    (ha : Rels (Rels (MacSharesOf key)) xss a) (hb : Rels (Rels (MacSharesOf key)) yss b) (p u : Nat)
    (st : Party → SpdzSt G V) (hst : SpdzOk key p u st) :
    EverySchedule (fun i => Spdz.dotMany i (a i) (b i)) st
      (fun c st' => Rels (MacSharesOf key) (List.zipWith (fun xs ys => (List.zipWith (· * ·) xs ys).sum) xss yss) c ∧
        SpdzOk key p u st') :=
  (dotMany_wp hst ha hb hl).allSchedules

/-- `masked_dot_many`: the dot products over the positions selected by each mask. -/
theorem C54_masked_dot_many (key : BitVec V) (xs : List (BitVec V)) (hx : xs.length = 12800)
    (yss : List (List (BitVec V))) (hl : ∀ ys ∈ yss, ys.length = 12800) (masks : List IrisCodeArray)
    (hm : yss.length = masks.length) (a : Party → List (SShare V)) (b : Party → List (List (SShare V)))
    (ha : Rels (MacSharesOf key) xs a) (hb : Rels (Rels (MacSharesOf key)) yss b) (p u : Nat)
    (st : Party → SpdzSt G V) (hst : SpdzOk key p u st) :
    EverySchedule (fun i => Spdz.maskedDotMany i (a i) (b i) masks) st
      (fun c st' => Rels (MacSharesOf key) (List.zipWith (fun ys (m : IrisCodeArray) =>
        maskedSum (IrisCodeArray.bitList m) (List.zipWith (· * ·) xs ys)) yss masks) c ∧ SpdzOk key p u st') :=
  (maskedDotMany_wp hx ha hst hb hl hm).allSchedules

/-- `and`: the gate is recorded for verification. -/
theorem C54_and (hK1 : 1 ≤ K) (hK : K ≤ 128) (x y : BitVec K) (a b : Party → AShare K) (ha : BinSharesOf x a)
    (hb : BinSharesOf y b) (key : BitVec V) (p u : Nat) (st : Party → SpdzSt G V) (hst : SpdzOk key p u st) :
    EverySchedule (fun i => Spdz.and i (a i) (b i)) st
      (fun c st' => BinSharesOf (x &&& y) c ∧ SpdzOk key p (u + K) st') :=
  (and_wp hK1 hK hst ha hb).allSchedules

/-- `and_many`. -/
theorem C54_and_many (hK1 : 1 ≤ K) (hK : K ≤ 128) (xs ys : List (BitVec K)) (hl : xs.length = ys.length)
    (a b : Party → List (AShare K)) (ha : Rels BinSharesOf xs a) (hb : Rels BinSharesOf ys b) (key : BitVec V) (p u : Nat)
    (st : Party → SpdzSt G V) (hst : SpdzOk key p u st) :
    EverySchedule (fun i => Spdz.andMany i (a i) (b i)) st
      (fun c st' => Rels BinSharesOf (List.zipWith (· &&& ·) xs ys) c ∧ SpdzOk key p (u + K * xs.length) st') :=
  (andMany_wp hK1 hK hst ha hb hl).allSchedules

/-- `arithmetic_to_binary`. -/
theorem C54_a2b (hK1 : 1 ≤ K) (hK : K ≤ 128) (x : BitVec K) (a : Party → AShare K) (ha : SharesOf x a) (key : BitVec V)
    (p u : Nat) (st : Party → SpdzSt G V) (hst : SpdzOk key p u st) :
    EverySchedule (fun i => Spdz.a2b i (a i)) st (fun b st' => BinSharesOf x b ∧ ∃ u', SpdzOk key p u' st') :=
  ((a2b_wp hK1 hK hst ha).mono fun _ _ h => ⟨h.1, _, h.2⟩).allSchedules

/-- `get_msb`. -/
theorem C54_get_msb (hK1 : 1 ≤ K) (hK : K ≤ 128) (hKV : K ≤ V) (key x : BitVec V) (a : Party → SShare V)
    (ha : MacSharesOf key x a) (p u : Nat) (st : Party → SpdzSt G V) (hst : SpdzOk key p u st) :
    EverySchedule (fun i => Spdz.getMsb H K i (a i)) st
      (fun b st' => BinSharesOf (bitOf (x.setWidth K).msb) b ∧ ∃ u', SpdzOk key p u' st') :=
  ((getMsb_wp hK1 hK hKV hst ha).mono fun _ _ h => ⟨h.1, _, h.2⟩).allSchedules

/-- `get_msb_many`: the sign bits of the truncated values; the exact number of AND gates recorded. -/
theorem C54_get_msb_many (hK : 3 ≤ K) (hKV : K ≤ V) (key : BitVec V) (xs : List (BitVec V)) (hne : xs ≠ [])
    (a : Party → List (SShare V)) (ha : Rels (MacSharesOf key) xs a) (p u : Nat) (st : Party → SpdzSt G V)
    (hst : SpdzOk key p u st) :
    EverySchedule (fun i => Spdz.getMsbMany H K i (a i)) st
      (fun b st' => Rels BinSharesOf (xs.map fun x => bitOf (x.setWidth K).msb) b ∧
        SpdzOk key p (u + 128 * ((2 * K - 3) * ((xs.length + 127) / 128))) st') :=
  (getMsbMany_wp hK hKV hne hst ha).allSchedules

/-- `reduce_binary_or`. -/
theorem C54_reduce_binary_or (bits : List (BitVec 1)) (hne : bits ≠ []) (a : Party → List (AShare 1))
    (ha : Rels BinSharesOf bits a) (cs : Nat) (hcs : cs ≠ 0) (key : BitVec V) (p u : Nat) (st : Party → SpdzSt G V)
    (hst : SpdzOk key p u st) :
    EverySchedule (fun i => Spdz.reduceBinaryOr i (a i) cs) st
      (fun c st' => BinSharesOf (bitOf (bits.any bitVal)) c ∧
        SpdzOk key p (u + (128 * ((bits.length + 127) / 128) - 1)) st') := by
  refine ((reduceBinaryOr_wp hcs hne hst ha).mono ?_).allSchedules
  rintro c st' ⟨h, h'⟩
  have hpos : 0 < bits.length := List.length_pos_iff.2 hne
  refine ⟨h, ?_⟩
  rwa [show 128 * ((bits.length + 127) / 128) - 1 = 128 * ((bits.length + 127) / 128 - 1) + 127 by omega]

/-- `open`, `open_many`, `open_bit`. -/
theorem C54_open (key x : BitVec V) (s : Party → SShare V) (hs : MacSharesOf key x s) (p u : Nat)
    (st : Party → SpdzSt G V) (hst : SpdzOk key p u st) :
    EverySchedule (fun i => Spdz.openShare H K i (s i)) st (fun o st' => (∀ i, o i = x.setWidth K) ∧ SpdzOk key p u st') :=
  (open_wp hst hs).allSchedules

theorem C54_open_many (key : BitVec V) (xs : List (BitVec V)) (s : Party → List (SShare V))
    (hs : Rels (MacSharesOf key) xs s) (p u : Nat) (st : Party → SpdzSt G V) (hst : SpdzOk key p u st) :
    EverySchedule (fun i => Spdz.openMany H K i (s i)) st
      (fun o st' => (∀ i, o i = xs.map (·.setWidth K)) ∧ SpdzOk key p u st') :=
  (openMany_wp hst hs).allSchedules

theorem C54_open_bit (x : BitVec 1) (s : Party → AShare 1) (hs : BinSharesOf x s) (key : BitVec V) (p u : Nat)
    (st : Party → SpdzSt G V) (hst : SpdzOk key p u st) :
    EverySchedule (fun i => Spdz.openBit H i (s i)) st (fun o st' => (∀ i, o i = bitVal x) ∧ SpdzOk key p u st') :=
  (openBit_wp hst hs).allSchedules

/-- `precompute_and_triples`: valid triples are added, at least 8192 words if there are not already more than
requested. -/
theorem C54_precompute (key : BitVec V) (p u n : Nat) (st : Party → SpdzSt G V) (hst : SpdzOk key p u st) :
    EverySchedule (fun i => Spdz.precompute H i n) st
      (fun _ st' => SpdzOk key (stockAfter p ((n + 127) / 128)) u st') :=
  (precompute_wp hst n).allSchedules

/-- `verify` succeeds if enough triples were precomputed, consuming `max ⌈u/128⌉ 8192` words for `u` recorded bits
(nothing if there are none), and reports `NotEnoughTriples` at every party otherwise. -/
theorem C54_verify (key : BitVec V) (p u : Nat) (st : Party → SpdzSt G V) (hst : SpdzOk key p u st) :
    (u = 0 → EverySchedule (fun i => Spdz.verify H i) st (fun _ st' => SpdzOk key p 0 st')) ∧
    (u ≠ 0 → max ((u + 127) / 128) 8192 ≤ p → EverySchedule (fun i => Spdz.verify H i) st
      (fun _ st' => SpdzOk key (p - max ((u + 127) / 128) 8192) 0 st')) ∧
    (u ≠ 0 → p < max ((u + 127) / 128) 8192 →
      EveryScheduleFails (fun i => Spdz.verify H i) st .notEnoughTriples) := by
  have h8 : minTriples = 8192 := rfl
  refine ⟨fun h0 => ?_, fun h0 h => ?_, fun h0 h => ?_⟩
  · have := (verify_wp (H := H) hst (by simp [usedWords, h0])).allSchedules
    simpa [usedWords, h0] using this
  · have := (verify_wp (H := H) hst (by simpa [usedWords, h0, h8] using h)).allSchedules
    simpa [usedWords, h0, h8] using this
  · exact (verify_fails (H := H) hst (by simpa [usedWords, h0, h8] using h)).every

example : SpdzOk 77#64 0 0 (exSpdzSt 77#64) ∧ MacSharesOf 77#64 1234#64 (exMacShare 77#64 1234#64) :=
  ⟨exSpdzSt_ok _, exMacShare_ok _ _⟩

/-! ## Set-up -/

/-- After `preprocess` (any seeds) and `set_new_mac_key` the state is consistent for some key. -/
theorem C54_setup_new_key (seeds : Party → Bytes) (hs : ∀ i, (seeds i).length = 32) (prf₀ : Prf G) :
    EverySchedule (fun i => do
        Spdz.preprocess i (seeds i)
        Spdz.setNewMacKey) (fun _ => (Spdz.init prf₀ : SpdzSt G V)) (fun _ st' => ∃ key, SpdzOk key 0 0 st') := by
  refine WPS.allSchedules (WPS.bind (WPS.mono (Q := fun _ st' => JmpOk (fun i => (st' i).jmp) ∧
    ∀ i, (st' i).verifyQueue = [] ∧ (st' i).prec = Triples.empty ∧ (st' i).buffer = Triples.empty) ?_ ?_))
  · unfold Spdz.preprocess Aby3.preprocess viaAby viaJmp Jmp.viaPrf
    refine WPS.zoom (WPS.zoom ((Aby3.setup_wp seeds hs _).mono ?_))
    rintro _ _ rfl
    exact ⟨⟨fun _ => rfl, fun _ => rfl⟩, fun _ => ⟨rfl, rfl, rfl⟩⟩
  · rintro _ st1 ⟨hj, h⟩
    refine WPS.bind ((viaJmp_wp' hj fun _ hj => genRand_wp (K := V) hj).mono ?_)
    rintro k _ ⟨hk, j, hj', rfl⟩
    refine WPS.step ⟨(k 0).a + (k 1).a + (k 2).a, hj', ⟨rfl, hk⟩, ⟨[], ?_⟩, ⟨⟨[], [], rfl, rfl, ?_⟩, ?_⟩,
      0, 128, ⟨[], [], rfl, rfl, ?_⟩, ?_, by omega, by omega, rfl⟩
    · simp only [(h _).1]; exact Rels.nil
    · simp only [(h _).2.1]; exact ⟨Rels.nil, Rels.nil, Rels.nil⟩
    · intro i; simp only [(h i).2.1]; rfl
    · simp only [(h _).2.2]; exact ⟨Rels.nil, Rels.nil, Rels.nil⟩
    · intro i; simp only [(h i).2.2]; rfl

theorem setup_key_wp (seeds : Party → Bytes) (hs : ∀ i, (seeds i).length = 32) (prf₀ : Prf G) (key : BitVec V)
    (k : Party → SShare V) (hk : SharesOf key fun i => (k i).mac) :
    WPS (fun i => do
        Spdz.preprocess i (seeds i)
        Spdz.setMacKey (k i)) (fun _ => (Spdz.init prf₀ : SpdzSt G V)) (fun _ st' => SpdzOk key 0 0 st') := by
  refine WPS.bind (WPS.mono (Q := fun _ st' => JmpOk (fun i => (st' i).jmp) ∧
    ∀ i, (st' i).verifyQueue = [] ∧ (st' i).prec = Triples.empty ∧ (st' i).buffer = Triples.empty) ?_ ?_)
  · unfold Spdz.preprocess Aby3.preprocess viaAby viaJmp Jmp.viaPrf
    refine WPS.zoom (WPS.zoom ((Aby3.setup_wp seeds hs _).mono ?_))
    rintro _ _ rfl
    exact ⟨⟨fun _ => rfl, fun _ => rfl⟩, fun _ => ⟨rfl, rfl, rfl⟩⟩
  · rintro _ st1 ⟨hj, h⟩
    refine WPS.step ⟨hj, hk, ⟨[], ?_⟩, ⟨⟨[], [], rfl, rfl, ?_⟩, ?_⟩, 0, 128, ⟨[], [], rfl, rfl, ?_⟩, ?_,
      by omega, by omega, rfl⟩
    · simp only [(h _).1]; exact Rels.nil
    · simp only [(h _).2.1]; exact ⟨Rels.nil, Rels.nil, Rels.nil⟩
    · intro i; simp only [(h i).2.1]; rfl
    · simp only [(h _).2.2]; exact ⟨Rels.nil, Rels.nil, Rels.nil⟩
    · intro i; simp only [(h i).2.2]; rfl

/-- After `preprocess` and `set_mac_key` with shares of `key` the state is consistent for `key`. -/
theorem C54_setup (seeds : Party → Bytes) (hs : ∀ i, (seeds i).length = 32) (prf₀ : Prf G) (key : BitVec V)
    (k : Party → SShare V) (hk : SharesOf key fun i => (k i).mac) :
    EverySchedule (fun i => do
        Spdz.preprocess i (seeds i)
        Spdz.setMacKey (k i)) (fun _ => (Spdz.init prf₀ : SpdzSt G V)) (fun _ st' => SpdzOk key 0 0 st') :=
  (setup_key_wp seeds hs prf₀ key k hk).allSchedules

/-! ## C29: does the supply of AND triples suffice? -/

theorem chunks_sum (f : Nat → Nat) (f0 : f 0 = 0) {cs : Nat} (hcs : cs ≠ 0) (n : Nat) :
    ((chunksOf cs (List.replicate n ())).map fun ch => f ch.length).sum = n / cs * f cs + f (n % cs) := by
  induction n using Nat.strong_induction_on with
  | _ n ih =>
    by_cases h : n = 0
    · subst h; simp [chunksOf_nil, f0]
    · rw [chunksOf_cons hcs (by simpa using h), List.map_cons, List.sum_cons, List.drop_replicate, ih (n - cs) (by omega)]
      simp only [List.length_take, List.length_replicate]
      by_cases hlt : n < cs
      · rw [Nat.min_eq_right (by omega), Nat.sub_eq_zero_of_le (by omega), Nat.div_eq_of_lt hlt, Nat.mod_eq_of_lt hlt]
        simp [f0]
      · rw [Nat.min_eq_left (by omega), ← Nat.mod_eq_sub_mod (by omega), Nat.div_eq_sub_div (a := n) (by omega) (by omega)]
        ring

theorem queryCost_eq {n cs : Nat} (hn : n ≠ 0) (hcs : cs ≠ 0) :
    MpcLawful.queryCost (msbCost K) orCost n cs = 128 * wordsNeeded K n cs - 1 := by
  unfold MpcLawful.queryCost
  rw [chunks_sum (msbCost K) (by simp [msbCost]) hcs]
  unfold wordsNeeded blocksOf msbCost orCost
  generalize (2 * K - 3) = a
  generalize (cs + 127) / 128 = b
  generalize (n % cs + 127) / 128 = c
  have hd : 1 ≤ (n + 127) / 128 := by omega
  generalize (n + 127) / 128 = d at hd
  have : 128 * (a * (n / cs * b + c) + d) = n / cs * (128 * (a * b)) + 128 * (a * c) + 128 * d := by ring
  omega

theorem used_eq {n cs : Nat} (hn : n ≠ 0) (hcs : cs ≠ 0) :
    usedWords (0 + MpcLawful.queryCost (msbCost K) orCost n cs) = max (wordsNeeded K n cs) 8192 := by
  rw [queryCost_eq hn hcs]
  have : 1 ≤ wordsNeeded K n cs := by unfold wordsNeeded; omega
  unfold usedWords
  rw [if_neg (by omega), show (0 + (128 * wordsNeeded K n cs - 1) + 127) / 128 = wordsNeeded K n cs by omega]
  rfl

theorem avail_eq (n cs p : Nat) : avail p (MpcLawful.queryAnds K n cs) = stockAfter p (wordsRequested K n cs) := by
  unfold avail stockAfter wordsRequested MpcLawful.queryAnds minTriples
  rw [Nat.mul_comm K 2]
  rfl

/-- `iris_in_db` over the SPDZ-wise backend with honest parties, started with `p` words of triples left and no AND gates
waiting for verification. If the triples suffice (`EnoughTriples`), every party gets the answer of the plaintext search
under every schedule; otherwise every party panics, under every schedule. -/
theorem C29_exact (hK : 15 ≤ K) (hK2 : K ≤ 128) (signed : Bool) (q : IrisCode) (db : List IrisCode) (hne : db ≠ [])
    (hm : ∀ c ∈ db, 8960 ≤ commonBits c q) (key : BitVec (verifWidth K)) (a : Party → List (SShare (verifWidth K)))
    (b : Party → List (List (SShare (verifWidth K)))) (ha : Rels (MacSharesOf key) (encode (verifWidth K) q.code) a)
    (hb : Rels (Rels (MacSharesOf key)) (db.map fun c => encode (verifWidth K) c.code) b)
    (cs : Nat) (hcs : cs ≠ 0) (hov : (db.length + cs) * (2 * K) < 2 ^ 64) (p : Nat)
    (st : Party → SpdzSt G (verifWidth K)) (hst : SpdzOk key p 0 st) :
    (EnoughTriples K db.length cs p → EverySchedule
      (fun i => Iris.irisInDb (Spdz.ops G H K signed i) (a i) (b i) q.mask (db.map fun c => c.mask) cs) st
      (fun r st' => (∀ i, r i = inDb q db) ∧ SpdzOk key
        (stockAfter p (wordsRequested K db.length cs) - max (wordsNeeded K db.length cs) 8192) 0 st')) ∧
    (¬ EnoughTriples K db.length cs p → EveryScheduleFails
      (fun i => Iris.irisInDb (Spdz.ops G H K signed i) (a i) (b i) q.mask (db.map fun c => c.mask) cs) st .panic) := by
  have hn : db.length ≠ 0 := by simpa using hne
  have hu := used_eq (K := K) hn hcs
  have hA := avail_eq (K := K) db.length cs p
  have hw := verifWidth_ge hK2
  constructor
  · intro h
    refine ((Spdz.mpcLawful G H (by omega) hK2 signed key p 0 _).irisInDb_wp hK hw ha hne hm hb hcs trivial hov
      ⟨?_, rfl⟩ hst).mono ?_ |>.allSchedules
    · simp only [Nat.add_zero]; rw [hu, hA]; exact h
    · rintro r st' ⟨hr, hI⟩
      simp only [Nat.add_zero] at hI
      rw [hu, hA] at hI
      exact ⟨hr, hI⟩
  · intro h
    refine ((Spdz.mpcLawful G H (by omega) hK2 signed key p 0 0).irisInDb_verify_fails (e := .notEnoughTriples) hK hw ha hne hm hb hcs trivial hov
      (fun st' hI => verify_fails hI ?_) hst).every
    simp only [Nat.add_zero]
    rw [hu, hA]
    unfold EnoughTriples at h
    omega

/-- Chunk sizes that are multiples of 128 other than 128 itself: with an empty stock the triples always suffice. -/
theorem C29_multiple (hK : 2 ≤ K) (n k : Nat) (hn : n ≠ 0) (hk : 2 ≤ k) : EnoughTriples K n (128 * k) 0 := by
  have hle : wordsNeeded K n (128 * k) ≤ wordsRequested K n (128 * k) := by
    have hr := Nat.mod_lt n (show 128 * k > 0 by omega)
    have hd := Nat.div_add_mod n (128 * k)
    generalize hm : n / (128 * k) = m at hd
    generalize hr' : n % (128 * k) = r at hr hd
    unfold wordsNeeded wordsRequested blocksOf
    rw [hm, hr']
    have e1 : (128 * k + 127) / 128 = k := by omega
    rw [e1]
    obtain ⟨A, hA⟩ : ∃ A, 2 * K - 3 = A + 1 := ⟨2 * K - 4, by omega⟩
    rw [hA]
    have hmk : 128 * k * m = 128 * (m * k) := by ring
    have dv : ∀ x t : Nat, x = 128 * k * t → ∀ s, s < 128 * k → (x + s) / (128 * k) = t := by
      rintro x t rfl s hs
      rw [Nat.mul_add_div (by omega), Nat.div_eq_of_lt hs, add_zero]
    rcases Nat.lt_or_ge r 2 with h2 | h2
    · rcases Nat.eq_zero_or_pos r with h0 | h0
      · -- a whole number of chunks
        subst h0
        have hm1 : 1 ≤ m := by rcases Nat.eq_zero_or_pos m with h | h; · subst h; omega
                               · exact h
        obtain ⟨m', rfl⟩ : ∃ m', m = m' + 1 := ⟨m - 1, by omega⟩
        have hx : 128 * k * (m' + 1) = 128 * k * m' + 128 * k := by ring
        have d1 : (n + 128 * k - 1) / (128 * k) = m' + 1 := by
          rw [show n + 128 * k - 1 = 128 * k * (m' + 1) + (128 * k - 1) by omega]
          exact dv _ _ rfl _ (by omega)
        have d2 : (n + 128 * k - 2) / (128 * k) = m' + 1 := by
          rw [show n + 128 * k - 2 = 128 * k * (m' + 1) + (128 * k - 2) by omega]
          exact dv _ _ rfl _ (by omega)
        rw [d1, d2]
        have e2 : (n + 127) / 128 = (m' + 1) * k := by omega
        rw [e2]
        have e3 : (m' + 1) * (128 * k) * (A + 1) + (m' + 1) * (128 * k) + 127 = 128 * ((A + 1) * ((m' + 1) * k) + (m' + 1) * k) + 127 := by ring
        rw [e3]
        have e4 : (0 + 127) / 128 = 0 := rfl
        rw [e4, add_zero]
        omega
      · -- one entry in the last chunk
        obtain rfl : r = 1 := by omega
        have d1 : (n + 128 * k - 1) / (128 * k) = m + 1 := by
          have hx : 128 * k * (m + 1) = 128 * k * m + 128 * k := by ring
          rw [show n + 128 * k - 1 = 128 * k * (m + 1) + 0 by omega]
          exact dv _ _ rfl _ (by omega)
        have d2 : (n + 128 * k - 2) / (128 * k) = m := by
          rw [show n + 128 * k - 2 = 128 * k * m + (128 * k - 1) by omega]
          exact dv _ _ rfl _ (by omega)
        rw [d1, d2]
        have e2 : (n + 127) / 128 = m * k + 1 := by omega
        rw [e2]
        have e3 : (m + 1) * (128 * k) * (A + 1) + m * (128 * k) + 127 =
            128 * ((A + 1) * (m * k) + m * k + (A + 1) * k) + 127 := by ring
        rw [e3]
        have e4 : (A + 1) * (m * k + (1 + 127) / 128) + (m * k + 1) = (A + 1) * (m * k) + m * k + (A + 2) := by ring
        rw [e4]
        have e5 : (A + 1) * 2 ≤ (A + 1) * k := Nat.mul_le_mul_left _ hk
        omega
    · have d1 : (n + 128 * k - 1) / (128 * k) = m + 1 := by
        have hx : 128 * k * (m + 1) = 128 * k * m + 128 * k := by ring
        rw [show n + 128 * k - 1 = 128 * k * (m + 1) + (r - 1) by omega]
        exact dv _ _ rfl _ (by omega)
      have d2 : (n + 128 * k - 2) / (128 * k) = m + 1 := by
        have hx : 128 * k * (m + 1) = 128 * k * m + 128 * k := by ring
        rw [show n + 128 * k - 2 = 128 * k * (m + 1) + (r - 2) by omega]
        exact dv _ _ rfl _ (by omega)
      rw [d1, d2]
      have hrk : (r + 127) / 128 ≤ k := by omega
      have e2 : (n + 127) / 128 = m * k + (r + 127) / 128 := by omega
      rw [e2]
      have e3 : (m + 1) * (128 * k) * (A + 1) + (m + 1) * (128 * k) + 127 =
          128 * ((A + 1) * (m * k + k) + (m * k + k)) + 127 := by ring
      rw [e3]
      have e4 : (A + 1) * (m * k + (r + 127) / 128) ≤ (A + 1) * (m * k + k) := Nat.mul_le_mul_left _ (by omega)
      omega
  unfold EnoughTriples stockAfter
  rw [if_pos (by omega)]
  omega

/-- Chunk size 128: with an empty stock the triples suffice exactly if the database does not have one entry more than a
multiple of 128, or is small enough. -/
theorem C29_128 (hK : 2 ≤ K) (n : Nat) :
    EnoughTriples K n 128 0 ↔ n % 128 ≠ 1 ∨ wordsNeeded K n 128 ≤ 8192 := by
  obtain ⟨A, hA⟩ : ∃ A, 2 * K - 3 = A + 1 := ⟨2 * K - 4, by omega⟩
  have hN : wordsNeeded K n 128 = (A + 1) * ((n + 127) / 128) + (n + 127) / 128 := by
    unfold wordsNeeded blocksOf
    rw [hA, show n / 128 * ((128 + 127) / 128) + (n % 128 + 127) / 128 = (n + 127) / 128 by omega]
  have hR : wordsRequested K n 128 = (A + 1) * ((n + 127) / 128) + (n + 126) / 128 := by
    unfold wordsRequested
    rw [hA, show n + 128 - 1 = n + 127 by omega, show n + 128 - 2 = n + 126 by omega]
    have : (n + 127) / 128 * 128 * (A + 1) = 128 * ((A + 1) * ((n + 127) / 128)) := by ring
    omega
  unfold EnoughTriples stockAfter
  rw [if_pos (by omega), hR, hN]
  generalize (A + 1) * ((n + 127) / 128) = B
  have h1 : n % 128 = 1 → (n + 127) / 128 = (n + 126) / 128 + 1 := by omega
  have h2 : n % 128 ≠ 1 → (n + 127) / 128 = (n + 126) / 128 := by omega
  by_cases h : n % 128 = 1
  · have := h1 h
    simp only [h, ne_eq, not_true_eq_false, false_or]
    omega
  · have := h2 h
    simp only [ne_eq, h, not_false_eq_true, true_or, iff_true]
    omega

/-- The claim that the requested triples always suffice is false. From an empty stock over 16 bits: 300 entries in chunks of
one need 8703 words, of which 8192 are there; 34945 entries in chunks of 128 are one word short. -/
theorem C29_counterexamples : ¬ EnoughTriples 16 300 1 0 ∧ ¬ EnoughTriples 16 34945 128 0 ∧
    wordsNeeded 16 34945 128 = wordsRequested 16 34945 128 + 1 := by
  unfold EnoughTriples
  decide

/-- And left-over triples make it worse: after a successful query over one entry with chunk size 51200, which leaves 3408
words, a query over one entry with chunk size 128 fails. -/
theorem C29_left_over : EnoughTriples 16 1 51200 0 ∧
    stockAfter 0 (wordsRequested 16 1 51200) - max (wordsNeeded 16 1 51200) 8192 = 3408 ∧
    ¬ EnoughTriples 16 1 128 3408 := by
  unfold EnoughTriples
  decide

/-- In general a small remaining stock is never refilled. -/
theorem C29_stuck (n cs p : Nat) (h1 : wordsRequested K n cs < p) (h2 : p < 8192) : ¬ EnoughTriples K n cs p := by
  unfold EnoughTriples stockAfter
  rw [if_neg (by omega)]
  omega

/-- A chunk size below 128 makes large queries fail: every chunk takes whole words, but only the bits are requested. -/
theorem C29_small_chunks (hK : 2 ≤ K) (n : Nat) (h : 8192 < (2 * K - 3) * n) :
    ¬ EnoughTriples K n 1 0 := by
  obtain ⟨A, hA⟩ : ∃ A, 2 * K - 3 = A + 1 := ⟨2 * K - 4, by omega⟩
  have hN : wordsNeeded K n 1 = (A + 1) * n + (n + 127) / 128 := by
    unfold wordsNeeded blocksOf
    rw [hA, Nat.mod_one, Nat.div_one]; simp
  have hR : wordsRequested K n 1 = (n * (A + 1) + (n - 1) + 127) / 128 := by
    unfold wordsRequested
    rw [hA, show n + 1 - 1 = n by omega, show n + 1 - 2 = n - 1 by omega]; simp
  rw [hA] at h
  unfold EnoughTriples stockAfter
  rw [if_pos (by omega), hN, hR, Nat.mul_comm n]
  have : n ≤ (A + 1) * n := Nat.le_mul_of_pos_left _ (by omega)
  omega

/-- End to end, a database query that panics: honest parties, correctly shared inputs, any schedule. -/
theorem C29_query_panics (signed : Bool) (q : IrisCode) (db : List IrisCode) (hlen : db.length = 300)
    (hm : ∀ c ∈ db, 8960 ≤ commonBits c q) (key : BitVec 64) (a : Party → List (SShare 64))
    (b : Party → List (List (SShare 64))) (ha : Rels (MacSharesOf key) (encode 64 q.code) a)
    (hb : Rels (Rels (MacSharesOf key)) (db.map fun c => encode 64 c.code) b)
    (st : Party → SpdzSt G 64) (hst : SpdzOk key 0 0 st) :
    EveryScheduleFails
      (fun i => Iris.irisInDb (Spdz.ops G H 16 signed i) (a i) (b i) q.mask (db.map fun c => c.mask) 1) st .panic := by
  refine (C29_exact (K := 16) (by omega) (by omega) signed q db (by intro h; simp [h] at hlen) hm key a b ha hb 1 (by omega)
    (by rw [hlen]; norm_num) 0 st hst).2 ?_
  rw [hlen]
  exact C29_counterexamples.1

/-! ## C54: the query -/

/-- `iris_in_db` answers the query whenever the triples suffice. -/
theorem C54_iris_in_db (hK : 15 ≤ K) (hK2 : K ≤ 128) (signed : Bool) (q : IrisCode) (db : List IrisCode) (hne : db ≠ [])
    (hm : ∀ c ∈ db, 8960 ≤ commonBits c q) (key : BitVec (verifWidth K)) (a : Party → List (SShare (verifWidth K)))
    (b : Party → List (List (SShare (verifWidth K)))) (ha : Rels (MacSharesOf key) (encode (verifWidth K) q.code) a)
    (hb : Rels (Rels (MacSharesOf key)) (db.map fun c => encode (verifWidth K) c.code) b)
    (cs : Nat) (hcs : cs ≠ 0) (hov : (db.length + cs) * (2 * K) < 2 ^ 64) (p : Nat)
    (hp : EnoughTriples K db.length cs p)
    (st : Party → SpdzSt G (verifWidth K)) (hst : SpdzOk key p 0 st) :
    EverySchedule
      (fun i => Iris.irisInDb (Spdz.ops G H K signed i) (a i) (b i) q.mask (db.map fun c => c.mask) cs) st
      (fun r st' => (∀ i, findMatch q db false = .ok (r i)) ∧ ∃ p', SpdzOk key p' 0 st') := by
  obtain ⟨r, st', h, hr, hst'⟩ :=
    (C29_exact (G := G) (H := H) hK hK2 signed q db hne hm key a b ha hb cs hcs hov p st hst).1 hp
  refine ⟨r, st', h, fun i => ?_, _, hst'⟩
  rw [C19_find_match q db hm, hr i, inDb]

/-- Shares of a list of ring elements as the client makes them with `share`. -/
def dealtMac (key : BitVec V) (xs : List (BitVec K)) (rnd : List (BitVec V × BitVec V × BitVec V × BitVec V)) (i : Party) :
    List (SShare V) :=
  List.zipWith (fun x r => (Spdz.share x key r.1 r.2.1 r.2.2.1 r.2.2.2)[i.val]'(by have := i.isLt; simp [Spdz.share, Aby3.share])) xs rnd

theorem dealtMac_ok (key : BitVec V) (xs : List (BitVec K)) (rnd : List (BitVec V × BitVec V × BitVec V × BitVec V))
    (h : rnd.length = xs.length) : Rels (MacSharesOf key) (xs.map (·.setWidth V)) (dealtMac key xs rnd) := by
  induction xs generalizing rnd with
  | nil => exact Rels.nil
  | cons x xs ih =>
    cases rnd with
    | nil => simp at h
    | cons r rs =>
      exact Rels.cons (b := fun i : Party => (Spdz.share x key r.1 r.2.1 r.2.2.1 r.2.2.2)[i.val]'(by have := i.isLt; simp [Spdz.share, Aby3.share]))
        ⟨.mk' (by simp [Spdz.share, Aby3.share, toVerif]) rfl rfl rfl, .mk' (by simp [Spdz.share, Aby3.share, toVerif]) rfl rfl rfl⟩ (ih rs (by simpa using h))

unseal encode in
theorem encode_setWidth (hK : 1 ≤ K) (hV : 1 ≤ V) (c : IrisCodeArray) : (encode K c).map (·.setWidth V) = encode V c := by
  unfold encode
  rw [List.map_map]
  refine List.map_congr_left fun b _ => ?_
  cases b
  · simp
  · simp only [Function.comp_apply, if_true]
    apply BitVec.eq_of_toNat_eq
    rw [BitVec.toNat_setWidth]
    have h1 : (1 : BitVec K).toNat = 1 := by
      show (BitVec.ofNat K 1).toNat = 1
      rw [BitVec.toNat_ofNat, Nat.mod_eq_of_lt (Nat.one_lt_two_pow (by omega))]
    have h2 : (1 : BitVec V).toNat = 1 := by
      show (BitVec.ofNat V 1).toNat = 1
      rw [BitVec.toNat_ofNat, Nat.mod_eq_of_lt (Nat.one_lt_two_pow (by omega))]
    rw [h1, h2, Nat.mod_eq_of_lt (Nat.one_lt_two_pow (by omega))]

/-- End to end: set-up with any seeds and dealt shares of any key, then a query on freshly dealt shares, in chunks of a
multiple of 128 greater than 128: under every schedule every party gets the answer of the plaintext program. -/
theorem C54_end_to_end (hK : 15 ≤ K) (hK2 : K ≤ 128) (signed : Bool) (q : IrisCode) (db : List IrisCode)
    (hne : db ≠ []) (hm : ∀ c ∈ db, 8960 ≤ commonBits c q) (key k1 k2 : BitVec (verifWidth K))
    (rnd : List (BitVec (verifWidth K) × BitVec (verifWidth K) × BitVec (verifWidth K) × BitVec (verifWidth K)))
    (hr : rnd.length = 12800)
    (rnds : List (List (BitVec (verifWidth K) × BitVec (verifWidth K) × BitVec (verifWidth K) × BitVec (verifWidth K))))
    (hrs : rnds.length = db.length) (hrl : ∀ r ∈ rnds, r.length = 12800)
    (seeds : Party → Bytes) (hs : ∀ i, (seeds i).length = 32) (prf₀ : Prf G)
    (k : Nat) (hk : 2 ≤ k) (hov : (db.length + 128 * k) * (2 * K) < 2 ^ 64) :
    EverySchedule (fun i => do
        (do Spdz.preprocess i (seeds i)
            Spdz.setMacKey ⟨AShare.zero _, (Aby3.share key k1 k2)[i.val]'(by have := i.isLt; simp [Aby3.share])⟩)
        Iris.irisInDb (Spdz.ops G H K signed i) (dealtMac key (encode K q.code) rnd i)
          (List.zipWith (fun c r => dealtMac key (encode K c.code) r i) db rnds) q.mask (db.map fun c => c.mask) (128 * k))
      (fun _ => Spdz.init prf₀)
      (fun r _ => ∀ i, findMatch q db false = .ok (r i)) := by
  have hw := verifWidth_ge hK2
  have ha : Rels (MacSharesOf key) (encode (verifWidth K) q.code) (dealtMac key (encode K q.code) rnd) := by
    have := dealtMac_ok key (encode K q.code) rnd (by rw [hr, MpcLawful.encode_length]; rfl)
    rwa [encode_setWidth (by omega) (by omega)] at this
  have hb : Rels (Rels (MacSharesOf key)) (db.map fun c => encode (verifWidth K) c.code)
      (fun i => List.zipWith (fun c r => dealtMac key (encode K c.code) r i) db rnds) := by
    clear hne hm hov
    induction db generalizing rnds with
    | nil => exact Rels.nil
    | cons c db ih =>
      cases rnds with
      | nil => simp at hrs
      | cons r rnds =>
        have h1 := dealtMac_ok key (encode K c.code) r (by rw [hrl r (by simp), MpcLawful.encode_length]; rfl)
        rw [encode_setWidth (by omega) (by omega)] at h1
        exact Rels.cons (b := dealtMac key (encode K c.code) r) h1
          (ih rnds (by simpa using hrs) fun r hr => hrl r (by simp [hr]))
  have hn : db.length ≠ 0 := by simpa using hne
  refine WPS.allSchedules (WPS.bind ((setup_key_wp seeds hs prf₀ key _ (.mk' ?_ rfl rfl rfl)).mono ?_))
  · simp [Aby3.share]
  rintro _ st hst
  refine ((Spdz.mpcLawful G H (by omega) hK2 signed key 0 0 _).irisInDb_wp hK hw ha hne hm hb (by omega) trivial hov
    ⟨?_, rfl⟩ hst).mono ?_
  · simp only [Nat.add_zero]; rw [used_eq hn (by omega), avail_eq]; exact C29_multiple (by omega) _ _ hn hk
  · rintro r st' ⟨hr, -⟩ i
    rw [C19_find_match q db hm, hr i, inDb]

example (c : IrisCodeArray) : let e : IrisCode := ⟨c, IrisCodeArray.ones⟩
    15 ≤ 16 ∧ 16 ≤ 128 ∧ [e, e, e] ≠ [] ∧ (∀ d ∈ [e, e, e], 8960 ≤ commonBits d e) ∧
    EnoughTriples 16 [e, e, e].length 256 0 ∧ ([e, e, e].length + 256) * (2 * 16) < 2 ^ 64 ∧
    SpdzOk 77#64 0 0 (exSpdzSt 77#64) := by
  refine ⟨by omega, by omega, by simp, fun d hd => ?_, C29_multiple (by omega) 3 2 (by omega) le_rfl, by simp, exSpdzSt_ok _⟩
  have : d = ⟨c, IrisCodeArray.ones⟩ := by simpa using hd
  rw [this, fullMask_common]; omega

end Verif
