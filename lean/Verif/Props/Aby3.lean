import Verif.Proof.Aby3

/-! # C06–C13: the semi-honest ABY3 backend -/

namespace Verif

open Aby3

variable {K : Nat} {G : Prg}

/-- Joint state of the three parties in which their generators are correlated (see `PrfOk`). -/
def Aby3Ready (st : Party → Aby3St G) : Prop := PrfOk (fun i => (st i).prf)

/-! ## Concrete instances used by the non-vacuity examples -/

/-- A (counter) generator. -/
def exPrg : Prg where
  S := Nat
  ofSeed bs := ofBe bs
  gen K s := (BitVec.ofNat K (s * 2654435761 + 12345), s + 1)
  genSeed s := (List.replicate 32 (BitVec.ofNat 8 s), s + 1)
  genRange n s := (s % n, s + 1)
  genRange_lt n s h := Nat.mod_lt _ h
  genSeed_length _ := by simp

/-- Three pairwise different seeds. -/
def exSeed (i : Party) : Bytes := List.replicate 32 (BitVec.ofNat 8 (i.val + 7))

/-- The states after the set-up with `exSeed`. -/
def exSt (i : Party) : Aby3St exPrg := ⟨⟨exPrg.ofSeed (exSeed i), exPrg.ofSeed (exSeed i.prev)⟩⟩

theorem exSt_ready : Aby3Ready exSt := fun _ => rfl

/-- A sharing of `x`. -/
def exShare (x : BitVec K) (i : Party) : AShare K :=
  match i with
  | 0 => ⟨3, x - 3 - 11⟩
  | 1 => ⟨11, 3⟩
  | 2 => ⟨x - 3 - 11, 11⟩

theorem exShare_ok (x : BitVec K) : SharesOf x (exShare x) :=
  .mk' (by simp only [exShare]; ring) rfl rfl rfl

/-- A binary sharing of `x`. -/
def exBinShare (x : BitVec K) (i : Party) : AShare K :=
  match i with
  | 0 => ⟨3, x ^^^ 3 ^^^ 11⟩
  | 1 => ⟨11, 3⟩
  | 2 => ⟨x ^^^ 3 ^^^ 11, 11⟩

theorem exBinShare_ok (x : BitVec K) : BinSharesOf x (exBinShare x) := by
  refine .mk' ?_ rfl rfl rfl
  simp only [exBinShare]
  rw [BitVec.xor_comm (3 ^^^ 11), BitVec.xor_assoc x, BitVec.xor_assoc, BitVec.xor_self]
  simp

/-- Sharings of a list. -/
theorem exShares_ok (xs : List (BitVec K)) : Rels SharesOf xs (fun i => xs.map (exShare · i)) := by
  refine ⟨xs.map exShare, ?_, by simp [Function.comp_def]⟩
  rw [List.forall₂_map_right_iff, List.forall₂_same]
  exact fun x _ => exShare_ok x

theorem exBinShares_ok (xs : List (BitVec K)) : Rels BinSharesOf xs (fun i => xs.map (exBinShare · i)) := by
  refine ⟨xs.map exBinShare, ?_, by simp [Function.comp_def]⟩
  rw [List.forall₂_map_right_iff, List.forall₂_same]
  exact fun x _ => exBinShare_ok x

/-! ## C06: correlated randomness -/

/-- `preprocess` succeeds for all 32-byte seeds, from all states, under every schedule, and leaves the
generators correlated: what a party calls its next generator equals its predecessor's own generator, both
derived from the seed of the predecessor. -/
theorem C06_preprocess (seeds : Party → Bytes) (hs : ∀ i, (seeds i).length = 32) (st : Party → Aby3St G) :
    EverySchedule (fun i => preprocess i (seeds i)) st (fun _ st' => Aby3Ready st' ∧
      ∀ i, (st' i).prf.my = G.ofSeed (seeds i) ∧ (st' i).prf.next = G.ofSeed (seeds i.prev)) := by
  refine (setup_wp seeds hs st).mono ?_ |>.allSchedules
  rintro _ _ rfl
  exact ⟨fun _ => rfl, fun _ => ⟨rfl, rfl⟩⟩

/-- A sequence of draws of zero shares, one per entry: width and kind (arithmetic `true`, binary `false`). -/
def drawZeros : List (Nat × Bool) → Prf G → List (Σ K, BitVec K) × Prf G
  | [], p => ([], p)
  | (K, true) :: ks, p => ((⟨K, (p.genZeroShare K).1⟩ :: (drawZeros ks (p.genZeroShare K).2).1), (drawZeros ks (p.genZeroShare K).2).2)
  | (K, false) :: ks, p => ((⟨K, (p.genBinaryZeroShare K).1⟩ :: (drawZeros ks (p.genBinaryZeroShare K).2).1), (drawZeros ks (p.genBinaryZeroShare K).2).2)

/-- From correlated generators, whatever sequence of zero shares the three parties draw, every one of them
cancels: the arithmetic ones add up to zero, the binary ones xor to zero. -/
theorem C06_zero_shares (ks : List (Nat × Bool)) (p : Party → Prf G) (hp : PrfOk p) (n : Nat) (K : Nat) (b : Bool)
    (hk : ks[n]? = some (K, b)) :
    ∃ z : Party → BitVec K, (∀ i, (drawZeros ks (p i)).1[n]? = some ⟨K, z i⟩) ∧
      (if b then z 0 + z 1 + z 2 = 0 else z 0 ^^^ z 1 ^^^ z 2 = 0) := by
  induction ks generalizing p n with
  | nil => simp at hk
  | cons k ks ih =>
    obtain ⟨L, c⟩ := k
    cases c
    · obtain ⟨h1, h2⟩ := hp.genBinZero L
      cases n with
      | zero =>
        simp only [List.getElem?_cons_zero, Option.some.injEq, Prod.mk.injEq] at hk
        obtain ⟨rfl, rfl⟩ := hk
        exact ⟨_, fun i => rfl, h2⟩
      | succ n => simpa [drawZeros] using ih _ h1 n (by simpa using hk)
    · obtain ⟨h1, h2⟩ := hp.genZero L
      cases n with
      | zero =>
        simp only [List.getElem?_cons_zero, Option.some.injEq, Prod.mk.injEq] at hk
        obtain ⟨rfl, rfl⟩ := hk
        exact ⟨_, fun i => rfl, h2⟩
      | succ n => simpa [drawZeros] using ih _ h1 n (by simpa using hk)

example : ∀ i, (exSeed i).length = 32 := fun i => by simp [exSeed]
example : exSeed 0 ≠ exSeed 1 ∧ exSeed 1 ≠ exSeed 2 := by decide +kernel
example : (exSt 0).prf.my ≠ (exSt 0).prf.next := by
  show ofBe _ ≠ ofBe _
  decide +kernel

/-! ## C07: share, input, open -/

/-- The three outputs of `share`, handed to parties 0, 1, 2, are a consistent sharing, for all random
values. -/
theorem C07_share (x a b : BitVec K) :
    (share x a b).length = 3 ∧
    ∀ s : Party → AShare K, (∀ i, (share x a b)[i.val]? = some (s i)) → SharesOf x s := by
  refine ⟨rfl, fun s hs => ?_⟩
  have h0 := hs 0
  have h1 := hs 1
  have h2 := hs 2
  simp only [share] at h0 h1 h2
  simp at h0 h1 h2
  refine .mk' ?_ ?_ ?_ ?_ <;> simp only [← h0, ← h1, ← h2]
  ring

/-- `open` of a consistent sharing of `x` gives `x` to every party. -/
theorem C07_open (x : BitVec K) (s : Party → AShare K) (hs : SharesOf x s) (st : Party → Aby3St G)
    (hst : Aby3Ready st) :
    EverySchedule (fun i => openShare i (s i)) st (fun r st' => (∀ i, r i = x) ∧ Aby3Ready st') :=
  (open_wp (u := 0) (v := 0) hst hs).allSchedules

/-- `share` then `open`. -/
theorem C07_share_open (x a b : BitVec K) (s : Party → AShare K) (hs : ∀ i, (share x a b)[i.val]? = some (s i))
    (st : Party → Aby3St G) (hst : Aby3Ready st) :
    EverySchedule (fun i => openShare i (s i)) st (fun r _ => ∀ i, r i = x) :=
  ((open_wp (u := 0) (v := 0) hst ((C07_share x a b).2 s hs)).mono fun _ _ h => h.1).allSchedules

/-- `input` of party `id`'s value: all parties get consistent shares of it, whatever the other parties pass. -/
theorem C07_input (id : Party) (x : BitVec K) (inp : Party → Option (BitVec K)) (hx : inp id = some x)
    (st : Party → Aby3St G) (hst : Aby3Ready st) :
    EverySchedule (fun i => input i (inp i) id.val) st (fun r st' => SharesOf x r ∧ Aby3Ready st') :=
  (input_wp (u := 0) (v := 0) hx hst).allSchedules

/-- `input` then `open`: every party learns exactly the input. -/
theorem C07_input_open (id : Party) (x : BitVec K) (inp : Party → Option (BitVec K)) (hx : inp id = some x)
    (st : Party → Aby3St G) (hst : Aby3Ready st) :
    EverySchedule (fun i => input i (inp i) id.val >>= openShare i) st (fun r _ => ∀ i, r i = x) := by
  refine (WPS.bind ((input_wp (u := 0) (v := 0) hx hst).mono ?_)).allSchedules
  rintro s st' ⟨hs, hI⟩
  exact (open_wp (v := 0) hI hs).mono fun _ _ h => h.1

/-- `input_all`: the three results are consistent sharings of the inputs of parties 0, 1, 2. -/
theorem C07_input_all (x : Party → BitVec K) (st : Party → Aby3St G) (hst : Aby3Ready st) :
    EverySchedule (fun i => inputAll i (x i)) st
      (fun r st' => Rels SharesOf [x 0, x 1, x 2] r ∧ Aby3Ready st') :=
  (inputAll_wp (u := 0) (v := 0) x hst).allSchedules

/-- `open_many` opens elementwise. -/
theorem C07_open_many (xs : List (BitVec K)) (ss : Party → List (AShare K)) (hs : Rels SharesOf xs ss)
    (st : Party → Aby3St G) (hst : Aby3Ready st) :
    EverySchedule (fun i => openMany i (ss i)) st (fun r st' => (∀ i, r i = xs) ∧ Aby3Ready st') :=
  (openMany_wp (u := 0) (v := 0) hst hs).allSchedules

/-- `open_bit` and `open_bit_many`. -/
theorem C07_open_bit (x : BitVec 1) (s : Party → AShare 1) (hs : BinSharesOf x s) (st : Party → Aby3St G)
    (hst : Aby3Ready st) :
    EverySchedule (fun i => openBit i (s i)) st (fun r st' => (∀ i, r i = bitVal x) ∧ Aby3Ready st') :=
  (openBit_wp (u := 0) (v := 0) hst hs).allSchedules

theorem C07_open_bit_many (xs : List (BitVec 1)) (ss : Party → List (AShare 1)) (hs : Rels BinSharesOf xs ss)
    (st : Party → Aby3St G) (hst : Aby3Ready st) :
    EverySchedule (fun i => openBitMany i (ss i)) st
      (fun r st' => (∀ i, r i = xs.map bitVal) ∧ Aby3Ready st') :=
  (openBitMany_wp (u := 0) (v := 0) hst hs).allSchedules

/-- A party id of 3 or more is rejected before anything is sent; so is a missing input of the inputting party. -/
theorem C07_input_rejects (me : Party) (inp : Option (BitVec K)) (id : Nat) (h : 3 ≤ id) :
    FailsAtOnce (Aby3.input (G := G) me inp id) (.idError id) := by
  intro s; unfold input; rw [if_pos h]; rfl

theorem C07_input_none (me : Party) : FailsAtOnce (Aby3.input (K := K) (G := G) me none me.val) .value := by
  intro s
  have : ¬ me.val ≥ 3 := by have := me.isLt; omega
  unfold input; rw [if_neg this]
  simp [genZero, Proto.step, Proto.throw, StateT.bind, bind, Prog.bind]

example : SharesOf (42 : BitVec 16) (exShare 42) ∧ Aby3Ready exSt := ⟨exShare_ok _, exSt_ready⟩
example : Rels SharesOf [1, 2, (3 : BitVec 32)] (fun i => [1, 2, (3 : BitVec 32)].map (exShare · i)) := exShares_ok _

/-! ## C08: linear operations -/

/-- `add`, `sub`, `add_const`, `sub_const`, `mul_const`, `neg` are local (functions of the own shares, no
network) and give consistent sharings of the ring operations. -/
theorem C08_linear (x y c : BitVec K) (s t : Party → AShare K) (hs : SharesOf x s) (ht : SharesOf y t) :
    SharesOf (x + y) (fun i => (s i).add (t i)) ∧
    SharesOf (x - y) (fun i => (s i).sub (t i)) ∧
    SharesOf (x + c) (fun i => (s i).addConst c i) ∧
    SharesOf (x - c) (fun i => (s i).subConst c i) ∧
    SharesOf (x * c) (fun i => (s i).mulConst c) ∧
    SharesOf (-x) (fun i => (s i).neg) :=
  ⟨hs.add ht, hs.sub ht, hs.addConst c, hs.subConst c, hs.mulConst c, hs.neg⟩

/-- The same for the local operations on binary sharings: xor, xor with a constant, and with a constant,
complement, shift. -/
theorem C08_binary_local (x y c : BitVec K) (s t : Party → AShare K) (hs : BinSharesOf x s) (ht : BinSharesOf y t)
    (n : Nat) :
    BinSharesOf (x ^^^ y) (fun i => (s i).xor (t i)) ∧
    BinSharesOf (x ^^^ c) (fun i => (s i).xorConst c i) ∧
    BinSharesOf (x &&& c) (fun i => (s i).andConst c) ∧
    BinSharesOf (~~~x) (fun i => (s i).not) ∧
    BinSharesOf (ringShl x n) (fun i => (s i).shl n) :=
  ⟨hs.xor ht, hs.xorConst c, hs.andConst c, hs.not, hs.shl n⟩

/-- Consistent shares determine the secret. -/
theorem C08_unique (x y : BitVec K) (s : Party → AShare K) (hx : SharesOf x s) (hy : SharesOf y s) : x = y :=
  hx.1.symm.trans hy.1

example : SharesOf (200 : BitVec 8) (exShare 200) ∧ SharesOf (100 : BitVec 8) (exShare 100) :=
  ⟨exShare_ok _, exShare_ok _⟩

/-! ## C09: multiplication and inner products -/

theorem C09_mul (x y : BitVec K) (a b : Party → AShare K) (ha : SharesOf x a) (hb : SharesOf y b)
    (st : Party → Aby3St G) (hst : Aby3Ready st) :
    EverySchedule (fun i => Aby3.mul i (a i) (b i)) st (fun c st' => SharesOf (x * y) c ∧ Aby3Ready st') :=
  (mul_wp (u := 0) (v := 0) hst ha hb).allSchedules

theorem C09_mul_many (xs ys : List (BitVec K)) (a b : Party → List (AShare K)) (ha : Rels SharesOf xs a)
    (hb : Rels SharesOf ys b) (hl : xs.length = ys.length) (st : Party → Aby3St G) (hst : Aby3Ready st) :
    EverySchedule (fun i => mulMany i (a i) (b i)) st
      (fun c st' => Rels SharesOf (List.zipWith (· * ·) xs ys) c ∧ Aby3Ready st') :=
  (mulMany_wp (u := 0) (v := 0) hst ha hb hl).allSchedules

theorem C09_dot (xs ys : List (BitVec K)) (a b : Party → List (AShare K)) (ha : Rels SharesOf xs a)
    (hb : Rels SharesOf ys b) (hl : xs.length = ys.length) (st : Party → Aby3St G) (hst : Aby3Ready st) :
    EverySchedule (fun i => dot i (a i) (b i)) st
      (fun c st' => SharesOf (List.zipWith (· * ·) xs ys).sum c ∧ Aby3Ready st') :=
  (dot_wp (u := 0) (v := 0) hst ha hb hl).allSchedules

/-- `dot_many`: one inner product per pair of vectors. -/
theorem C09_dot_many (xss yss : List (List (BitVec K))) (a b : Party → List (List (AShare K)))
    (ha : Rels (Rels SharesOf) xss a) (hb : Rels (Rels SharesOf) yss b)
    (hl : List.Forall₂ (fun xs ys => xs.length = ys.length) xss yss)
    (st : Party → Aby3St G) (hst : Aby3Ready st) :
    EverySchedule (fun i => dotMany i (a i) (b i)) st
      (fun c st' => Rels SharesOf (List.zipWith (fun xs ys => (List.zipWith (· * ·) xs ys).sum) xss yss) c ∧
        Aby3Ready st') :=
  (dotMany_wp (u := 0) (v := 0) hst ha hb hl).allSchedules

/-- `masked_dot_many`: one masked inner product per vector and mask, over the 12800 positions. -/
theorem C09_masked_dot_many (xs : List (BitVec K)) (a : Party → List (AShare K)) (hx : xs.length = 12800)
    (ha : Rels SharesOf xs a) (yss : List (List (BitVec K))) (masks : List IrisCodeArray)
    (b : Party → List (List (AShare K))) (hb : Rels (Rels SharesOf) yss b)
    (hl : ∀ ys ∈ yss, ys.length = 12800) (hm : yss.length = masks.length)
    (st : Party → Aby3St G) (hst : Aby3Ready st) :
    EverySchedule (fun i => maskedDotMany i (a i) (b i) masks) st
      (fun c st' => Rels SharesOf (List.zipWith
        (fun ys (m : IrisCodeArray) => maskedSum (IrisCodeArray.bitList m) (List.zipWith (· * ·) xs ys)) yss masks) c ∧
        Aby3Ready st') :=
  (maskedDotMany_wp (u := 0) (v := 0) hx ha hst hb hl hm).allSchedules

/-- Vectors of different sizes are rejected before anything is sent. -/
theorem C09_dot_rejects (me : Party) (a b : List (AShare K)) (h : a.length ≠ b.length) :
    FailsAtOnce (Aby3.dot (G := G) me a b) .invalidSize := by
  intro s; unfold dot; rw [if_pos h]; rfl

theorem C09_dot_many_rejects (me : Party) (a b : List (List (AShare K))) (h : a.length ≠ b.length) :
    FailsAtOnce (Aby3.dotMany (G := G) me a b) .invalidSize := by
  intro s; unfold dotMany; rw [if_pos h]; rfl

private theorem dotLoop_rejects (ps : List (List (AShare K) × List (AShare K)))
    (h : ∃ p ∈ ps, p.1.length ≠ p.2.length) (s : Aby3St G) :
    dotLoop ps s = .fail .invalidSize := by
  induction ps generalizing s with
  | nil => simp at h
  | cons p ps ih =>
    obtain ⟨a, b⟩ := p
    unfold dotLoop
    by_cases hab : a.length = b.length
    · have h' : ∃ p ∈ ps, p.1.length ≠ p.2.length := by
        obtain ⟨p, hp, hne⟩ := h
        rcases List.mem_cons.1 hp with rfl | hp
        · exact absurd hab hne
        · exact ⟨p, hp, hne⟩
      simp [genZero, Proto.step, hab, StateT.bind, bind, ih h', Prog.bind]
    · simp [genZero, Proto.step, hab, Proto.throw, StateT.bind, bind, Prog.bind]

/-- Also when only one inner pair of vectors differs in size. -/
theorem C09_dot_many_rejects_inner (me : Party) (a b : List (List (AShare K)))
    (h : ∃ p ∈ a.zip b, p.1.length ≠ p.2.length) :
    FailsAtOnce (Aby3.dotMany (G := G) me a b) .invalidSize := by
  intro s; unfold dotMany
  split
  · rfl
  · simp [StateT.bind, bind, dotLoop_rejects _ h s, Prog.bind]

example : Rels (Rels SharesOf) [[1, 2], [(3 : BitVec 16), 4]]
    (fun i => [[1, 2], [3, 4]].map fun l => l.map (exShare · i)) :=
  Rels.cons (exShares_ok [1, 2]) (Rels.singleton (exShares_ok [3, 4]))
example : ([3, 4] : List (BitVec 16)).length = ([5, 6] : List (BitVec 16)).length := rfl

/-! ## C10: AND and OR -/

theorem C10_and (x y : BitVec K) (a b : Party → AShare K) (ha : BinSharesOf x a) (hb : BinSharesOf y b)
    (st : Party → Aby3St G) (hst : Aby3Ready st) :
    EverySchedule (fun i => Aby3.and i (a i) (b i)) st (fun c st' => BinSharesOf (x &&& y) c ∧ Aby3Ready st') :=
  (and_wp (u := 0) (v := 0) hst ha hb).allSchedules

theorem C10_and_many (xs ys : List (BitVec K)) (a b : Party → List (AShare K)) (ha : Rels BinSharesOf xs a)
    (hb : Rels BinSharesOf ys b) (hl : xs.length = ys.length) (st : Party → Aby3St G) (hst : Aby3Ready st) :
    EverySchedule (fun i => andMany i (a i) (b i)) st
      (fun c st' => Rels BinSharesOf (List.zipWith (· &&& ·) xs ys) c ∧ Aby3Ready st') :=
  (andMany_wp (u := 0) (v := 0) hst ha hb hl).allSchedules

theorem C10_or (x y : BitVec K) (a b : Party → AShare K) (ha : BinSharesOf x a) (hb : BinSharesOf y b)
    (st : Party → Aby3St G) (hst : Aby3Ready st) :
    EverySchedule (fun i => ((fam G i).ops K).or (a i) (b i)) st
      (fun c st' => BinSharesOf (x ||| y) c ∧ Aby3Ready st') :=
  ((binLawful G K).or (u := 0) hst ha hb).allSchedules

theorem C10_or_many (xs ys : List (BitVec K)) (a b : Party → List (AShare K)) (ha : Rels BinSharesOf xs a)
    (hb : Rels BinSharesOf ys b) (hl : xs.length = ys.length) (st : Party → Aby3St G) (hst : Aby3Ready st) :
    EverySchedule (fun i => ((fam G i).ops K).orMany (a i) (b i)) st
      (fun c st' => Rels BinSharesOf (List.zipWith (· ||| ·) xs ys) c ∧ Aby3Ready st') :=
  ((binLawful G K).orMany (u := 0) hst ha hb hl).allSchedules

theorem C10_binary_or (x y : BitVec 1) (a b : Party → AShare 1) (ha : BinSharesOf x a) (hb : BinSharesOf y b)
    (st : Party → Aby3St G) (hst : Aby3Ready st) :
    EverySchedule (fun i => binaryOr i (a i) (b i)) st
      (fun c st' => BinSharesOf (bitOf (bitVal x || bitVal y)) c ∧ Aby3Ready st') := by
  have e : bitOf (bitVal x || bitVal y) = x ||| y := by
    apply BitVec.eq_of_getLsbD_eq
    intro i hi
    have : i = 0 := by omega
    subst this
    simp [bitVal]
  rw [e]
  exact C10_or x y a b ha hb st hst

/-- Vectors of different sizes are rejected before anything is sent. -/
theorem C10_rejects (me : Party) (a b : List (AShare K)) (h : a.length ≠ b.length) :
    FailsAtOnce (Aby3.andMany (G := G) me a b) .invalidSize ∧
    FailsAtOnce (((fam G me).ops K).orMany a b) .invalidSize := by
  refine ⟨fun s => ?_, fun s => ?_⟩
  · unfold andMany; rw [if_pos h]; rfl
  · unfold BinOps.orMany; rw [if_pos h]; rfl

example : BinSharesOf (0xAB : BitVec 8) (exBinShare 0xAB) ∧ BinSharesOf (1 : BitVec 1) (exBinShare 1) :=
  ⟨exBinShare_ok _, exBinShare_ok _⟩

/-! ## C11: arithmetic to binary -/

theorem C11_a2b (x : BitVec K) (a : Party → AShare K) (h : SharesOf x a) (st : Party → Aby3St G)
    (hst : Aby3Ready st) :
    EverySchedule (fun i => a2b i (a i)) st (fun r st' => BinSharesOf x r ∧ Aby3Ready st') :=
  (a2b_wp (u := 0) (v := 0) hst h).allSchedules

theorem C11_a2b_many (xs : List (BitVec K)) (a : Party → List (AShare K)) (h : Rels SharesOf xs a)
    (st : Party → Aby3St G) (hst : Aby3Ready st) :
    EverySchedule (fun i => a2bMany i (a i)) st (fun r st' => Rels BinSharesOf xs r ∧ Aby3Ready st') :=
  (a2bMany_wp (u := 0) (v := 0) hst h).allSchedules

example : SharesOf (0xFFFF : BitVec 16) (exShare 0xFFFF) ∧ Aby3Ready exSt := ⟨exShare_ok _, exSt_ready⟩

/-! ## C12: most significant bit -/

theorem C12_get_msb (hK : 0 < K) (x : BitVec K) (a : Party → AShare K) (h : SharesOf x a)
    (st : Party → Aby3St G) (hst : Aby3Ready st) :
    EverySchedule (fun i => Aby3.getMsb i (a i)) st
      (fun r st' => BinSharesOf (bitOf (decide (2 ^ (K - 1) ≤ x.toNat))) r ∧ Aby3Ready st') := by
  have := (getMsb_wp (u := 0) (v := 0) hK hst h).allSchedules
  rwa [BitVec.msb_eq_decide] at this

theorem C12_get_msb_many (hK : 3 ≤ K) (xs : List (BitVec K)) (hne : xs ≠ []) (a : Party → List (AShare K))
    (h : Rels SharesOf xs a) (st : Party → Aby3St G) (hst : Aby3Ready st) :
    EverySchedule (fun i => getMsbMany i (a i)) st
      (fun r st' => Rels BinSharesOf (xs.map fun x => bitOf (decide (2 ^ (K - 1) ≤ x.toNat))) r ∧ Aby3Ready st') := by
  have := (getMsbMany_wp (u := 0) (v := 0) hK hne hst h).allSchedules
  simp only [BitVec.msb_eq_decide] at this
  exact this

example : Rels SharesOf (List.replicate 129 (0x8001 : BitVec 16))
    (fun i => (List.replicate 129 (0x8001 : BitVec 16)).map (exShare · i)) ∧ 3 ≤ 16 ∧
    List.replicate 129 (0x8001 : BitVec 16) ≠ [] := ⟨exShares_ok _, by decide, by simp⟩

/-! ## C13: OR-reduction -/

theorem C13_reduce_binary_or (bits : List (BitVec 1)) (hne : bits ≠ []) (cs : Nat) (hcs : cs ≠ 0)
    (a : Party → List (AShare 1)) (ha : Rels BinSharesOf bits a) (st : Party → Aby3St G) (hst : Aby3Ready st) :
    EverySchedule (fun i => reduceBinaryOr i (a i) cs) st
      (fun c st' => BinSharesOf (bitOf (bits.any bitVal)) c ∧ Aby3Ready st') :=
  (reduceBinaryOr_wp (u := 0) (v := 0) hcs hne hst ha).allSchedules

example : Rels BinSharesOf [0, 1, (0 : BitVec 1)] (fun i => [0, 1, (0 : BitVec 1)].map (exBinShare · i)) :=
  exBinShares_ok _

end Verif
