import Verif.Model.Fam
import Verif.Proof.Binary

/-! # Correctness of packing, OR-reduction and the transposed MSB adder over any lawful backend -/

namespace Verif

variable {σ : Type} {B : Nat → Type}

/-- `f` is XOR-linear on lists of length `n`. -/
structure XorLinear {K L : Nat} (n : Nat) (f : List (BitVec K) → List (BitVec L)) : Prop where
  len : ∀ xs ys, xs.length = n → ys.length = n → (f xs).length = (f ys).length
  xor : ∀ xs ys, xs.length = n → ys.length = n →
    f (List.zipWith (· ^^^ ·) xs ys) = List.zipWith (· ^^^ ·) (f xs) (f ys)

/-- The laws of a family of binary shares. -/
structure FamLawful (fam : Party → BinFam σ B) (Rel : (K : Nat) → BitVec K → (Party → B K) → Prop)
    (Inv : Nat → (Party → σ) → Prop) : Prop where
  bin : ∀ K, 1 ≤ K → K ≤ 128 → BinLawful K (fun i => (fam i).ops K) (Rel K) Inv
  zero : ∀ K, Rel K 0 (fun i => (fam i).zero K)
  mapLists : ∀ {K L : Nat} {n : Nat} {f : List (BitVec K) → List (BitVec L)} {xs : List (BitVec K)}
    {a : Party → List (B K)}, XorLinear n f → xs.length = n → Rels (Rel K) xs a →
    Rels (Rel L) (f xs) (fun i => (fam i).mapLists f (a i))

/-! ## Linear bit rearrangements -/

theorem ringShl_lt {K : Nat} (x : BitVec K) {n : Nat} (h : n < K) : ringShl x n = x <<< n := by
  unfold ringShl
  split
  · rename_i hK
    have : n = 0 := by omega
    subst this; simp
  · rw [Nat.mod_eq_of_lt h]

theorem packLoop_getLsbD {W : Nat} (bits : List (BitVec 1)) (i : Nat) (acc : BitVec W)
    (h : i + bits.length ≤ W) (j : Nat) :
    (packLoop i acc bits).getLsbD j
      = (acc.getLsbD j || (decide (i ≤ j) && ((bits[j - i]?).elim false bitVal))) := by
  induction bits generalizing i acc with
  | nil => simp [packLoop]
  | cons b bs ih =>
    simp only [List.length_cons] at h
    rw [packLoop, ih (i + 1) _ (by omega), ringShl_lt _ (by omega), BitVec.getLsbD_or,
      BitVec.getLsbD_shiftLeft]
    by_cases h1 : j < i
    · simp [h1, show ¬ i ≤ j by omega, show ¬ i + 1 ≤ j by omega]
    · by_cases h2 : j = i
      · subst h2
        simp [ofBit_getLsbD (show 0 < W by omega), show j < W by omega]
      · have e : j - i = (j - (i + 1)) + 1 := by omega
        rw [ofBit_getLsbD (show 0 < W by omega), e]
        simp [show i + 1 ≤ j by omega, show i ≤ j by omega]

/-- The word whose bit `t` is `g` of the `t`-th element. -/
def laneWord {Z : Type} (g : Z → Bool) (ch : List Z) : BitVec 128 :=
  packWord 128 (ch.map fun z => bitOf (g z))

theorem packWord_getLsbD {W : Nat} (bits : List (BitVec 1)) (h : bits.length ≤ W) (j : Nat) :
    (packWord W bits).getLsbD j = (bits[j]?).elim false bitVal := by
  rw [packWord, packLoop_getLsbD _ _ _ (by omega)]
  simp

theorem laneWord_getLsbD {Z : Type} (g : Z → Bool) (ch : List Z) (h : ch.length ≤ 128) (j : Nat) :
    (laneWord g ch).getLsbD j = (ch[j]?).elim false g := by
  rw [laneWord, packWord_getLsbD _ (by simpa using h)]
  rw [List.getElem?_map]
  cases ch[j]? <;> simp

theorem packWord_linear (W n : Nat) (h : n ≤ W) :
    XorLinear (K := 1) n (fun l => [packWord W l]) := by
  refine ⟨fun _ _ _ _ => rfl, fun xs ys hx hy => ?_⟩
  simp only [List.zipWith_cons_cons, List.zipWith_nil_left]
  congr 1
  apply BitVec.eq_of_getLsbD_eq
  intro j _
  rw [BitVec.getLsbD_xor, packWord_getLsbD _ (by simp; omega), packWord_getLsbD _ (by omega),
    packWord_getLsbD _ (by omega), List.getElem?_zipWith]
  by_cases hj : j < n
  · rw [List.getElem?_eq_getElem (by omega), List.getElem?_eq_getElem (by omega)]
    simp
  · rw [List.getElem?_eq_none (by omega), List.getElem?_eq_none (by omega)]
    simp

theorem flatMap_linear {K L : Nat} (f : BitVec K → List (BitVec L)) (m : Nat)
    (hl : ∀ x, (f x).length = m) (hx : ∀ x y, f (x ^^^ y) = List.zipWith (· ^^^ ·) (f x) (f y)) (n : Nat) :
    XorLinear n (fun l => l.flatMap f) := by
  have hlen : ∀ xs : List (BitVec K), (xs.flatMap f).length = xs.length * m := by
    intro xs
    induction xs with
    | nil => simp
    | cons x xs ih =>
      rw [List.flatMap_cons, List.length_append, ih, hl, List.length_cons, Nat.succ_mul, Nat.add_comm]
  refine ⟨fun xs ys h1 h2 => by rw [hlen, hlen, h1, h2], ?_⟩
  intro xs ys h1 h2
  have h : xs.length = ys.length := by omega
  clear h1 h2
  induction xs generalizing ys with
  | nil => cases ys with
    | nil => simp
    | cons => simp at h
  | cons x xs ih => cases ys with
    | nil => simp at h
    | cons y ys =>
      simp only [List.zipWith_cons_cons, List.flatMap_cons]
      rw [ih ys (by simpa using h), hx, List.zipWith_append (by rw [hl, hl])]

theorem getLsbD_splitLo {T : Nat} (U : Nat) (x : BitVec T) (j : Nat) :
    (splitHalves U x).1.getLsbD j = (decide (j < U) && x.getLsbD j) := by
  simp [splitHalves]

theorem getLsbD_splitHi {T : Nat} (U : Nat) (x : BitVec T) (j : Nat) :
    (splitHalves U x).2.getLsbD j = (decide (j < U) && x.getLsbD (U + j)) := by
  simp [splitHalves]

theorem split_linear (T U n : Nat) :
    XorLinear (K := T) n (fun l => l.flatMap fun a => [(splitHalves U a).1, (splitHalves U a).2]) := by
  apply flatMap_linear _ 2 (fun _ => rfl)
  intro x y
  simp only [List.zipWith_cons_cons, List.zipWith_nil_left]
  congr 1
  · apply BitVec.eq_of_getLsbD_eq; intro j _
    simp only [BitVec.getLsbD_xor, getLsbD_splitLo]
    cases decide (j < U) <;> simp
  · congr 1
    apply BitVec.eq_of_getLsbD_eq; intro j _
    simp only [BitVec.getLsbD_xor, getLsbD_splitHi]
    cases decide (j < U) <;> simp

theorem toBits_eq {K : Nat} (x : BitVec K) :
    toBits x = (List.range K).map fun i => bitOf (x.getLsbD i) := by
  unfold toBits
  apply List.map_congr_left
  intro i hi
  rw [shiftRight_and_one' (by simp at hi; omega)]

theorem bitOf_xor (a b : Bool) : bitOf a ^^^ bitOf b = bitOf (a ^^ b) := by
  cases a <;> cases b <;> rfl

theorem toBits_linear (K n : Nat) : XorLinear (K := K) n (fun l => l.flatMap toBits) := by
  apply flatMap_linear _ K (fun x => toBits_length x)
  intro x y
  simp only [toBits_eq]
  rw [List.zipWith_map, List.zipWith_self]
  apply List.map_congr_left
  intro i _
  rw [bitOf_xor, BitVec.getLsbD_xor]

theorem getMsb_linear (K n : Nat) (hK : 0 < K) :
    XorLinear (K := K) n (fun l => l.flatMap fun a => [getMsb a]) := by
  apply flatMap_linear _ 1 (fun _ => rfl)
  intro x y
  have h : ∀ z : BitVec K, getMsb z = bitOf (z.getLsbD (K - 1)) := by
    intro z
    unfold getMsb
    congr 1
    rw [← shiftRight_and_one' hK]
    congr 1
    apply BitVec.eq_of_getLsbD_eq
    intro j hj
    rw [BitVec.getLsbD_and, one_getLsbD hK, BitVec.getLsbD_ushiftRight]
    by_cases hj0 : j = 0
    · simp [hj0]
    · simp [hj0, BitVec.getLsbD_of_ge z (K - 1 + j) (by omega)]
  simp only [List.zipWith_cons_cons, List.zipWith_nil_left, h, bitOf_xor, BitVec.getLsbD_xor]

/-! ### Transposition -/

theorem ringShr_one_getLsbD {K : Nat} (x : BitVec K) (j : Nat) :
    (ringShr x 1).getLsbD j = x.getLsbD (j + 1) := by
  unfold ringShr
  split
  · rename_i h
    subst h
    rw [BitVec.getLsbD_of_ge x (j + 1) (by omega)]
    simp
  · rename_i h
    by_cases hK : K = 0
    · subst hK; simp [BitVec.getLsbD_of_ge]
    · rw [Nat.mod_eq_of_lt (by omega), BitVec.getLsbD_ushiftRight, Nat.add_comm]

theorem transposeStep_spec {K U : Nat} (hK : 0 < K) (i : Nat) (x : BitVec K) (ss : List (BitVec U)) :
    (transposeStep i x ss).length = ss.length ∧
    ∀ j s, ss[j]? = some s →
      (transposeStep i x ss)[j]? = some (s ||| ringShl (ofBit U (x.getLsbD j)) i) := by
  induction ss generalizing x with
  | nil => simp [transposeStep]
  | cons s ss ih =>
    obtain ⟨h1, h2⟩ := ih (ringShr x 1)
    refine ⟨by simp [transposeStep, h1], ?_⟩
    intro j s' hs
    cases j with
    | zero =>
      simp only [List.getElem?_cons_zero, Option.some.injEq] at hs
      subst hs
      simp only [transposeStep, List.getElem?_cons_zero]
      rw [and_one_eq hK, ofBit_beq_one hK]
    | succ j =>
      simp only [List.getElem?_cons_succ] at hs
      simp only [transposeStep, List.getElem?_cons_succ]
      rw [h2 j s' hs, ringShr_one_getLsbD]

theorem transposeLoop_spec {K U : Nat} (hK : 0 < K) (xs : List (BitVec K)) (i : Nat) (state : List (BitVec U)) :
    (transposeLoop i state xs).length = state.length ∧
    ∀ j s, state[j]? = some s →
      (transposeLoop i state xs)[j]? = some (packLoop i s (xs.map fun x => bitOf (x.getLsbD j))) := by
  induction xs generalizing i state with
  | nil => simp [transposeLoop, packLoop]
  | cons x xs ih =>
    obtain ⟨h1, h2⟩ := transposeStep_spec (U := U) hK i x state
    obtain ⟨h3, h4⟩ := ih (i + 1) (transposeStep i x state)
    refine ⟨by rw [transposeLoop, h3, h1], ?_⟩
    intro j s hs
    rw [transposeLoop, h4 j _ (h2 j s hs)]
    simp [packLoop]

theorem transposeInput_eq {K : Nat} (xs : List (BitVec K)) :
    transposeInput K 128 xs = (List.range K).map fun j => laneWord (fun x => x.getLsbD j) xs := by
  by_cases hK : 0 < K
  · obtain ⟨h1, h2⟩ := transposeLoop_spec (U := 128) hK xs 0 (List.replicate K 0)
    apply List.ext_getElem?
    intro j
    by_cases hj : j < K
    · rw [transposeInput, h2 j 0 (by simp [hj]), List.getElem?_map, List.getElem?_range hj]
      rfl
    · rw [List.getElem?_eq_none (by rw [transposeInput, h1]; simp; omega),
        List.getElem?_eq_none (by simp; omega)]
  · have : K = 0 := by omega
    subst this
    have : ∀ (i : Nat) (xs : List (BitVec 0)), transposeLoop i ([] : List (BitVec 128)) xs = [] := by
      intro i xs
      induction xs generalizing i with
      | nil => rfl
      | cons x xs ih => exact ih (i + 1)
    exact this 0 xs

theorem laneWord_xor {Z : Type} (g h : Z → Bool) (ch : List Z) (hl : ch.length ≤ 128) :
    laneWord g ch ^^^ laneWord h ch = laneWord (fun z => g z ^^ h z) ch := by
  apply BitVec.eq_of_getLsbD_eq
  intro j _
  rw [BitVec.getLsbD_xor, laneWord_getLsbD _ _ hl, laneWord_getLsbD _ _ hl, laneWord_getLsbD _ _ hl]
  cases ch[j]? <;> simp

theorem laneWord_and {Z : Type} (g h : Z → Bool) (ch : List Z) (hl : ch.length ≤ 128) :
    laneWord g ch &&& laneWord h ch = laneWord (fun z => g z && h z) ch := by
  apply BitVec.eq_of_getLsbD_eq
  intro j _
  rw [BitVec.getLsbD_and, laneWord_getLsbD _ _ hl, laneWord_getLsbD _ _ hl, laneWord_getLsbD _ _ hl]
  cases ch[j]? <;> simp

theorem transpose_linear (K n : Nat) (hn : n ≤ 128) :
    XorLinear (K := K) n (transposeInput K 128) := by
  refine ⟨fun xs ys _ _ => by simp [transposeInput_eq], fun xs ys hx hy => ?_⟩
  simp only [transposeInput_eq]
  rw [List.zipWith_map, List.zipWith_self]
  apply List.map_congr_left
  intro i _
  apply BitVec.eq_of_getLsbD_eq
  intro j _
  rw [BitVec.getLsbD_xor, laneWord_getLsbD _ _ (by simp; omega), laneWord_getLsbD _ _ (by omega),
    laneWord_getLsbD _ _ (by omega), List.getElem?_zipWith]
  by_cases hj : j < n
  · rw [List.getElem?_eq_getElem (by omega), List.getElem?_eq_getElem (by omega)]
    simp
  · rw [List.getElem?_eq_none (by omega), List.getElem?_eq_none (by omega)]
    simp

/-! ## Packing and OR reduction -/

theorem mem_chunksOf_length {α : Type} (n : Nat) (l : List α) : ∀ ch ∈ chunksOf n l, ch.length ≤ n := by
  fun_induction chunksOf n l with
  | case1 => simp
  | case2 l h ih =>
    intro ch hch
    rcases List.mem_cons.1 hch with rfl | hch
    · simp
    · exact ih ch hch

theorem Rels.flatMap {X Y C D : Type} {R : X → (Party → C) → Prop} {S : Y → (Party → D) → Prop}
    {f : X → List Y} {g : Party → C → List D} {xs : List X} {ls : Party → List C}
    (hf : ∀ x ∈ xs, ∀ b, R x b → Rels S (f x) (fun i => g i (b i))) (h : Rels R xs ls) :
    Rels S (xs.flatMap f) (fun i => (ls i).flatMap (g i)) := by
  induction xs generalizing ls with
  | nil => rw [h.eq_nil]; exact Rels.nil
  | cons x xs ih =>
    obtain ⟨b, ls', hb, h', rfl⟩ := h.uncons
    simp only [List.flatMap_cons]
    exact Rels.append (hf x (by simp) b hb) (ih (fun y hy => hf y (by simp [hy])) h')

namespace FamLawful

variable {fam : Party → BinFam σ B} {Rel : (K : Nat) → BitVec K → (Party → B K) → Prop}
  {Inv : Nat → (Party → σ) → Prop}

theorem pack (L : FamLawful fam Rel Inv) (W : Nat) {bits : List (BitVec 1)} {a : Party → List (B 1)}
    (ha : Rels (Rel 1) bits a) :
    Rels (Rel W) ((chunksOf W bits).map (packWord W)) (fun i => (fam i).pack W (a i)) := by
  have := Rels.flatMap (S := Rel W) (f := fun ch => [packWord W ch])
    (g := fun i ch => (fam i).mapLists (fun l => [packWord W l]) ch)
    (fun ch hch b hb => L.mapLists (packWord_linear W ch.length (mem_chunksOf_length W bits ch hch)) rfl hb)
    (ha.chunksOf W)
  rwa [← List.map_eq_flatMap] at this

theorem reduceHalf (L : FamLawful fam Rel Inv) {T : Nat} (U : Nat) {u : Nat} {st : Party → σ} (hU : 1 ≤ U ∧ U ≤ 128 := by decide)
    {x : BitVec T} {a : Party → B T} (hI : Inv u st) (ha : Rel T x a) :
    WPS (fun i => (fam i).reduceHalf U (a i)) st
      (fun c st' => Rel U ((splitHalves U x).1 ||| (splitHalves U x).2) c ∧ Inv (u + U) st') := by
  unfold BinFam.reduceHalf
  have hh := L.mapLists (split_linear T U 1) rfl (Rels.singleton ha)
  obtain ⟨lo, hlo, elo⟩ := hh.idx (n := 0) rfl
  obtain ⟨hi, hhi, ehi⟩ := hh.idx (n := 1) rfl
  refine WPS.bind (WPS.lift elo ?_)
  refine WPS.bind (WPS.lift ehi ?_)
  exact (L.bin U hU.1 hU.2).or hI hlo hhi

/-- 1 if some bit is set. -/
def nonzero {K : Nat} (x : BitVec K) : BitVec 1 := bitOf (decide (x ≠ 0))

theorem nonzero_iff {K : Nat} (x : BitVec K) : x ≠ 0 ↔ ∃ j, x.getLsbD j = true := by
  constructor
  · intro h
    by_contra hc
    push Not at hc
    exact h (BitVec.eq_of_getLsbD_eq fun j _ => by
      rw [Bool.eq_false_iff.2 (hc j)]; simp)
  · rintro ⟨j, hj⟩ rfl
    simp at hj

theorem nonzero_split {T U : Nat} (h : T = U + U) (x : BitVec T) :
    nonzero ((splitHalves U x).1 ||| (splitHalves U x).2) = nonzero x := by
  unfold nonzero
  congr 1
  rw [decide_eq_decide, nonzero_iff, nonzero_iff]
  constructor
  · rintro ⟨j, hj⟩
    rw [BitVec.getLsbD_or, getLsbD_splitLo, getLsbD_splitHi, ← Bool.and_or_distrib_left] at hj
    simp only [Bool.and_eq_true, Bool.or_eq_true] at hj
    rcases hj.2 with h' | h'
    · exact ⟨j, h'⟩
    · exact ⟨U + j, h'⟩
  · rintro ⟨j, hj⟩
    have hjT : j < T := by
      by_contra hc
      rw [BitVec.getLsbD_of_ge x j (by omega)] at hj
      cases hj
    by_cases hju : j < U
    · exact ⟨j, by rw [BitVec.getLsbD_or, getLsbD_splitLo]; simp [hju, hj]⟩
    · refine ⟨j - U, ?_⟩
      rw [BitVec.getLsbD_or, getLsbD_splitHi, show U + (j - U) = j by omega, hj]
      simp [show j - U < U by omega]

theorem orAll_bits {bs : List (BitVec 1)} :
    BinLawful.orAll bs = bitOf (bs.any fun b => bitVal b) := by
  induction bs with
  | nil => rfl
  | cons b bs ih =>
    rw [BinLawful.orAll_cons, ih, List.any_cons]
    rw [← bitOf_bitVal b, bitVal_bitOf]
    cases bitVal b <;> cases bs.any (fun b => bitVal b) <;> rfl

theorem nonzero_toBits {K : Nat} (x : BitVec K) : BinLawful.orAll (toBits x) = nonzero x := by
  rw [orAll_bits, nonzero]
  congr 1
  rw [Bool.eq_iff_iff, List.any_eq_true, decide_eq_true_iff, nonzero_iff, toBits_eq]
  constructor
  · rintro ⟨b, hb, hb'⟩
    obtain ⟨j, _, rfl⟩ := List.mem_map.1 hb
    exact ⟨j, by simpa using hb'⟩
  · rintro ⟨j, hj⟩
    refine ⟨bitOf (x.getLsbD j), List.mem_map.2 ⟨j, ?_, rfl⟩, by simpa using hj⟩
    rw [List.mem_range]
    by_contra hc
    rw [BitVec.getLsbD_of_ge x j (by omega)] at hj
    cases hj

theorem reduceLoop (L : FamLawful fam Rel Inv) (e : Nat) {u : Nat} {st : Party → σ}
    {bs : List (BitVec 1)} {a : Party → List (B 1)} (hI : Inv u st) (ha : Rels (Rel 1) bs a)
    (hl : bs.length = 2 ^ e) :
    WPS (fun i => (fam i).reduceLoop (2 ^ e) (a i)) st
      (fun c st' => Rels (Rel 1) [BinLawful.orAll bs] c ∧ Inv (u + (2 ^ e - 1)) st') := by
  induction e generalizing u st bs a with
  | zero =>
    obtain ⟨b, rfl⟩ := List.length_eq_one_iff.1 (by simpa using hl)
    refine WPS.congr (q := fun i => pure (a i)) (fun i => by rw [BinFam.reduceLoop]; rfl) ?_
    refine WPS.pure ⟨by simpa using ha, by simpa using hI⟩
  | succ e ih =>
    have h2 : 2 ^ (e + 1) / 2 = 2 ^ e := by rw [pow_succ]; omega
    have hpos := Nat.two_pow_pos e
    refine WPS.congr (fun i => by
      rw [BinFam.reduceLoop, if_neg (by rw [pow_succ]; omega)]) ?_
    simp only [h2]
    refine WPS.bind (((L.bin 1 (by decide) (by decide)).orMany hI (ha.take (2 ^ e)) (ha.drop (2 ^ e))
      (by simp [hl, pow_succ] <;> omega)).mono ?_)
    rintro c st' ⟨hc, hI'⟩
    refine (ih hI' hc (by simp [hl, pow_succ] <;> omega)).mono ?_
    rintro d st'' ⟨hd, hI''⟩
    constructor
    · convert hd using 2
      rw [BinLawful.orAll_zipWith _ _ (by simp [hl, pow_succ] <;> omega), ← BinLawful.orAll_append,
        List.take_append_drop]
    · convert hI'' using 1
      rw [List.length_take, hl, pow_succ]
      omega

theorem reduceOrU8 (L : FamLawful fam Rel Inv) {u : Nat} {st : Party → σ} {x : BitVec 8}
    {a : Party → B 8} (hI : Inv u st) (ha : Rel 8 x a) :
    WPS (fun i => (fam i).reduceOrU8 (a i)) st
      (fun c st' => Rel 1 (nonzero x) c ∧ Inv (u + 7) st') := by
  unfold BinFam.reduceOrU8
  have hd := L.mapLists (toBits_linear 8 1) rfl (Rels.singleton ha)
  refine WPS.bind ((L.reduceLoop 3 hI hd (by simp)).mono ?_)
  rintro c st' ⟨hc, hI'⟩
  obtain ⟨b, hb, eb⟩ := hc.idx (n := 0) rfl
  refine WPS.lift eb ⟨?_, hI'⟩
  simpa [nonzero_toBits] using hb

theorem reduceOrU128 (L : FamLawful fam Rel Inv) {u : Nat} {st : Party → σ} {x : BitVec 128}
    {a : Party → B 128} (hI : Inv u st) (ha : Rel 128 x a) :
    WPS (fun i => (fam i).reduceOrU128 (a i)) st
      (fun c st' => Rel 1 (nonzero x) c ∧ Inv (u + 127) st') := by
  unfold BinFam.reduceOrU128
  refine WPS.bind ((L.reduceHalf 64 (by decide) hI ha).mono ?_)
  rintro c1 s1 ⟨h1, i1⟩
  refine WPS.bind ((L.reduceHalf 32 (by decide) i1 h1).mono ?_)
  rintro c2 s2 ⟨h2, i2⟩
  refine WPS.bind ((L.reduceHalf 16 (by decide) i2 h2).mono ?_)
  rintro c3 s3 ⟨h3, i3⟩
  refine WPS.bind ((L.reduceHalf 8 (by decide) i3 h3).mono ?_)
  rintro c4 s4 ⟨h4, i4⟩
  refine (L.reduceOrU8 i4 h4).mono ?_
  rintro c5 s5 ⟨h5, i5⟩
  rw [nonzero_split rfl, nonzero_split rfl, nonzero_split rfl, nonzero_split rfl] at h5
  exact ⟨h5, i5⟩

theorem orAll_getLsbD {K : Nat} (ws : List (BitVec K)) (j : Nat) :
    (BinLawful.orAll ws).getLsbD j = ws.any fun w => w.getLsbD j := by
  induction ws with
  | nil => simp
  | cons w ws ih => simp [ih]

theorem nonzero_pack (bits : List (BitVec 1)) :
    nonzero (BinLawful.orAll ((chunksOf 128 bits).map (packWord 128))) = BinLawful.orAll bits := by
  rw [orAll_bits, nonzero]
  congr 1
  rw [Bool.eq_iff_iff, decide_eq_true_iff, nonzero_iff, List.any_eq_true]
  constructor
  · rintro ⟨j, hj⟩
    rw [orAll_getLsbD, List.any_eq_true] at hj
    obtain ⟨w, hw, hwj⟩ := hj
    obtain ⟨ch, hch, rfl⟩ := List.mem_map.1 hw
    rw [packWord_getLsbD _ (mem_chunksOf_length 128 bits ch hch)] at hwj
    cases hb : ch[j]? with
    | none => rw [hb] at hwj; simp at hwj
    | some b =>
      rw [hb] at hwj
      refine ⟨b, ?_, by simpa using hwj⟩
      rw [← chunksOf_flatten (n := 128) (by decide) bits]
      exact List.mem_flatten.2 ⟨ch, hch, List.mem_of_getElem? hb⟩
  · rintro ⟨b, hb, hb'⟩
    rw [← chunksOf_flatten (n := 128) (by decide) bits] at hb
    obtain ⟨ch, hch, hbc⟩ := List.mem_flatten.1 hb
    obtain ⟨j, hj⟩ := List.mem_iff_getElem?.1 hbc
    refine ⟨j, ?_⟩
    rw [orAll_getLsbD, List.any_eq_true]
    refine ⟨packWord 128 ch, List.mem_map.2 ⟨ch, hch, rfl⟩, ?_⟩
    rw [packWord_getLsbD _ (mem_chunksOf_length 128 bits ch hch), hj]
    simpa using hb'

/-- `reduce_binary_or` computes the OR of all bits, for every chunk size `≥ 1` and number `≥ 1` of bits. -/
theorem reduceBinaryOr (L : FamLawful fam Rel Inv) {u : Nat} {st : Party → σ} {bits : List (BitVec 1)}
    {a : Party → List (B 1)} {cs : Nat} (hcs : cs ≠ 0) (hne : bits ≠ []) (hI : Inv u st)
    (ha : Rels (Rel 1) bits a) :
    WPS (fun i => (fam i).reduceBinaryOr (a i) cs) st
      (fun c st' => Rel 1 (BinLawful.orAll bits) c ∧
        Inv (u + 128 * ((bits.length + 127) / 128 - 1) + 127) st') := by
  unfold BinFam.reduceBinaryOr
  have hne' : (chunksOf 128 bits).map (packWord 128) ≠ [] := by
    rw [chunksOf_cons (by decide) hne]; simp
  refine WPS.bind (((L.bin 128 (by decide) (by decide)).orTree hcs hI (L.pack 128 ha) hne').mono ?_)
  rintro c st' ⟨hc, hI'⟩
  refine (L.reduceOrU128 hI' hc).mono ?_
  rintro d st'' ⟨hd, hI''⟩
  rw [nonzero_pack] at hd
  refine ⟨hd, ?_⟩
  rw [List.length_map, chunksOf_length (by decide)] at hI''
  exact hI''

end FamLawful

end Verif
