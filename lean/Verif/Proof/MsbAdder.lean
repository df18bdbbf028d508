import Verif.Proof.Fam

/-! # The transposed ripple-carry adder computes the most significant bit of the sum -/

namespace Verif

variable {σ : Type} {B : Nat → Type}

/-- One packed row: bit `t` of word `w` is `g` of element `128 w + t`. -/
def laneRow {Z : Type} (g : Z → Bool) (zs : List Z) : List (BitVec 128) := (chunksOf 128 zs).map (laneWord g)

theorem laneRow_length {Z : Type} (g : Z → Bool) (zs : List Z) :
    (laneRow g zs).length = (zs.length + 127) / 128 := by
  rw [laneRow, List.length_map, chunksOf_length (by decide)]; rfl

theorem zipWith_laneRow {Z : Type} (op : BitVec 128 → BitVec 128 → BitVec 128) (g h k : Z → Bool) (zs : List Z)
    (hop : ∀ ch : List Z, ch.length ≤ 128 → op (laneWord g ch) (laneWord h ch) = laneWord k ch) :
    List.zipWith op (laneRow g zs) (laneRow h zs) = laneRow k zs := by
  unfold laneRow
  rw [List.zipWith_map, List.zipWith_self]
  apply List.map_congr_left
  intro ch hch
  exact hop ch (mem_chunksOf_length _ _ _ hch)

theorem laneRow_xor {Z : Type} (g h : Z → Bool) (zs : List Z) :
    List.zipWith (· ^^^ ·) (laneRow g zs) (laneRow h zs) = laneRow (fun z => g z ^^ h z) zs :=
  zipWith_laneRow _ _ _ _ _ (fun ch hl => laneWord_xor g h ch hl)

theorem laneRow_and {Z : Type} (g h : Z → Bool) (zs : List Z) :
    List.zipWith (· &&& ·) (laneRow g zs) (laneRow h zs) = laneRow (fun z => g z && h z) zs :=
  zipWith_laneRow _ _ _ _ _ (fun ch hl => laneWord_and g h ch hl)

theorem chunksOf_map {X Y : Type} (f : X → Y) (n : Nat) (l : List X) :
    chunksOf n (l.map f) = (chunksOf n l).map (List.map f) := by
  induction hk : l.length using Nat.strong_induction_on generalizing l with
  | _ k ih =>
    by_cases hc : n = 0 ∨ l = []
    · have h1 : chunksOf n l = [] := by unfold chunksOf; rw [dif_pos hc]
      have h2 : chunksOf n (l.map f) = [] := by
        unfold chunksOf; rw [dif_pos]
        rcases hc with hc | hc
        · exact .inl hc
        · subst hc; exact .inr rfl
      rw [h1, h2]; rfl
    · push Not at hc
      have : 0 < l.length := List.length_pos_iff.2 hc.2
      rw [chunksOf_cons hc.1 hc.2, chunksOf_cons hc.1 (by simpa using hc.2), List.map_cons,
        ← List.map_take, ← List.map_drop, ih _ (by simp only [List.length_drop]; omega) _ rfl]

theorem laneRow_map {X Z : Type} (f : Z → X) (g : X → Bool) (zs : List Z) :
    laneRow g (zs.map f) = laneRow (fun z => g (f z)) zs := by
  unfold laneRow
  rw [chunksOf_map, List.map_map]
  apply List.map_congr_left
  intro ch _
  simp [laneWord, Function.comp_def]

theorem laneRow_congr {Z : Type} {g h : Z → Bool} {zs : List Z} (hgh : ∀ z, g z = h z) :
    laneRow g zs = laneRow h zs := by
  have : g = h := funext hgh
  rw [this]

/-- Cutting a concatenation of lists of equal length `m` into pieces of length `m` gives the lists back. -/
theorem chunksOf_flatten_uniform {X : Type} {m : Nat} (hm : m ≠ 0) (ls : List (List X))
    (h : ∀ l ∈ ls, l.length = m) : chunksOf m ls.flatten = ls := by
  induction ls with
  | nil => exact chunksOf_nil m
  | cons l ls ih =>
    have hl : l.length = m := h l (by simp)
    rw [List.flatten_cons, chunksOf_cons hm (by
        intro hc
        have := congrArg List.length hc
        simp at this; rw [this.1] at hl; simp at hl; omega),
      List.take_left' hl, List.drop_left' hl, ih (fun l' h' => h l' (by simp [h']))]

theorem popE_range {X : Type} (f : Nat → X) (n : Nat) :
    popE ((List.range (n + 1)).map f) = .ok (f n, (List.range n).map f) := by
  rw [List.range_succ, List.map_append]
  simp [popE]

/-- Bits of the packed row, in order. -/
theorem flatten_laneRow_bits {Z : Type} (g : Z → Bool) (zs : List Z) :
    ((laneRow g zs).flatMap toBits).take zs.length = zs.map (fun z => bitOf (g z)) := by
  unfold laneRow
  induction hk : zs.length using Nat.strong_induction_on generalizing zs with
  | _ k ih =>
    subst hk
    by_cases hz : zs = []
    · subst hz; simp
    · have hpos : 0 < zs.length := List.length_pos_iff.2 hz
      rw [chunksOf_cons (by decide) hz, List.map_cons, List.flatMap_cons]
      have hch : (zs.take 128).length ≤ 128 := by simp
      have hbits : ∀ m ≤ (zs.take 128).length,
          (toBits (laneWord g (zs.take 128))).take m = (zs.take m).map (fun z => bitOf (g z)) := by
        intro m hm
        rw [List.length_take] at hm
        apply List.ext_getElem?
        intro j
        by_cases hj : j < m
        · rw [List.getElem?_take_of_lt hj, toBits_getElem? _ _ (by omega), laneWord_getLsbD _ _ hch,
            List.getElem?_map, List.getElem?_take_of_lt hj, List.getElem?_take_of_lt (by omega),
            List.getElem?_eq_getElem (show j < zs.length by omega)]
          rfl
        · rw [List.getElem?_eq_none (by simp; omega), List.getElem?_eq_none (by simp; omega)]
      by_cases hl : zs.length ≤ 128
      · rw [List.take_append_of_le_length (by simpa using hl), hbits _ (by simp [hl]), List.take_length]
      · rw [List.take_append, toBits_length, List.take_of_length_le (by simp; omega)]
        have h1 := hbits 128 (by simp; omega)
        rw [List.take_of_length_le (by simp)] at h1
        have h2 := ih (zs.drop 128).length (by simp only [List.length_drop]; omega) (zs.drop 128) rfl
        rw [List.length_drop] at h2
        rw [h1, h2, ← List.map_append, List.take_append_drop]

/-! ## The lane computation -/

section lane
variable {K : Nat}

/-- Sum bit and shifted carry of the first full adder. -/
def laneS (z : BitVec K × BitVec K × BitVec K) : BitVec K := z.1 ^^^ (z.2.1 ^^^ z.2.2)
def laneC (z : BitVec K × BitVec K × BitVec K) : BitVec K := ((z.1 ^^^ z.2.2) &&& (z.2.1 ^^^ z.2.2)) ^^^ z.2.2

/-- The carry into bit `j` of `S + 2 C`. -/
def laneCarry (z : BitVec K × BitVec K × BitVec K) (j : Nat) : Bool :=
  BitVec.carry j (laneS z) (laneC z <<< 1) false

theorem laneC_shift (z : BitVec K × BitVec K × BitVec K) (j : Nat) (h : j + 1 < K) :
    (laneC z <<< 1).getLsbD (j + 1) = (laneC z).getLsbD j := by
  simp [h, BitVec.getLsbD_eq_getElem (show j < K by omega)]

theorem laneCarry_two (z : BitVec K × BitVec K × BitVec K) (h : 1 < K) :
    laneCarry z 2 = ((laneS z).getLsbD 1 && (laneC z).getLsbD 0) := by
  unfold laneCarry
  rw [BitVec.carry_succ, BitVec.carry_succ, laneC_shift z 0 (by omega)]
  have : (laneC z <<< 1).getLsbD 0 = false := by simp
  rw [this]
  simp [Bool.atLeastTwo]

theorem laneCarry_succ (z : BitVec K × BitVec K × BitVec K) (j : Nat) (h : j + 1 < K) :
    laneCarry z (j + 2) = (((((laneS z).getLsbD (j + 1) ^^ laneCarry z (j + 1)) &&
      ((laneC z).getLsbD j ^^ laneCarry z (j + 1)))) ^^ laneCarry z (j + 1)) := by
  unfold laneCarry
  rw [BitVec.carry_succ, laneC_shift z j h]
  generalize (laneS z).getLsbD (j + 1) = a
  generalize (laneC z).getLsbD j = b
  generalize BitVec.carry (j + 1) (laneS z) (laneC z <<< 1) false = c
  cases a <;> cases b <;> cases c <;> rfl

theorem lane_msb (z : BitVec K × BitVec K × BitVec K) (h : 1 < K) :
    (((laneS z).getLsbD (K - 1) ^^ (laneC z).getLsbD (K - 2)) ^^ laneCarry z (K - 1))
      = (z.1 + z.2.1 + z.2.2).getLsbD (K - 1) := by
  rw [← full_adder z.1 z.2.1 z.2.2]
  change _ = (laneS z + laneC z <<< 1).getLsbD (K - 1)
  rw [BitVec.getLsbD_add (by omega)]
  have := laneC_shift z (K - 2) (by omega)
  rw [show K - 2 + 1 = K - 1 by omega] at this
  rw [this, Bool.xor_assoc]
  rfl

end lane

/-! ## The protocol -/

namespace FamLawful

variable {fam : Party → BinFam σ B} {Rel : (K : Nat) → BitVec K → (Party → B K) → Prop}
  {Inv : Nat → (Party → σ) → Prop}

theorem transposePack (L : FamLawful fam Rel Inv) {K : Nat} {xs : List (BitVec K)} {a : Party → List (B K)}
    (ha : Rels (Rel K) xs a) :
    Rels (Rels (Rel 128)) ((List.range K).map fun j => laneRow (fun x : BitVec K => x.getLsbD j) xs)
      (fun i => (fam i).transposePack (a i)) := by
  unfold BinFam.transposePack
  have key : ∀ (chs : List (List (BitVec K))) (cs : Party → List (List (B K)))
      (accP : Nat → List (BitVec 128)) (acc : Party → List (List (B 128))),
      (∀ ch ∈ chs, ch.length ≤ 128) →
      Rels (Rels (Rel K)) chs cs →
      Rels (Rels (Rel 128)) ((List.range K).map accP) acc →
      Rels (Rels (Rel 128))
        ((List.range K).map fun j => accP j ++ chs.map (laneWord (fun x : BitVec K => x.getLsbD j)))
        (fun i => (cs i).foldl (fun res ch => List.zipWith (fun des src => des ++ [src]) res
          ((fam i).mapLists (transposeInput K 128) ch)) (acc i)) := by
    intro chs
    induction chs with
    | nil =>
      intro cs accP acc _ hcs hacc
      rw [hcs.eq_nil]
      simpa using hacc
    | cons ch chs ih =>
      intro cs accP acc hlen hcs hacc
      obtain ⟨c, cs', hc, hcs', rfl⟩ := hcs.uncons
      have hrow := L.mapLists (transpose_linear K ch.length (hlen ch (by simp))) rfl hc
      have hstep := Rels.zipWith (R := Rels (Rel 128)) (S := Rel 128) (T := Rels (Rel 128))
        (f := fun des src => des ++ [src]) (g := fun _ des src => des ++ [src])
        (fun x y b c h h' => Rels.append h (Rels.singleton h')) hacc hrow
      rw [transposeInput_eq, List.zipWith_map, List.zipWith_self] at hstep
      have := ih cs' (fun j => accP j ++ [laneWord (fun x : BitVec K => x.getLsbD j) ch]) _
        (fun ch' h' => hlen ch' (by simp [h'])) hcs' hstep
      simpa [List.append_assoc] using this
  have := key (chunksOf 128 xs) (fun i => chunksOf 128 (a i)) (fun _ => []) (fun _ => List.replicate K [])
    (mem_chunksOf_length 128 xs) (ha.chunksOf 128) (by
      have h0 : ∀ n, Rels (Rels (Rel 128)) (List.replicate n ([] : List (BitVec 128)))
          (fun _ : Party => List.replicate n ([] : List (B 128))) := by
        intro n
        induction n with
        | zero => exact Rels.nil
        | succ n ih => exact Rels.cons Rels.nil ih
      simpa [List.map_const'] using h0 K)
  simpa [laneRow] using this

theorem transposedXor (L : FamLawful fam Rel Inv) {r : List Nat} {Z : Type} {zs : List Z}
    {g h : Nat → Z → Bool} {a b : Party → List (List (B 128))}
    (ha : Rels (Rels (Rel 128)) (r.map fun j => laneRow (g j) zs) a)
    (hb : Rels (Rels (Rel 128)) (r.map fun j => laneRow (h j) zs) b) :
    Rels (Rels (Rel 128)) (r.map fun j => laneRow (fun z => g j z ^^ h j z) zs)
      (fun i => (fam i).transposedXor (a i) (b i)) := by
  have := Rels.zipWith (R := Rels (Rel 128)) (S := Rels (Rel 128)) (T := Rels (Rel 128))
    (f := List.zipWith (· ^^^ ·)) (g := fun i => List.zipWith ((fam i).ops 128).xor)
    (fun x y b c h h' => Rels.zipWith (f := (· ^^^ ·)) (g := fun i => ((fam i).ops 128).xor)
      (fun _ _ _ _ h1 h2 => (L.bin 128 (by decide) (by decide)).xor h1 h2) h h') ha hb
  rw [List.zipWith_map, List.zipWith_self] at this
  simp only [laneRow_xor] at this
  exact this

theorem xorRow (L : FamLawful fam Rel Inv) {Z : Type} {zs : List Z} {g h : Z → Bool}
    {a b : Party → List (B 128)} (ha : Rels (Rel 128) (laneRow g zs) a) (hb : Rels (Rel 128) (laneRow h zs) b) :
    ∃ c : Party → List (B 128), Rels (Rel 128) (laneRow (fun z => g z ^^ h z) zs) c ∧
      ∀ i, ((fam i).ops 128).xorMany (a i) (b i) = .ok (c i) := by
  have := (L.bin 128 (by decide) (by decide)).xorMany ha hb (by simp [laneRow_length])
  rwa [laneRow_xor] at this

theorem andRow (L : FamLawful fam Rel Inv) {Z : Type} {zs : List Z} {g h : Z → Bool} {u : Nat}
    {st : Party → σ} (hI : Inv u st)
    {a b : Party → List (B 128)} (ha : Rels (Rel 128) (laneRow g zs) a) (hb : Rels (Rel 128) (laneRow h zs) b) :
    WPS (fun i => ((fam i).ops 128).andMany (a i) (b i)) st
      (fun c st' => Rels (Rel 128) (laneRow (fun z => g z && h z) zs) c ∧
        Inv (u + 128 * ((zs.length + 127) / 128)) st') := by
  have := (L.bin 128 (by decide) (by decide)).andMany hI ha hb (by simp [laneRow_length])
  rwa [laneRow_and, laneRow_length] at this

theorem zipWith_flatten {X Y Z : Type} (f : X → Y → Z) (xss : List (List X)) (yss : List (List Y))
    (h : List.Forall₂ (fun x y => x.length = y.length) xss yss) :
    List.zipWith f xss.flatten yss.flatten = (List.zipWith (List.zipWith f) xss yss).flatten := by
  induction h with
  | nil => rfl
  | cons hxy _ ih => simp only [List.flatten_cons, List.zipWith_append hxy, ih, List.zipWith_cons_cons]

theorem transposedAnd (L : FamLawful fam Rel Inv) {n : Nat} {Z : Type} {zs : List Z} (hz : zs ≠ [])
    {g h : Nat → Z → Bool} {a b : Party → List (List (B 128))} {u : Nat} {st : Party → σ} (hI : Inv u st)
    (ha : Rels (Rels (Rel 128)) ((List.range (n + 1)).map fun j => laneRow (g j) zs) a)
    (hb : Rels (Rels (Rel 128)) ((List.range (n + 1)).map fun j => laneRow (h j) zs) b) :
    WPS (fun i => (fam i).transposedAnd (a i) (b i)) st
      (fun c st' => Rels (Rels (Rel 128)) ((List.range (n + 1)).map fun j => laneRow (fun z => g j z && h j z) zs) c ∧
        Inv (u + 128 * ((n + 1) * ((zs.length + 127) / 128))) st') := by
  have hpos : 0 < zs.length := List.length_pos_iff.2 hz
  unfold BinFam.transposedAnd
  obtain ⟨f0, hf0, ef0⟩ := ha.idx (n := 0) (x := laneRow (g 0) zs) (by simp)
  refine WPS.bind (WPS.lift ef0 ?_)
  have hlen : ∀ (k : Nat → Z → Bool), ((List.range (n + 1)).map fun j => laneRow (k j) zs).flatten.length
      = (n + 1) * ((zs.length + 127) / 128) := by
    intro k
    rw [List.length_flatten, List.map_map]
    have : (List.length ∘ fun j => laneRow (k j) zs) = fun _ => (zs.length + 127) / 128 := by
      funext j; simp [laneRow_length]
    rw [this, List.map_const', List.sum_replicate_nat, List.length_range]
  refine WPS.bind (((L.bin 128 (by decide) (by decide)).andMany hI ha.flatten hb.flatten (by rw [hlen, hlen])).mono ?_)
  rintro c st' ⟨hc, hI'⟩
  rw [zipWith_flatten _ _ _ (by
    rw [List.forall₂_map_left_iff, List.forall₂_map_right_iff, List.forall₂_same]
    intro j _; simp [laneRow_length]), List.zipWith_map, List.zipWith_self] at hc
  simp only [laneRow_and] at hc
  rw [hlen] at hI'
  have hm : (zs.length + 127) / 128 ≠ 0 := by omega
  obtain ⟨d, hd, ed⟩ := hc.chunksE hm
  rw [chunksOf_flatten_uniform hm _ (by
    intro l hl
    obtain ⟨j, _, rfl⟩ := List.mem_map.1 hl
    exact laneRow_length _ _)] at hd
  refine WPS.lift (a := d) (fun i => ?_) ⟨hd, hI'⟩
  rw [hf0.length, laneRow_length]; exact ed i

theorem rippleLoop (L : FamLawful fam Rel Inv) {K : Nat} {zs : List (BitVec K × BitVec K × BitVec K)} (n : Nat) :
    ∀ (j : Nat) {u : Nat} {st : Party → σ} {a b : Party → List (List (B 128))} {c : Party → List (B 128)},
    j + 1 + n ≤ K → Inv u st →
    Rels (Rels (Rel 128)) ((List.range' (j + 1) n).map fun t => laneRow (fun z => (laneS z).getLsbD t) zs) a →
    Rels (Rels (Rel 128)) ((List.range' (j + 1) n).map fun t => laneRow (fun z => (laneC z).getLsbD (t - 1)) zs) b →
    Rels (Rel 128) (laneRow (fun z => laneCarry z (j + 1)) zs) c →
    WPS (fun i => (fam i).rippleLoop ((a i).zip (b i)) (c i)) st
      (fun r st' => Rels (Rel 128) (laneRow (fun z => laneCarry z (j + 1 + n)) zs) r ∧
        Inv (u + 128 * (n * ((zs.length + 127) / 128))) st') := by
  induction n with
  | zero =>
    intro j u st a b c _ hI ha hb hc
    rw [List.range'_zero, List.map_nil] at ha
    rw [ha.eq_nil]
    exact WPS.pure ⟨hc, by simpa using hI⟩
  | succ n ih =>
    intro j u st a b c hK hI ha hb hc
    rw [List.range'_succ, List.map_cons] at ha hb
    obtain ⟨a0, a', ha0, ha', rfl⟩ := ha.uncons
    obtain ⟨b0, b', hb0, hb', rfl⟩ := hb.uncons
    simp only [List.zip_cons_cons, BinFam.rippleLoop]
    obtain ⟨ta, hta, eta⟩ := L.xorRow ha0 hc
    refine WPS.bind (WPS.lift eta ?_)
    obtain ⟨tb, htb, etb⟩ := L.xorRow hb0 hc
    refine WPS.bind (WPS.lift etb ?_)
    refine WPS.bind ((L.andRow hI hta htb).mono ?_)
    rintro tc st' ⟨htc, hI'⟩
    obtain ⟨c', hc', ec'⟩ := L.xorRow htc hc
    refine WPS.bind (WPS.lift ec' ?_)
    rw [laneRow_congr (h := fun z => laneCarry z (j + 1 + 1)) (fun z => by
      rw [laneCarry_succ z j (by omega)]; rfl)] at hc'
    refine (ih (j + 1) (by omega) hI' ha' hb' hc').mono ?_
    rintro r st'' ⟨hr, hI''⟩
    constructor
    · rw [show j + 1 + (n + 1) = j + 1 + 1 + n by omega]; exact hr
    · rw [show u + 128 * ((n + 1) * ((zs.length + 127) / 128))
        = u + 128 * ((zs.length + 127) / 128) + 128 * (n * ((zs.length + 127) / 128)) by ring]
      exact hI''

theorem rowsCongr {r : List Nat} {Z : Type} {zs : List Z} {g : Nat → Z → Bool} (h : Nat → Z → Bool)
    {a : Party → List (List (B 128))} (hgh : ∀ j z, g j z = h j z)
    (ha : Rels (Rels (Rel 128)) (r.map fun j => laneRow (g j) zs) a) :
    Rels (Rels (Rel 128)) (r.map fun j => laneRow (h j) zs) a := by
  have : g = h := funext fun j => funext fun z => hgh j z
  rw [← this]; exact ha

/-- Joint `pop`. -/
theorem pop_last {X C : Type} {R : X → (Party → C) → Prop} {xs : List X} {x : X} {ls : Party → List C}
    (h : Rels R (xs ++ [x]) ls) :
    ∃ p : Party → C × List C, R x (fun i => (p i).1) ∧ Rels R xs (fun i => (p i).2) ∧
      ∀ i, popE (ls i) = .ok (p i) := by
  obtain ⟨b, hb, hb'⟩ := h.get? (n := xs.length) (x := x) (by simp)
  have ht := h.take xs.length
  rw [List.take_left' rfl] at ht
  refine ⟨fun i => (b i, (ls i).take xs.length), hb, ht, fun i => ?_⟩
  have hl : (ls i).length = xs.length + 1 := by rw [h.length]; simp
  unfold popE
  rw [List.getLast?_eq_getElem?, hl, Nat.add_sub_cancel, hb' i]
  simp only [List.dropLast_eq_take, hl, Nat.add_sub_cancel]

theorem pop_range {X C : Type} {R : X → (Party → C) → Prop} {f : Nat → X} {n : Nat} {ls : Party → List C}
    (h : Rels R ((List.range (n + 1)).map f) ls) :
    ∃ p : Party → C × List C, R (f n) (fun i => (p i).1) ∧ Rels R ((List.range n).map f) (fun i => (p i).2) ∧
      ∀ i, popE (ls i) = .ok (p i) := by
  rw [List.range_succ, List.map_append] at h
  exact pop_last h

theorem range_drop (n k : Nat) : (List.range (k + n)).drop k = List.range' k n := by
  rw [List.range_eq_range', List.drop_range']
  congr 1 <;> omega

/-- `msb_adder_many` computes the most significant bit of `x1 + x2 + x3` position by position, for every
number of positions `≥ 1` and every ring of at least 3 bits. -/
theorem msbAdderMany (L : FamLawful fam Rel Inv) {K : Nat} (hK : 3 ≤ K)
    {zs : List (BitVec K × BitVec K × BitVec K)} (hz : zs ≠ []) {u : Nat} {st : Party → σ} (hI : Inv u st)
    {a1 a2 a3 : Party → List (B K)} (h1 : Rels (Rel K) (zs.map fun z => z.1) a1)
    (h2 : Rels (Rel K) (zs.map fun z => z.2.1) a2) (h3 : Rels (Rel K) (zs.map fun z => z.2.2) a3) :
    WPS (fun i => (fam i).msbAdderMany (a1 i) (a2 i) (a3 i)) st
      (fun r st' => Rels (Rel 1) (zs.map fun z => bitOf ((z.1 + z.2.1 + z.2.2).getLsbD (K - 1))) r ∧
        Inv (u + 128 * ((2 * K - 3) * ((zs.length + 127) / 128))) st') := by
  obtain ⟨n, rfl⟩ : ∃ n, K = n + 3 := ⟨K - 3, by omega⟩
  unfold BinFam.msbAdderMany
  refine WPS.ite_neg (fun i => by simp [h1.length, h2.length, h3.length]) ?_
  have t1 := L.transposePack h1
  have t2 := L.transposePack h2
  have t3 := L.transposePack h3
  simp only [laneRow_map] at t1 t2 t3
  have t23 := L.transposedXor t2 t3
  have ts := L.transposedXor t1 t23
  have t13 := L.transposedXor t1 t3
  have ts' := rowsCongr (fun j z => (laneS z).getLsbD j) (fun j z => by simp [laneS]) ts
  obtain ⟨p13, -, hp13, ep13⟩ := pop_range t13
  obtain ⟨p23, -, hp23, ep23⟩ := pop_range t23
  obtain ⟨p3, -, hp3, ep3⟩ := pop_range t3
  refine WPS.bind (WPS.lift ep13 ?_)
  refine WPS.bind (WPS.lift ep23 ?_)
  refine WPS.bind (WPS.lift ep3 ?_)
  refine WPS.bind ((L.transposedAnd hz hI hp13 hp23).mono ?_)
  rintro c st1 ⟨hc, hI1⟩
  have tb := L.transposedXor hc hp3
  have tb' := rowsCongr (fun j z => (laneC z).getLsbD j) (fun j z => by simp [laneC]) tb
  clear ts tb t13 t23 t1 t2 t3 hc hp13 hp23 hp3
  obtain ⟨r1, hr1, er1⟩ := ts'.idx (n := 1) (x := laneRow (fun z => (laneS z).getLsbD 1) zs) (by simp)
  refine WPS.bind (WPS.lift er1 ?_)
  obtain ⟨r0, hr0, er0⟩ := tb'.idx (n := 0) (x := laneRow (fun z => (laneC z).getLsbD 0) zs) (by simp)
  refine WPS.bind (WPS.lift er0 ?_)
  refine WPS.bind ((L.andRow hI1 hr1 hr0).mono ?_)
  rintro c2 st2 ⟨hc2, hI2⟩
  rw [laneRow_congr (h := fun z => laneCarry z (1 + 1)) (fun z => by
    rw [laneCarry_two z (by omega)])] at hc2
  obtain ⟨pa, hpa, hpa', epa⟩ := pop_range ts'
  obtain ⟨pb, hpb, hpb', epb⟩ := pop_range tb'
  refine WPS.bind (WPS.lift epa ?_)
  refine WPS.bind (WPS.lift epb ?_)
  have ha := hpa'.drop 2
  have hb := hpb'.drop 1
  rw [← List.map_drop, show n + 2 = 2 + n by omega, range_drop] at ha
  rw [← List.map_drop, show n + 1 = 1 + n by omega, range_drop] at hb
  have hbe : ((List.range' 1 n).map fun t =>
      laneRow (fun z : BitVec (n+3) × BitVec (n+3) × BitVec (n+3) => (laneC z).getLsbD t) zs)
      = (List.range' (1 + 1) n).map fun t => laneRow (fun z => (laneC z).getLsbD (t - 1)) zs := by
    rw [List.range'_eq_map_range, List.range'_eq_map_range, List.map_map, List.map_map]
    apply List.map_congr_left
    intro t _
    apply laneRow_congr; intro z
    show (laneC z).getLsbD (1 + t) = (laneC z).getLsbD (1 + 1 + t - 1)
    congr 1; omega
  rw [hbe] at hb
  refine WPS.bind ((L.rippleLoop n 1 (by omega) hI2 ha hb hc2).mono ?_)
  rintro c3 st3 ⟨hc3, hI3⟩
  obtain ⟨q1, hq1, eq1⟩ := L.xorRow hpa hpb
  refine WPS.bind (WPS.lift eq1 ?_)
  obtain ⟨q2, hq2, eq2⟩ := L.xorRow hq1 hc3
  refine WPS.bind (WPS.lift eq2 ?_)
  rw [laneRow_congr (h := fun z => (z.1 + z.2.1 + z.2.2).getLsbD (n + 2)) (fun z => by
    have := lane_msb z (by omega)
    simp only [show n + 3 - 1 = n + 2 by omega, show n + 3 - 2 = n + 1 by omega] at this
    rw [show 1 + 1 + n = n + 2 by omega]; exact this)] at hq2
  have hbits := Rels.flatMap (S := Rel 1) (f := toBits)
    (g := fun i t => (fam i).mapLists (fun l => l.flatMap toBits) [t])
    (fun w _ b hb => by simpa using L.mapLists (toBits_linear 128 1) rfl (Rels.singleton hb)) hq2
  refine WPS.pure ⟨?_, ?_⟩
  · have hlen : ∀ i, (a1 i).length = zs.length := fun i => by rw [h1.length]; simp
    have htake := hbits.take zs.length
    rw [flatten_laneRow_bits] at htake
    have hfl : ∀ i, zs.length ≤ ((q2 i).flatMap fun t => (fam i).mapLists (fun l => l.flatMap toBits) [t]).length := by
      intro i
      rw [hbits.length i]
      have := congrArg List.length (flatten_laneRow_bits
        (fun z : BitVec (n+3) × BitVec (n+3) × BitVec (n+3) => (z.1 + z.2.1 + z.2.2).getLsbD (n + 2)) zs)
      rw [List.length_take, List.length_map] at this
      omega
    have hres : (fun i => resize ((q2 i).flatMap fun t => (fam i).mapLists (fun l => l.flatMap toBits) [t])
        (a1 i).length ((fam i).zero 1))
        = fun i => ((q2 i).flatMap fun t => (fam i).mapLists (fun l => l.flatMap toBits) [t]).take zs.length := by
      funext i
      unfold resize
      rw [hlen, Nat.sub_eq_zero_of_le (hfl i), List.replicate_zero, List.append_nil]
    rw [hres]
    exact htake
  · convert hI3 using 1
    rw [show 2 * (n + 3) - 3 = (n + 1 + 1) + 1 + n by omega]
    ring

end FamLawful

end Verif
