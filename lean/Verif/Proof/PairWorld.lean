import Verif.Proof.PairQueue
import Verif.Proof.MsbAdder

/-!
# Circuits of AND gates with a corrupt party

The gates of a circuit may be wrong if a party is corrupt. A *world* is a proposition: in the world `w` a relation
`Rel w x s` says that the shares `s` are consistent, and that they represent `x` if `w` holds. Every AND gate moves to a
world that is at least as strong ("the gates so far are right"), and the invariant of the state remembers that the world
holds if there are no errors among the gates recorded in the state.
-/

namespace Verif

variable {σ : Type} {B : Nat → Type} {i : Party}

/-- The honest parties end in some stronger world where `Q` holds. -/
def PK {α : Type} (i : Party) (w : Prop) (p : Party → Proto σ α) (st : Party → σ)
    (Q : Prop → (Party → α) → (Party → σ) → Prop) : Prop :=
  PWS i p st (fun _ => False) (fun _ a s => ∃ w' : Prop, (w' → w) ∧ Q w' a s)

namespace PK

variable {α β : Type} {w : Prop} {st : Party → σ}

theorem mono {p : Party → Proto σ α} {Q Q' : Prop → (Party → α) → (Party → σ) → Prop} (h : PK i w p st Q)
    (hQ : ∀ w' a s, (w' → w) → Q w' a s → Q' w' a s) : PK i w p st Q' :=
  PWS.mono h fun _ a s ⟨w', hw, hq⟩ => ⟨w', hw, hQ w' a s hw hq⟩

theorem bind {p : Party → Proto σ α} {k : Party → α → Proto σ β} {Q : Prop → (Party → β) → (Party → σ) → Prop}
    (h : PK i w p st fun w' a s => PK i w' (fun j => k j (a j)) s Q) : PK i w (fun j => p j >>= k j) st Q := by
  refine PWS.bind (PWS.conseq h (fun _ h => h.elim) ?_)
  rintro m a s ⟨w', hw, h'⟩
  refine PWS.mono h' ?_
  rintro m' b s' ⟨w'', hw', h''⟩
  exact ⟨w'', fun h => hw (hw' h), h''⟩

theorem pure {a : Party → α} {Q : Prop → (Party → α) → (Party → σ) → Prop} (h : Q w a st) :
    PK i w (fun j => (Pure.pure (a j) : Proto σ α)) st Q := PWS.pure ⟨w, id, h⟩

theorem lift {x : Party → Except Err α} {a : Party → α} {Q : Prop → (Party → α) → (Party → σ) → Prop}
    (hx : ∀ j, x j = .ok (a j)) (h : Q w a st) : PK i w (fun j => Proto.lift (x j)) st Q :=
  PWS.lift_ok hx ⟨w, id, h⟩

theorem ite_neg {c : Party → Prop} [∀ k, Decidable (c k)] {p q : Party → Proto σ α}
    {Q : Prop → (Party → α) → (Party → σ) → Prop} (hc : ∀ k, ¬ c k) (h : PK i w q st Q) :
    PK i w (fun k => if c k then p k else q k) st Q := PWS.ite_neg hc h

theorem congr {p q : Party → Proto σ α} {Q : Prop → (Party → α) → (Party → σ) → Prop} (hpq : ∀ k, p k = q k)
    (h : PK i w q st Q) : PK i w p st Q := PWS.congr hpq h

end PK

/-- The laws of a backend with worlds. -/
structure WorldLawful (i : Party) (fam : Party → BinFam σ B) (Rel : Prop → (K : Nat) → BitVec K → (Party → B K) → Prop)
    (Inv : Prop → Nat → (Party → σ) → Prop) : Prop where
  loc : ∀ w, FamLawful fam (Rel w) (fun _ _ => False)
  mono : ∀ {w w' : Prop} {K : Nat} {x : BitVec K} {a : Party → B K}, (w' → w) → Rel w K x a → Rel w' K x a
  and : ∀ {w : Prop} {K u : Nat} {st : Party → σ} {x y : BitVec K} {a b : Party → B K}, 1 ≤ K → K ≤ 128 → Inv w u st →
    Rel w K x a → Rel w K y b →
    PK i w (fun j => ((fam j).ops K).and (a j) (b j)) st (fun w' c st' => Rel w' K (x &&& y) c ∧ Inv w' (u + K) st')
  andMany : ∀ {w : Prop} {K u : Nat} {st : Party → σ} {xs ys : List (BitVec K)} {a b : Party → List (B K)},
    1 ≤ K → K ≤ 128 → Inv w u st → Rels (Rel w K) xs a → Rels (Rel w K) ys b → xs.length = ys.length →
    PK i w (fun j => ((fam j).ops K).andMany (a j) (b j)) st
      (fun w' c st' => Rels (Rel w' K) (List.zipWith (· &&& ·) xs ys) c ∧ Inv w' (u + K * xs.length) st')

namespace WorldLawful

variable {fam : Party → BinFam σ B} {Rel : Prop → (K : Nat) → BitVec K → (Party → B K) → Prop}
  {Inv : Prop → Nat → (Party → σ) → Prop} {w : Prop} {u K : Nat} {st : Party → σ}

theorem monos (L : WorldLawful i fam Rel Inv) {w' : Prop} (h : w' → w) {xs : List (BitVec K)} {a : Party → List (B K)}
    (ha : Rels (Rel w K) xs a) : Rels (Rel w' K) xs a := ha.imp fun _ _ => L.mono h

theorem monoss (L : WorldLawful i fam Rel Inv) {w' : Prop} (h : w' → w) {xs : List (List (BitVec K))}
    {a : Party → List (List (B K))} (ha : Rels (Rels (Rel w K)) xs a) : Rels (Rels (Rel w' K)) xs a :=
  ha.imp fun _ _ => L.monos h

theorem or (L : WorldLawful i fam Rel Inv) {x y : BitVec K} {a b : Party → B K} (h1 : 1 ≤ K) (h2 : K ≤ 128)
    (hI : Inv w u st) (ha : Rel w K x a) (hb : Rel w K y b) :
    PK i w (fun j => ((fam j).ops K).or (a j) (b j)) st (fun w' c st' => Rel w' K (x ||| y) c ∧ Inv w' (u + K) st') := by
  unfold BinOps.or
  refine PK.bind ((L.and h1 h2 hI ha hb).mono ?_)
  rintro w' c st' hw ⟨hc, hI'⟩
  refine PK.pure ⟨?_, hI'⟩
  rw [← BinLawful.xor_and_or]
  have L' := (L.loc w').bin K h1 h2
  exact L'.xor (L'.xor (L.mono hw ha) (L.mono hw hb)) hc

theorem orMany (L : WorldLawful i fam Rel Inv) {xs ys : List (BitVec K)} {a b : Party → List (B K)} (h1 : 1 ≤ K)
    (h2 : K ≤ 128) (hI : Inv w u st) (ha : Rels (Rel w K) xs a) (hb : Rels (Rel w K) ys b) (hl : xs.length = ys.length) :
    PK i w (fun j => ((fam j).ops K).orMany (a j) (b j)) st
      (fun w' c st' => Rels (Rel w' K) (List.zipWith (· ||| ·) xs ys) c ∧ Inv w' (u + K * xs.length) st') := by
  unfold BinOps.orMany
  refine PK.ite_neg (fun j => by simp [ha.length, hb.length, hl]) ?_
  refine PK.bind ((L.andMany h1 h2 hI ha hb hl).mono ?_)
  rintro w' c st' hw ⟨hc, hI'⟩
  have L' := (L.loc w').bin K h1 h2
  obtain ⟨d, hd, hd'⟩ := L'.xorMany (L.monos hw ha) (L.monos hw hb) hl
  refine PK.bind (PK.lift hd' ?_)
  obtain ⟨e, he, he'⟩ := L'.xorMany hc hd (by simp)
  refine PK.lift he' ⟨?_, hI'⟩
  rwa [BinLawful.zipWith_xor_and_or] at he

theorem orChunks (L : WorldLawful i fam Rel Inv) (h1 : 1 ≤ K) (h2 : K ≤ 128)
    {xss yss : List (List (BitVec K))} {a b : Party → List (List (B K))} (hI : Inv w u st)
    (ha : Rels (Rels (Rel w K)) xss a) (hb : Rels (Rels (Rel w K)) yss b)
    (hl : List.Forall₂ (fun xs ys => xs.length = ys.length) xss yss) :
    PK i w (fun j => ((fam j).ops K).orChunks ((a j).zip (b j))) st
      (fun w' c st' => Rels (Rel w' K) (List.zipWith (· ||| ·) xss.flatten yss.flatten) c ∧
        Inv w' (u + K * xss.flatten.length) st') := by
  induction hl generalizing w a b u st with
  | nil =>
    rw [ha.eq_nil]
    exact PK.pure ⟨Rels.nil, by simpa using hI⟩
  | @cons xs ys xss yss hxy _ ih =>
    obtain ⟨a1, a2, k1, k2, rfl⟩ := ha.uncons
    obtain ⟨b1, b2, k3, k4, rfl⟩ := hb.uncons
    simp only [List.zip_cons_cons, BinOps.orChunks]
    refine PK.bind ((L.orMany h1 h2 hI k1 k3 hxy).mono ?_)
    rintro w' c st' hw ⟨hc, hI'⟩
    refine PK.bind ((ih hI' (L.monoss hw k2) (L.monoss hw k4)).mono ?_)
    rintro w'' d st'' hw' ⟨hd, hI''⟩
    refine PK.pure ⟨?_, ?_⟩
    · rw [List.flatten_cons, List.flatten_cons, List.zipWith_append hxy]
      exact (L.monos hw' hc).append hd
    · rw [List.flatten_cons, List.length_append, Nat.mul_add, ← Nat.add_assoc]
      exact hI''

theorem orTreeLoop (L : WorldLawful i fam Rel Inv) (h1 : 1 ≤ K) (h2 : K ≤ 128) {cs : Nat} (hcs : cs ≠ 0)
    {xs : List (BitVec K)} {a : Party → List (B K)} (hI : Inv w u st) (ha : Rels (Rel w K) xs a) (hne : xs ≠ []) :
    PK i w (fun j => ((fam j).ops K).orTreeLoop cs xs.length (a j)) st
      (fun w' c st' => Rels (Rel w' K) [BinLawful.orAll xs] c ∧ Inv w' (u + K * (xs.length - 1)) st') := by
  induction hk : xs.length using Nat.strong_induction_on generalizing w xs a u st with
  | _ k ih =>
    subst hk
    have hpos : 0 < xs.length := List.length_pos_iff.2 hne
    unfold BinOps.orTreeLoop
    by_cases hlt : xs.length > 1
    · simp only [hlt, if_true]
      set num := xs.length / 2 with hnum
      refine PK.ite_neg (fun j => by rw [ha.length]; omega) ?_
      obtain ⟨ca, hca, eca⟩ := (ha.take num).chunksE hcs
      obtain ⟨cb, hcb, ecb⟩ := ((ha.drop num).take num).chunksE hcs
      refine PK.bind (PK.lift eca ?_)
      refine PK.bind (PK.lift ecb ?_)
      refine PK.bind ((L.orChunks h1 h2 hI hca hcb (BinLawful.chunksOf_forall₂ _ _ _ (by simp <;> omega))).mono ?_)
      rintro w' c st' hw ⟨hc, hI'⟩
      rw [chunksOf_flatten hcs, chunksOf_flatten hcs] at hc
      rw [chunksOf_flatten hcs] at hI'
      have hres := hc.append (L.monos hw ((ha.drop num).drop num))
      have hlen : (List.zipWith (· ||| ·) (xs.take num) ((xs.drop num).take num) ++
          (xs.drop num).drop num).length = num + xs.length % 2 := by
        simp; omega
      have := ih (num + xs.length % 2) (by omega) hI' hres
        (by intro h; rw [h] at hlen; simp at hlen; omega) hlen
      refine this.mono ?_
      rintro w'' d st'' hw' ⟨hd, hI''⟩
      constructor
      · convert hd using 2
        rw [BinLawful.orAll_append, BinLawful.orAll_zipWith _ _ (by simp <;> omega)]
        conv_lhs => rw [← List.take_append_drop num xs, ← List.take_append_drop num (xs.drop num)]
        rw [BinLawful.orAll_append, BinLawful.orAll_append, BitVec.or_assoc]
      · rw [List.length_take] at hI''
        convert hI'' using 1
        rw [Nat.add_assoc, ← Nat.mul_add]
        congr 2; omega
    · simp only [hlt, if_false]
      obtain ⟨x, rfl⟩ : ∃ x, xs = [x] := List.length_eq_one_iff.1 (by omega)
      refine PK.pure ⟨?_, by simpa using hI⟩
      simpa using ha

theorem orTree (L : WorldLawful i fam Rel Inv) (h1 : 1 ≤ K) (h2 : K ≤ 128) {cs : Nat} (hcs : cs ≠ 0)
    {xs : List (BitVec K)} {a : Party → List (B K)} (hI : Inv w u st) (ha : Rels (Rel w K) xs a) (hne : xs ≠ []) :
    PK i w (fun j => ((fam j).ops K).orTree cs (a j)) st
      (fun w' c st' => Rel w' K (BinLawful.orAll xs) c ∧ Inv w' (u + K * (xs.length - 1)) st') := by
  unfold BinOps.orTree
  refine PK.bind ((PK.congr (q := fun j => ((fam j).ops K).orTreeLoop cs xs.length (a j))
    (fun j => by rw [ha.length]) (L.orTreeLoop h1 h2 hcs hI ha hne)).mono ?_)
  rintro w' c st' hw ⟨hc, hI'⟩
  obtain ⟨b, hb, eb⟩ := hc.idx (n := 0) rfl
  exact PK.lift eb ⟨hb, hI'⟩

theorem reduceHalf (L : WorldLawful i fam Rel Inv) {T : Nat} (U : Nat) (hU : 1 ≤ U ∧ U ≤ 128)
    {x : BitVec T} {a : Party → B T} (hI : Inv w u st) (ha : Rel w T x a) :
    PK i w (fun j => (fam j).reduceHalf U (a j)) st
      (fun w' c st' => Rel w' U ((splitHalves U x).1 ||| (splitHalves U x).2) c ∧ Inv w' (u + U) st') := by
  unfold BinFam.reduceHalf
  have hh := (L.loc w).mapLists (split_linear T U 1) rfl (Rels.singleton ha)
  obtain ⟨lo, hlo, elo⟩ := hh.idx (n := 0) rfl
  obtain ⟨hi, hhi, ehi⟩ := hh.idx (n := 1) rfl
  refine PK.bind (PK.lift elo ?_)
  refine PK.bind (PK.lift ehi ?_)
  exact L.or hU.1 hU.2 hI hlo hhi

theorem reduceLoop (L : WorldLawful i fam Rel Inv) (e : Nat) {bs : List (BitVec 1)} {a : Party → List (B 1)}
    (hI : Inv w u st) (ha : Rels (Rel w 1) bs a) (hl : bs.length = 2 ^ e) :
    PK i w (fun j => (fam j).reduceLoop (2 ^ e) (a j)) st
      (fun w' c st' => Rels (Rel w' 1) [BinLawful.orAll bs] c ∧ Inv w' (u + (2 ^ e - 1)) st') := by
  induction e generalizing w u st bs a with
  | zero =>
    obtain ⟨b, rfl⟩ := List.length_eq_one_iff.1 (by simpa using hl)
    refine PK.congr (q := fun j => Pure.pure (a j)) (fun j => by rw [BinFam.reduceLoop]; rfl) ?_
    refine PK.pure ⟨by simpa using ha, by simpa using hI⟩
  | succ e ih =>
    have h2 : 2 ^ (e + 1) / 2 = 2 ^ e := by rw [pow_succ]; omega
    have hpos := Nat.two_pow_pos e
    refine PK.congr (fun j => by
      rw [BinFam.reduceLoop, if_neg (by rw [pow_succ]; omega)]) ?_
    simp only [h2]
    refine PK.bind ((L.orMany (by decide) (by decide) hI (ha.take (2 ^ e)) (ha.drop (2 ^ e))
      (by simp [hl, pow_succ] <;> omega)).mono ?_)
    rintro w' c st' hw ⟨hc, hI'⟩
    refine (ih hI' hc (by simp [hl, pow_succ] <;> omega)).mono ?_
    rintro w'' d st'' hw' ⟨hd, hI''⟩
    constructor
    · convert hd using 2
      rw [BinLawful.orAll_zipWith _ _ (by simp [hl, pow_succ] <;> omega), ← BinLawful.orAll_append,
        List.take_append_drop]
    · convert hI'' using 1
      rw [List.length_take, hl, pow_succ]
      omega

theorem reduceOrU8 (L : WorldLawful i fam Rel Inv) {x : BitVec 8}
    {a : Party → B 8} (hI : Inv w u st) (ha : Rel w 8 x a) :
    PK i w (fun j => (fam j).reduceOrU8 (a j)) st
      (fun w' c st' => Rel w' 1 (FamLawful.nonzero x) c ∧ Inv w' (u + 7) st') := by
  unfold BinFam.reduceOrU8
  have hd := (L.loc w).mapLists (toBits_linear 8 1) rfl (Rels.singleton ha)
  refine PK.bind ((L.reduceLoop 3 hI hd (by simp)).mono ?_)
  rintro w' c st' hw ⟨hc, hI'⟩
  obtain ⟨b, hb, eb⟩ := hc.idx (n := 0) rfl
  refine PK.lift eb ⟨?_, hI'⟩
  simpa [FamLawful.nonzero_toBits] using hb

theorem reduceOrU128 (L : WorldLawful i fam Rel Inv) {x : BitVec 128}
    {a : Party → B 128} (hI : Inv w u st) (ha : Rel w 128 x a) :
    PK i w (fun j => (fam j).reduceOrU128 (a j)) st
      (fun w' c st' => Rel w' 1 (FamLawful.nonzero x) c ∧ Inv w' (u + 127) st') := by
  unfold BinFam.reduceOrU128
  refine PK.bind ((L.reduceHalf 64 (by decide) hI ha).mono ?_)
  rintro w1 c1 s1 - ⟨h1, i1⟩
  refine PK.bind ((L.reduceHalf 32 (by decide) i1 h1).mono ?_)
  rintro w2 c2 s2 - ⟨h2, i2⟩
  refine PK.bind ((L.reduceHalf 16 (by decide) i2 h2).mono ?_)
  rintro w3 c3 s3 - ⟨h3, i3⟩
  refine PK.bind ((L.reduceHalf 8 (by decide) i3 h3).mono ?_)
  rintro w4 c4 s4 - ⟨h4, i4⟩
  refine (L.reduceOrU8 i4 h4).mono ?_
  rintro w5 c5 s5 - ⟨h5, i5⟩
  rw [FamLawful.nonzero_split rfl, FamLawful.nonzero_split rfl, FamLawful.nonzero_split rfl,
    FamLawful.nonzero_split rfl] at h5
  exact ⟨h5, i5⟩

theorem reduceBinaryOr (L : WorldLawful i fam Rel Inv) {bits : List (BitVec 1)}
    {a : Party → List (B 1)} {cs : Nat} (hcs : cs ≠ 0) (hne : bits ≠ []) (hI : Inv w u st)
    (ha : Rels (Rel w 1) bits a) :
    PK i w (fun j => (fam j).reduceBinaryOr (a j) cs) st
      (fun w' c st' => Rel w' 1 (BinLawful.orAll bits) c ∧
        Inv w' (u + 128 * ((bits.length + 127) / 128 - 1) + 127) st') := by
  unfold BinFam.reduceBinaryOr
  have hne' : (chunksOf 128 bits).map (packWord 128) ≠ [] := by
    rw [chunksOf_cons (by decide) hne]; simp
  refine PK.bind ((L.orTree (by decide) (by decide) hcs hI ((L.loc w).pack 128 ha) hne').mono ?_)
  rintro w' c st' hw ⟨hc, hI'⟩
  refine (L.reduceOrU128 hI' hc).mono ?_
  rintro w'' d st'' hw' ⟨hd, hI''⟩
  rw [FamLawful.nonzero_pack] at hd
  refine ⟨hd, ?_⟩
  rw [List.length_map, chunksOf_length (by decide)] at hI''
  exact hI''

theorem andRow (L : WorldLawful i fam Rel Inv) {Z : Type} {zs : List Z} {g h : Z → Bool} (hI : Inv w u st)
    {a b : Party → List (B 128)} (ha : Rels (Rel w 128) (laneRow g zs) a) (hb : Rels (Rel w 128) (laneRow h zs) b) :
    PK i w (fun j => ((fam j).ops 128).andMany (a j) (b j)) st
      (fun w' c st' => Rels (Rel w' 128) (laneRow (fun z => g z && h z) zs) c ∧
        Inv w' (u + 128 * ((zs.length + 127) / 128)) st') := by
  have := L.andMany (by decide) (by decide) hI ha hb (by simp [laneRow_length])
  rwa [laneRow_and, laneRow_length] at this

theorem transposedAnd (L : WorldLawful i fam Rel Inv) {n : Nat} {Z : Type} {zs : List Z} (hz : zs ≠ [])
    {g h : Nat → Z → Bool} {a b : Party → List (List (B 128))} (hI : Inv w u st)
    (ha : Rels (Rels (Rel w 128)) ((List.range (n + 1)).map fun j => laneRow (g j) zs) a)
    (hb : Rels (Rels (Rel w 128)) ((List.range (n + 1)).map fun j => laneRow (h j) zs) b) :
    PK i w (fun j => (fam j).transposedAnd (a j) (b j)) st
      (fun w' c st' =>
        Rels (Rels (Rel w' 128)) ((List.range (n + 1)).map fun j => laneRow (fun z => g j z && h j z) zs) c ∧
        Inv w' (u + 128 * ((n + 1) * ((zs.length + 127) / 128))) st') := by
  have hpos : 0 < zs.length := List.length_pos_iff.2 hz
  unfold BinFam.transposedAnd
  obtain ⟨f0, hf0, ef0⟩ := ha.idx (n := 0) (x := laneRow (g 0) zs) (by simp)
  refine PK.bind (PK.lift ef0 ?_)
  have hlen : ∀ (k : Nat → Z → Bool), ((List.range (n + 1)).map fun j => laneRow (k j) zs).flatten.length
      = (n + 1) * ((zs.length + 127) / 128) := by
    intro k
    rw [List.length_flatten, List.map_map]
    have : (List.length ∘ fun j => laneRow (k j) zs) = fun _ => (zs.length + 127) / 128 := by
      funext j; simp [laneRow_length]
    rw [this, List.map_const', List.sum_replicate_nat, List.length_range]
  refine PK.bind ((L.andMany (by decide) (by decide) hI ha.flatten hb.flatten (by rw [hlen, hlen])).mono ?_)
  rintro w' c st' hw ⟨hc, hI'⟩
  rw [FamLawful.zipWith_flatten _ _ _ (by
    rw [List.forall₂_map_left_iff, List.forall₂_map_right_iff, List.forall₂_same]
    intro j _; simp [laneRow_length]), List.zipWith_map, List.zipWith_self] at hc
  simp only [laneRow_and] at hc
  rw [hlen] at hI'
  have hm : (zs.length + 127) / 128 ≠ 0 := by omega
  obtain ⟨d, hd, ed⟩ := hc.chunksE hm
  rw [chunksOf_flatten_uniform hm _ (by
    intro l hl
    obtain ⟨j, _, rfl⟩ := List.mem_map.1 hl
    exact laneRow_length _ _)] at hd
  refine PK.lift (a := d) (fun j => ?_) ⟨hd, hI'⟩
  rw [hf0.length, laneRow_length]; exact ed j

theorem rippleLoop (L : WorldLawful i fam Rel Inv) {K : Nat} {zs : List (BitVec K × BitVec K × BitVec K)} (n : Nat) :
    ∀ (j : Nat) {w : Prop} {u : Nat} {st : Party → σ} {a b : Party → List (List (B 128))} {c : Party → List (B 128)},
    j + 1 + n ≤ K → Inv w u st →
    Rels (Rels (Rel w 128)) ((List.range' (j + 1) n).map fun t => laneRow (fun z => (laneS z).getLsbD t) zs) a →
    Rels (Rels (Rel w 128)) ((List.range' (j + 1) n).map fun t => laneRow (fun z => (laneC z).getLsbD (t - 1)) zs) b →
    Rels (Rel w 128) (laneRow (fun z => laneCarry z (j + 1)) zs) c →
    PK i w (fun k => (fam k).rippleLoop ((a k).zip (b k)) (c k)) st
      (fun w' r st' => Rels (Rel w' 128) (laneRow (fun z => laneCarry z (j + 1 + n)) zs) r ∧
        Inv w' (u + 128 * (n * ((zs.length + 127) / 128))) st') := by
  induction n with
  | zero =>
    intro j w u st a b c _ hI ha hb hc
    rw [List.range'_zero, List.map_nil] at ha
    rw [ha.eq_nil]
    exact PK.pure ⟨hc, by simpa using hI⟩
  | succ n ih =>
    intro j w u st a b c hK hI ha hb hc
    rw [List.range'_succ, List.map_cons] at ha hb
    obtain ⟨a0, a', ha0, ha', rfl⟩ := ha.uncons
    obtain ⟨b0, b', hb0, hb', rfl⟩ := hb.uncons
    simp only [List.zip_cons_cons, BinFam.rippleLoop]
    obtain ⟨ta, hta, eta⟩ := (L.loc w).xorRow ha0 hc
    refine PK.bind (PK.lift eta ?_)
    obtain ⟨tb, htb, etb⟩ := (L.loc w).xorRow hb0 hc
    refine PK.bind (PK.lift etb ?_)
    refine PK.bind ((L.andRow hI hta htb).mono ?_)
    rintro w' tc st' hw ⟨htc, hI'⟩
    obtain ⟨c', hc', ec'⟩ := (L.loc w').xorRow htc (L.monos hw hc)
    refine PK.bind (PK.lift ec' ?_)
    rw [laneRow_congr (h := fun z => laneCarry z (j + 1 + 1)) (fun z => by
      rw [laneCarry_succ z j (by omega)]; rfl)] at hc'
    refine (ih (j + 1) (by omega) hI' (L.monoss hw ha') (L.monoss hw hb') hc').mono ?_
    rintro w'' r st'' hw' ⟨hr, hI''⟩
    constructor
    · rw [show j + 1 + (n + 1) = j + 1 + 1 + n by omega]; exact hr
    · rw [show u + 128 * ((n + 1) * ((zs.length + 127) / 128))
        = u + 128 * ((zs.length + 127) / 128) + 128 * (n * ((zs.length + 127) / 128)) by ring]
      exact hI''

/-- `msb_adder_many` with a corrupt party. -/
theorem msbAdderMany (L : WorldLawful i fam Rel Inv) {K : Nat} (hK : 3 ≤ K)
    {zs : List (BitVec K × BitVec K × BitVec K)} (hz : zs ≠ []) (hI : Inv w u st)
    {a1 a2 a3 : Party → List (B K)} (h1 : Rels (Rel w K) (zs.map fun z => z.1) a1)
    (h2 : Rels (Rel w K) (zs.map fun z => z.2.1) a2) (h3 : Rels (Rel w K) (zs.map fun z => z.2.2) a3) :
    PK i w (fun j => (fam j).msbAdderMany (a1 j) (a2 j) (a3 j)) st
      (fun w' r st' => Rels (Rel w' 1) (zs.map fun z => bitOf ((z.1 + z.2.1 + z.2.2).getLsbD (K - 1))) r ∧
        Inv w' (u + 128 * ((2 * K - 3) * ((zs.length + 127) / 128))) st') := by
  obtain ⟨n, rfl⟩ : ∃ n, K = n + 3 := ⟨K - 3, by omega⟩
  unfold BinFam.msbAdderMany
  refine PK.ite_neg (fun j => by simp [h1.length, h2.length, h3.length]) ?_
  have t1 := (L.loc w).transposePack h1
  have t2 := (L.loc w).transposePack h2
  have t3 := (L.loc w).transposePack h3
  simp only [laneRow_map] at t1 t2 t3
  have t23 := (L.loc w).transposedXor t2 t3
  have ts := (L.loc w).transposedXor t1 t23
  have t13 := (L.loc w).transposedXor t1 t3
  have ts' := FamLawful.rowsCongr (fun j z => (laneS z).getLsbD j) (fun j z => by simp [laneS]) ts
  obtain ⟨p13, -, hp13, ep13⟩ := FamLawful.pop_range t13
  obtain ⟨p23, -, hp23, ep23⟩ := FamLawful.pop_range t23
  obtain ⟨p3, -, hp3, ep3⟩ := FamLawful.pop_range t3
  refine PK.bind (PK.lift ep13 ?_)
  refine PK.bind (PK.lift ep23 ?_)
  refine PK.bind (PK.lift ep3 ?_)
  refine PK.bind ((L.transposedAnd hz hI hp13 hp23).mono ?_)
  rintro w1 c st1 hw1 ⟨hc, hI1⟩
  have tb := (L.loc w1).transposedXor hc (L.monoss hw1 hp3)
  have tb' := FamLawful.rowsCongr (fun j z => (laneC z).getLsbD j) (fun j z => by simp [laneC]) tb
  clear ts tb t13 t23 t1 t2 t3 hc hp13 hp23 hp3
  obtain ⟨r1, hr1, er1⟩ := ts'.idx (n := 1) (x := laneRow (fun z => (laneS z).getLsbD 1) zs) (by simp)
  refine PK.bind (PK.lift er1 ?_)
  obtain ⟨r0, hr0, er0⟩ := tb'.idx (n := 0) (x := laneRow (fun z => (laneC z).getLsbD 0) zs) (by simp)
  refine PK.bind (PK.lift er0 ?_)
  refine PK.bind ((L.andRow hI1 (L.monos hw1 hr1) hr0).mono ?_)
  rintro w2 c2 st2 hw2 ⟨hc2, hI2⟩
  rw [laneRow_congr (h := fun z => laneCarry z (1 + 1)) (fun z => by
    rw [laneCarry_two z (by omega)])] at hc2
  obtain ⟨pa, hpa, hpa', epa⟩ := FamLawful.pop_range (L.monoss hw2 (L.monoss hw1 ts'))
  obtain ⟨pb, hpb, hpb', epb⟩ := FamLawful.pop_range (L.monoss hw2 tb')
  refine PK.bind (PK.lift epa ?_)
  refine PK.bind (PK.lift epb ?_)
  have ha := hpa'.drop 2
  have hb := hpb'.drop 1
  rw [← List.map_drop, show n + 2 = 2 + n by omega, FamLawful.range_drop] at ha
  rw [← List.map_drop, show n + 1 = 1 + n by omega, FamLawful.range_drop] at hb
  have hbe : ((List.range' 1 n).map fun t =>
      laneRow (fun z : BitVec (n+3) × BitVec (n+3) × BitVec (n+3) => (laneC z).getLsbD t) zs)
      = (List.range' (1 + 1) n).map fun t => laneRow (fun z => (laneC z).getLsbD (t - 1)) zs := by
    rw [List.range'_eq_map_range, List.range'_eq_map_range, List.map_map, List.map_map]
    apply List.map_congr_left
    intro t _
    apply laneRow_congr; intro z
    show (laneC z).getLsbD (1 + t) = (laneC z).getLsbD (1 + 1 + t - 1)
    congr 1; omega
  rw [hbe] at hb
  refine PK.bind ((L.rippleLoop n 1 (by omega) hI2 ha hb hc2).mono ?_)
  rintro w3 c3 st3 hw3 ⟨hc3, hI3⟩
  obtain ⟨q1, hq1, eq1⟩ := (L.loc w3).xorRow (L.monos hw3 hpa) (L.monos hw3 hpb)
  refine PK.bind (PK.lift eq1 ?_)
  obtain ⟨q2, hq2, eq2⟩ := (L.loc w3).xorRow hq1 hc3
  refine PK.bind (PK.lift eq2 ?_)
  rw [laneRow_congr (h := fun z => (z.1 + z.2.1 + z.2.2).getLsbD (n + 2)) (fun z => by
    have := lane_msb z (by omega)
    simp only [show n + 3 - 1 = n + 2 by omega, show n + 3 - 2 = n + 1 by omega] at this
    rw [show 1 + 1 + n = n + 2 by omega]; exact this)] at hq2
  have hbits := Rels.flatMap (S := Rel w3 1) (f := toBits)
    (g := fun j t => (fam j).mapLists (fun l => l.flatMap toBits) [t])
    (fun x _ b hb => by simpa using (L.loc w3).mapLists (toBits_linear 128 1) rfl (Rels.singleton hb)) hq2
  refine PK.pure ⟨?_, ?_⟩
  · have hlen : ∀ j, (a1 j).length = zs.length := fun j => by rw [h1.length]; simp
    have htake := hbits.take zs.length
    rw [flatten_laneRow_bits] at htake
    have hfl : ∀ j, zs.length ≤ ((q2 j).flatMap fun t => (fam j).mapLists (fun l => l.flatMap toBits) [t]).length := by
      intro j
      rw [hbits.length j]
      have := congrArg List.length (flatten_laneRow_bits
        (fun z : BitVec (n+3) × BitVec (n+3) × BitVec (n+3) => (z.1 + z.2.1 + z.2.2).getLsbD (n + 2)) zs)
      rw [List.length_take, List.length_map] at this
      omega
    have hres : (fun j => resize ((q2 j).flatMap fun t => (fam j).mapLists (fun l => l.flatMap toBits) [t])
        (a1 j).length ((fam j).zero 1))
        = fun j => ((q2 j).flatMap fun t => (fam j).mapLists (fun l => l.flatMap toBits) [t]).take zs.length := by
      funext j
      unfold resize
      rw [hlen, Nat.sub_eq_zero_of_le (hfl j), List.replicate_zero, List.append_nil]
    rw [hres]
    exact htake
  · convert hI3 using 1
    rw [show 2 * (n + 3) - 3 = (n + 1 + 1) + 1 + n by omega]
    ring

/-! ## The adder -/

theorem koggeLoopMany (L : WorldLawful i fam Rel Inv) (h1 : 1 ≤ K) (h2 : K ≤ 128) (len n j : Nat)
    {p g : List (BitVec K)} {ps gs : Party → List (B K)} (hI : Inv w u st) (hp : Rels (Rel w K) p ps)
    (hg : Rels (Rel w K) g gs) (hlp : p.length = len) (hlg : g.length = len) :
    PK i w (fun k => ((fam k).ops K).koggeLoopMany len n j (ps k) (gs k)) st
      (fun w' r st' => Rels (Rel w' K) (BinLawful.ksLoopL n j p g) (fun k => (r k).2) ∧
        Inv w' (u + K * len * (2 * n)) st') := by
  induction n generalizing w j p g ps gs u st with
  | zero =>
    refine PK.pure ⟨?_, by simpa using hI⟩
    have : BinLawful.ksLoopL 0 j p g = g := by
      unfold BinLawful.ksLoopL ksLoop
      apply List.ext_getElem? ; intro j
      rw [List.getElem?_zipWith]
      by_cases hj : j < len
      · rw [List.getElem?_eq_getElem (by omega), List.getElem?_eq_getElem (by omega)]
      · rw [List.getElem?_eq_none (by omega), List.getElem?_eq_none (by omega)]
    rw [this]; exact hg
  | succ n ih =>
    unfold BinOps.koggeLoopMany
    have L0 := (L.loc w).bin K h1 h2
    refine PK.bind ((L.andMany h1 h2 hI (hp.append hp)
      ((L0.shlMany hg (2 ^ j)).append (L0.shlMany hp (2 ^ j))) (by simp [hlp, hlg])).mono ?_)
    rintro w' c st' hw ⟨hc, hI'⟩
    rw [List.zipWith_append (by simp [hlp, hlg])] at hc
    have hl1 : (List.zipWith (· &&& ·) p (g.map (ringShl · (2 ^ j)))).length = len := by
      simp [hlp, hlg]
    have htg := hc.take len
    rw [List.take_left' hl1] at htg
    have htp := hc.drop len
    rw [List.drop_left' hl1] at htp
    obtain ⟨d, hd, hd'⟩ := ((L.loc w').bin K h1 h2).xorMany (L.monos hw hg) htg (by rw [hl1, hlg])
    refine PK.bind (PK.lift hd' ?_)
    refine (ih (j + 1) hI' htp hd (by simp [hlp]) (by simp [hlp, hlg])).mono ?_
    rintro w'' r st'' hw' ⟨hr, hI''⟩
    constructor
    · convert hr using 1
      unfold BinLawful.ksLoopL
      apply List.ext_getElem?
      intro j
      simp only [List.getElem?_zipWith, List.getElem?_map]
      by_cases hj : j < len
      · rw [List.getElem?_eq_getElem (show j < p.length by omega),
          List.getElem?_eq_getElem (show j < g.length by omega)]
        rfl
      · rw [List.getElem?_eq_none (show p.length ≤ j by omega)]
    · rw [List.length_append, hlp] at hI''
      rw [show u + K * len * (2 * (n + 1)) = u + K * (len + len) + K * len * (2 * n) by ring]
      exact hI''

theorem binaryAdd3Many (L : WorldLawful i fam Rel Inv) (k1 : 1 ≤ K) (k2 : K ≤ 128)
    {x1 x2 x3 : List (BitVec K)} {a1 a2 a3 : Party → List (B K)} (hI : Inv w u st) (h1 : Rels (Rel w K) x1 a1)
    (h2 : Rels (Rel w K) x2 a2) (h3 : Rels (Rel w K) x3 a3) (hl2 : x1.length = x2.length) (hl3 : x1.length = x3.length) :
    PK i w (fun k => ((fam k).ops K).binaryAdd3Many K (a1 k) (a2 k) (a3 k)) st
      (fun w' r st' => Rels (Rel w' K) (List.zipWith (· + ·) (List.zipWith (· + ·) x1 x2) x3) r ∧
        ∃ u', Inv w' u' st') := by
  unfold BinOps.binaryAdd3Many
  refine PK.ite_neg (fun i => by simp [h1.length, h2.length, h3.length, ← hl2, ← hl3]) ?_
  have L0 := (L.loc w).bin K k1 k2
  obtain ⟨x23, h23, e23⟩ := L0.xorMany h2 h3 (by omega)
  refine PK.bind (PK.lift e23 ?_)
  obtain ⟨s, hs, es⟩ := L0.xorMany h1 h23 (by simp <;> omega)
  refine PK.bind (PK.lift es ?_)
  obtain ⟨x13, h13, e13⟩ := L0.xorMany h1 h3 (by omega)
  refine PK.bind (PK.lift e13 ?_)
  refine PK.bind ((L.andMany k1 k2 hI h13 h23 (by simp <;> omega)).mono ?_)
  rintro w1 c st1 hw1 ⟨hc, hI1⟩
  have L1 := (L.loc w1).bin K k1 k2
  obtain ⟨c', hc', ec'⟩ := L1.xorMany hc (L.monos hw1 h3) (by simp <;> omega)
  refine PK.bind (PK.lift ec' ?_)
  have hcs := L1.shlMany hc' 1
  obtain ⟨p, hp, ep⟩ := L1.xorMany (L.monos hw1 hs) hcs (by simp <;> omega)
  refine PK.bind (PK.lift ep ?_)
  refine PK.bind ((L.andMany k1 k2 hI1 (L.monos hw1 hs) hcs (by simp <;> omega)).mono ?_)
  rintro w2 g st2 hw2 ⟨hg, hI2⟩
  refine PK.bind ((PK.congr (q := fun k => ((fam k).ops K).koggeLoopMany x1.length (ceilLog2 K) 0 (p k) (g k))
    (fun i => by rw [h1.length]) (L.koggeLoopMany k1 k2 x1.length (ceilLog2 K) 0 hI2 (L.monos hw2 hp) hg
      (by simp <;> omega) (by simp <;> omega))).mono ?_)
  rintro w3 r st3 hw3 ⟨hr, hI3⟩
  have L3 := (L.loc w3).bin K k1 k2
  have hgs := L3.shlMany hr 1
  obtain ⟨o, ho, eo⟩ := L3.xorMany (L.monos hw3 (L.monos hw2 hp)) hgs (by simp [BinLawful.ksLoopL] <;> omega)
  refine PK.lift eo ⟨?_, _, hI3⟩
  convert ho using 1
  apply List.ext_getElem?
  intro j
  simp only [BinLawful.ksLoopL, List.getElem?_zipWith, List.getElem?_map]
  by_cases hj : j < x1.length
  · rw [List.getElem?_eq_getElem (show j < x1.length by omega),
      List.getElem?_eq_getElem (show j < x2.length by omega),
      List.getElem?_eq_getElem (show j < x3.length by omega)]
    simp only [Option.map_some]
    rw [ks_add, ringShl_one, full_adder]
  · rw [List.getElem?_eq_none (show x1.length ≤ j by omega)]

end WorldLawful

end Verif
