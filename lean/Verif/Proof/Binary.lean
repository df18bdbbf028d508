import Verif.Model.Binary
import Verif.Proof.Proto
import Verif.Proof.Adder

/-! # Correctness of the generic binary protocols over any lawful backend -/

namespace Verif

variable {σ B : Type} {K : Nat}

/-- The laws a backend must satisfy: `Rel x s` says that the three parties' shares `s` represent `x`;
`Inv u st` is the backend's joint state invariant, with `u` the number of AND bits processed so far. -/
structure BinLawful (K : Nat) (ops : Party → BinOps σ B) (Rel : BitVec K → (Party → B) → Prop)
    (Inv : Nat → (Party → σ) → Prop) : Prop where
  xor : ∀ {x y a b}, Rel x a → Rel y b → Rel (x ^^^ y) (fun i => (ops i).xor (a i) (b i))
  shl : ∀ {x a} (n : Nat), Rel x a → Rel (ringShl x n) (fun i => (ops i).shl (a i) n)
  and : ∀ {u st x y a b}, Inv u st → Rel x a → Rel y b →
    WPS (fun i => (ops i).and (a i) (b i)) st (fun c st' => Rel (x &&& y) c ∧ Inv (u + K) st')
  andMany : ∀ {u st xs ys a b}, Inv u st → Rels Rel xs a → Rels Rel ys b → xs.length = ys.length →
    WPS (fun i => (ops i).andMany (a i) (b i)) st
      (fun c st' => Rels Rel (List.zipWith (· &&& ·) xs ys) c ∧ Inv (u + K * xs.length) st')

namespace BinLawful

variable {ops : Party → BinOps σ B} {Rel : BitVec K → (Party → B) → Prop}
  {Inv : Nat → (Party → σ) → Prop}

theorem xorMany (L : BinLawful K ops Rel Inv) {xs ys : List (BitVec K)} {a b : Party → List B}
    (ha : Rels Rel xs a) (hb : Rels Rel ys b) (hl : xs.length = ys.length) :
    ∃ c : Party → List B, Rels Rel (List.zipWith (· ^^^ ·) xs ys) c ∧
      ∀ i, (ops i).xorMany (a i) (b i) = .ok (c i) := by
  refine ⟨_, Rels.zipWith (f := (· ^^^ ·)) (g := fun i => (ops i).xor) (fun _ _ _ _ h h' => L.xor h h') ha hb, fun i => ?_⟩
  simp [BinOps.xorMany, ha.length, hb.length, hl]

theorem shlMany (L : BinLawful K ops Rel Inv) {xs : List (BitVec K)} {a : Party → List B}
    (ha : Rels Rel xs a) (n : Nat) :
    Rels Rel (xs.map (ringShl · n)) (fun i => (ops i).shlMany (a i) n) :=
  Rels.map (g := fun i b => (ops i).shl b n) (fun _ _ h => L.shl n h) ha

theorem xor_and_or (x y : BitVec K) : x ^^^ y ^^^ (x &&& y) = x ||| y := by
  apply BitVec.eq_of_getLsbD_eq
  intro i _
  simp only [BitVec.getLsbD_xor, BitVec.getLsbD_and, BitVec.getLsbD_or]
  cases x.getLsbD i <;> cases y.getLsbD i <;> rfl

theorem or (L : BinLawful K ops Rel Inv) {u : Nat} {st : Party → σ} {x y : BitVec K} {a b : Party → B}
    (hI : Inv u st) (ha : Rel x a) (hb : Rel y b) :
    WPS (fun i => (ops i).or (a i) (b i)) st (fun c st' => Rel (x ||| y) c ∧ Inv (u + K) st') := by
  unfold BinOps.or
  refine WPS.bind ((L.and hI ha hb).mono ?_)
  rintro c st' ⟨hc, hI'⟩
  refine WPS.pure ⟨?_, hI'⟩
  rw [← xor_and_or]
  exact L.xor (L.xor ha hb) hc

theorem zipWith_xor_and_or (xs ys : List (BitVec K)) :
    List.zipWith (· ^^^ ·) (List.zipWith (· &&& ·) xs ys) (List.zipWith (· ^^^ ·) xs ys)
      = List.zipWith (· ||| ·) xs ys := by
  induction xs generalizing ys with
  | nil => simp
  | cons x xs ih => cases ys with
    | nil => simp
    | cons y ys =>
      simp only [List.zipWith_cons_cons, ih]
      rw [BitVec.xor_comm, xor_and_or]

theorem orMany (L : BinLawful K ops Rel Inv) {u : Nat} {st : Party → σ} {xs ys : List (BitVec K)}
    {a b : Party → List B} (hI : Inv u st) (ha : Rels Rel xs a) (hb : Rels Rel ys b)
    (hl : xs.length = ys.length) :
    WPS (fun i => (ops i).orMany (a i) (b i)) st
      (fun c st' => Rels Rel (List.zipWith (· ||| ·) xs ys) c ∧ Inv (u + K * xs.length) st') := by
  unfold BinOps.orMany
  refine WPS.ite_neg (fun i => by simp [ha.length, hb.length, hl]) ?_
  refine WPS.bind ((L.andMany hI ha hb hl).mono ?_)
  rintro c st' ⟨hc, hI'⟩
  obtain ⟨d, hd, hd'⟩ := L.xorMany ha hb hl
  refine WPS.bind (WPS.lift hd' ?_)
  obtain ⟨e, he, he'⟩ := L.xorMany hc hd (by simp)
  refine WPS.lift he' ⟨?_, hI'⟩
  rwa [zipWith_xor_and_or] at he

theorem koggeLoop (L : BinLawful K ops Rel Inv) {u : Nat} {st : Party → σ} (n i : Nat)
    {p g : BitVec K} {ps gs : Party → B} (hI : Inv u st) (hp : Rel p ps) (hg : Rel g gs) :
    WPS (fun j => (ops j).koggeLoop n i (ps j) (gs j)) st
      (fun r st' => Rel (ksLoop n i (p, g)).2 (fun j => (r j).2) ∧ Inv (u + K * (2 * n)) st') := by
  induction n generalizing i p g ps gs u st with
  | zero => exact WPS.pure ⟨hg, by simpa using hI⟩
  | succ n ih =>
    unfold BinOps.koggeLoop
    refine WPS.bind ((L.andMany hI (.cons hp (.singleton hp))
      (.cons (L.shl (2 ^ i) hg) (.singleton (L.shl (2 ^ i) hp))) rfl).mono ?_)
    rintro c st' ⟨hc, hI'⟩
    obtain ⟨p', hp', ep⟩ := hc.idx (n := 1) rfl
    obtain ⟨g', hg', eg⟩ := hc.idx (n := 0) rfl
    refine WPS.bind (WPS.lift ep ?_)
    refine WPS.bind (WPS.lift eg ?_)
    refine (ih (i + 1) hI' hp' (L.xor hg hg')).mono ?_
    rintro r st'' ⟨hr, hI''⟩
    refine ⟨hr, ?_⟩
    rw [show u + K * (2 * (n + 1)) = u + K * 2 + K * (2 * n) by ring]
    exact hI''

/-- `binary_add_3` adds three binary-shared numbers modulo `2^K`. -/
theorem binaryAdd3 (L : BinLawful K ops Rel Inv) {u : Nat} {st : Party → σ}
    {x1 x2 x3 : BitVec K} {a1 a2 a3 : Party → B} (hI : Inv u st) (h1 : Rel x1 a1) (h2 : Rel x2 a2)
    (h3 : Rel x3 a3) :
    WPS (fun i => (ops i).binaryAdd3 K (a1 i) (a2 i) (a3 i)) st
      (fun r st' => Rel (x1 + x2 + x3) r ∧ Inv (u + K * (2 + 2 * ceilLog2 K)) st') := by
  unfold BinOps.binaryAdd3
  refine WPS.bind ((L.and hI (L.xor h1 h3) (L.xor h2 h3)).mono ?_)
  rintro c st1 ⟨hc, hI1⟩
  have hs := L.xor h1 (L.xor h2 h3)
  have hc' := L.shl 1 (L.xor hc h3)
  refine WPS.bind ((L.and hI1 hs hc').mono ?_)
  rintro g st2 ⟨hg, hI2⟩
  refine WPS.bind ((L.koggeLoop (ceilLog2 K) 0 hI2 (L.xor hs hc') hg).mono ?_)
  rintro r st3 ⟨hr, hI3⟩
  refine WPS.pure ⟨?_, ?_⟩
  · have := L.xor (L.xor hs hc') (L.shl 1 hr)
    rw [ks_add, ringShl_one, full_adder] at this
    exact this
  · rw [show u + K * (2 + 2 * ceilLog2 K) = u + K + K + K * (2 * ceilLog2 K) by ring]
    exact hI3

theorem zipWith_append_take {X Y Z : Type} (f : X → Y → Z) (a b : List X) (c d : List Y)
    (h : a.length = c.length) :
    List.zipWith f (a ++ b) (c ++ d) = List.zipWith f a c ++ List.zipWith f b d :=
  List.zipWith_append h

/-- Pointwise Kogge–Stone rounds on vectors. -/
def ksLoopL (n i : Nat) (ps gs : List (BitVec K)) : List (BitVec K) :=
  List.zipWith (fun p g => (ksLoop n i (p, g)).2) ps gs

theorem koggeLoopMany (L : BinLawful K ops Rel Inv) {u : Nat} {st : Party → σ} (len n i : Nat)
    {p g : List (BitVec K)} {ps gs : Party → List B} (hI : Inv u st) (hp : Rels Rel p ps)
    (hg : Rels Rel g gs) (hlp : p.length = len) (hlg : g.length = len) :
    WPS (fun j => (ops j).koggeLoopMany len n i (ps j) (gs j)) st
      (fun r st' => Rels Rel (ksLoopL n i p g) (fun j => (r j).2) ∧ Inv (u + K * len * (2 * n)) st') := by
  induction n generalizing i p g ps gs u st with
  | zero =>
    refine WPS.pure ⟨?_, by simpa using hI⟩
    have : ksLoopL 0 i p g = g := by
      unfold ksLoopL ksLoop
      apply List.ext_getElem? ; intro j
      rw [List.getElem?_zipWith]
      by_cases hj : j < len
      · rw [List.getElem?_eq_getElem (by omega), List.getElem?_eq_getElem (by omega)]
      · rw [List.getElem?_eq_none (by omega), List.getElem?_eq_none (by omega)]
    rw [this]; exact hg
  | succ n ih =>
    unfold BinOps.koggeLoopMany
    refine WPS.bind ((L.andMany hI (hp.append hp)
      ((L.shlMany hg (2 ^ i)).append (L.shlMany hp (2 ^ i))) (by simp [hlp, hlg])).mono ?_)
    rintro c st' ⟨hc, hI'⟩
    rw [List.zipWith_append (by simp [hlp, hlg])] at hc
    have hl1 : (List.zipWith (· &&& ·) p (g.map (ringShl · (2 ^ i)))).length = len := by
      simp [hlp, hlg]
    have htg := hc.take len
    rw [List.take_left' hl1] at htg
    have htp := hc.drop len
    rw [List.drop_left' hl1] at htp
    obtain ⟨d, hd, hd'⟩ := L.xorMany hg htg (by rw [hl1, hlg])
    refine WPS.bind (WPS.lift hd' ?_)
    refine (ih (i + 1) hI' htp hd (by simp [hlp]) (by simp [hlp, hlg])).mono ?_
    rintro r st'' ⟨hr, hI''⟩
    constructor
    · convert hr using 1
      unfold ksLoopL
      apply List.ext_getElem?
      intro j
      simp only [List.getElem?_zipWith, List.getElem?_map]
      by_cases hj : j < len
      · rw [List.getElem?_eq_getElem (show j < p.length by omega),
          List.getElem?_eq_getElem (show j < g.length by omega)]
        rfl
      · rw [List.getElem?_eq_none (show p.length ≤ j by omega)]
    · rw [List.length_append, hlp] at hI''
      rw [show u + K * len * (2 * (n + 1)) = u + K * (len + len) + K * len * (2 * n) by ring]
      exact hI''

/-- `binary_add_3_many` adds position by position. -/
theorem binaryAdd3Many (L : BinLawful K ops Rel Inv) {u : Nat} {st : Party → σ}
    {x1 x2 x3 : List (BitVec K)} {a1 a2 a3 : Party → List B} (hI : Inv u st) (h1 : Rels Rel x1 a1)
    (h2 : Rels Rel x2 a2) (h3 : Rels Rel x3 a3) (hl2 : x1.length = x2.length)
    (hl3 : x1.length = x3.length) :
    WPS (fun i => (ops i).binaryAdd3Many K (a1 i) (a2 i) (a3 i)) st
      (fun r st' => Rels Rel (List.zipWith (· + ·) (List.zipWith (· + ·) x1 x2) x3) r ∧
        Inv (u + K * x1.length * (2 + 2 * ceilLog2 K)) st') := by
  unfold BinOps.binaryAdd3Many
  refine WPS.ite_neg (fun i => by simp [h1.length, h2.length, h3.length, ← hl2, ← hl3]) ?_
  obtain ⟨x23, h23, e23⟩ := L.xorMany h2 h3 (by omega)
  refine WPS.bind (WPS.lift e23 ?_)
  obtain ⟨s, hs, es⟩ := L.xorMany h1 h23 (by simp <;> omega)
  refine WPS.bind (WPS.lift es ?_)
  obtain ⟨x13, h13, e13⟩ := L.xorMany h1 h3 (by omega)
  refine WPS.bind (WPS.lift e13 ?_)
  refine WPS.bind ((L.andMany hI h13 h23 (by simp <;> omega)).mono ?_)
  rintro c st1 ⟨hc, hI1⟩
  obtain ⟨c', hc', ec'⟩ := L.xorMany hc h3 (by simp <;> omega)
  refine WPS.bind (WPS.lift ec' ?_)
  have hcs := L.shlMany hc' 1
  obtain ⟨p, hp, ep⟩ := L.xorMany hs hcs (by simp <;> omega)
  refine WPS.bind (WPS.lift ep ?_)
  refine WPS.bind ((L.andMany hI1 hs hcs (by simp <;> omega)).mono ?_)
  rintro g st2 ⟨hg, hI2⟩
  have hlen : (fun i => (a1 i).length) = fun _ => x1.length := funext fun i => h1.length i
  refine WPS.bind ((WPS.congr (q := fun i => (ops i).koggeLoopMany x1.length (ceilLog2 K) 0 (p i) (g i))
    (fun i => by rw [h1.length]) (L.koggeLoopMany x1.length (ceilLog2 K) 0 hI2 hp hg
      (by simp <;> omega) (by simp <;> omega))).mono ?_)
  rintro r st3 ⟨hr, hI3⟩
  have hgs := L.shlMany hr 1
  obtain ⟨o, ho, eo⟩ := L.xorMany hp hgs (by simp [ksLoopL] <;> omega)
  refine WPS.lift eo ⟨?_, ?_⟩
  · convert ho using 1
    apply List.ext_getElem?
    intro j
    simp only [ksLoopL, List.getElem?_zipWith, List.getElem?_map]
    by_cases hj : j < x1.length
    · rw [List.getElem?_eq_getElem (show j < x1.length by omega),
        List.getElem?_eq_getElem (show j < x2.length by omega),
        List.getElem?_eq_getElem (show j < x3.length by omega)]
      simp only [Option.map_some]
      rw [ks_add, ringShl_one, full_adder]
    · rw [List.getElem?_eq_none (show x1.length ≤ j by omega)]
  · have e1 : (List.zipWith (· ^^^ ·) x1 x3).length = x1.length := by simp; omega
    have e2 : (List.zipWith (· ^^^ ·) x1 (List.zipWith (· ^^^ ·) x2 x3)).length = x1.length := by
      simp; omega
    rw [e1, e2] at hI3
    rw [show u + K * x1.length * (2 + 2 * ceilLog2 K)
      = u + K * x1.length + K * x1.length + K * x1.length * (2 * ceilLog2 K) by ring]
    exact hI3

/-! ## OR trees -/

/-- The OR of all elements. -/
def orAll (xs : List (BitVec K)) : BitVec K := xs.foldr (· ||| ·) 0

@[simp] theorem orAll_nil : orAll ([] : List (BitVec K)) = 0 := rfl
@[simp] theorem orAll_cons (x : BitVec K) (xs : List (BitVec K)) : orAll (x :: xs) = x ||| orAll xs := rfl
theorem orAll_append (xs ys : List (BitVec K)) : orAll (xs ++ ys) = orAll xs ||| orAll ys := by
  induction xs with
  | nil => simp
  | cons x xs ih => simp [ih, BitVec.or_assoc]

theorem orAll_zipWith (xs ys : List (BitVec K)) (h : xs.length = ys.length) :
    orAll (List.zipWith (· ||| ·) xs ys) = orAll xs ||| orAll ys := by
  induction xs generalizing ys with
  | nil => cases ys with
    | nil => simp
    | cons => simp at h
  | cons x xs ih => cases ys with
    | nil => simp at h
    | cons y ys =>
      simp only [List.zipWith_cons_cons, orAll_cons, ih ys (by simpa using h)]
      apply BitVec.eq_of_getLsbD_eq
      intro i _
      simp only [BitVec.getLsbD_or]
      cases x.getLsbD i <;> cases y.getLsbD i <;> simp

theorem orChunks (L : BinLawful K ops Rel Inv) {u : Nat} {st : Party → σ}
    {xss yss : List (List (BitVec K))} {a b : Party → List (List B)} (hI : Inv u st)
    (ha : Rels (Rels Rel) xss a) (hb : Rels (Rels Rel) yss b)
    (hl : List.Forall₂ (fun xs ys => xs.length = ys.length) xss yss) :
    WPS (fun i => (ops i).orChunks ((a i).zip (b i))) st
      (fun c st' => Rels Rel (List.zipWith (· ||| ·) xss.flatten yss.flatten) c ∧
        Inv (u + K * xss.flatten.length) st') := by
  induction hl generalizing a b u st with
  | nil =>
    rw [ha.eq_nil]
    exact WPS.pure ⟨Rels.nil, by simpa using hI⟩
  | @cons xs ys xss yss hxy _ ih =>
    obtain ⟨a1, a2, h1, h2, rfl⟩ := ha.uncons
    obtain ⟨b1, b2, h3, h4, rfl⟩ := hb.uncons
    simp only [List.zip_cons_cons, BinOps.orChunks]
    refine WPS.bind ((L.orMany hI h1 h3 hxy).mono ?_)
    rintro c st' ⟨hc, hI'⟩
    refine WPS.bind ((ih hI' h2 h4).mono ?_)
    rintro d st'' ⟨hd, hI''⟩
    refine WPS.pure ⟨?_, ?_⟩
    · rw [List.flatten_cons, List.flatten_cons, List.zipWith_append hxy]
      exact hc.append hd
    · rw [List.flatten_cons, List.length_append, Nat.mul_add, ← Nat.add_assoc]
      exact hI''

theorem chunksOf_forall₂ {X Y : Type} (n : Nat) (xs : List X) (ys : List Y) (h : xs.length = ys.length) :
    List.Forall₂ (fun (a : List X) (b : List Y) => a.length = b.length) (chunksOf n xs) (chunksOf n ys) := by
  induction hk : xs.length using Nat.strong_induction_on generalizing xs ys with
  | _ k ih =>
    by_cases hc : n = 0 ∨ xs = []
    · have h1 : chunksOf n xs = [] := by unfold chunksOf; rw [dif_pos hc]
      have h2 : chunksOf n ys = [] := by
        unfold chunksOf; rw [dif_pos]
        rcases hc with hc | hc
        · exact .inl hc
        · subst hc; exact .inr (List.eq_nil_of_length_eq_zero (by simpa using h.symm))
      rw [h1, h2]; exact .nil
    · push Not at hc
      have hx : 0 < xs.length := List.length_pos_iff.2 hc.2
      have hy : ys ≠ [] := by
        intro hy; subst hy; simp at h; exact hc.2 h
      rw [chunksOf_cons hc.1 hc.2, chunksOf_cons hc.1 hy]
      exact .cons (by simp [h]) (ih _ (by simp only [List.length_drop]; omega) _ _ (by simp [h]) rfl)

theorem orTreeLoop (L : BinLawful K ops Rel Inv) {u : Nat} {st : Party → σ} {cs : Nat} (hcs : cs ≠ 0)
    {xs : List (BitVec K)} {a : Party → List B} (hI : Inv u st) (ha : Rels Rel xs a) (hne : xs ≠ []) :
    WPS (fun i => (ops i).orTreeLoop cs xs.length (a i)) st
      (fun c st' => Rels Rel [orAll xs] c ∧ Inv (u + K * (xs.length - 1)) st') := by
  induction hk : xs.length using Nat.strong_induction_on generalizing xs a u st with
  | _ k ih =>
    subst hk
    have hpos : 0 < xs.length := List.length_pos_iff.2 hne
    unfold BinOps.orTreeLoop
    by_cases h1 : xs.length > 1
    · simp only [h1, if_true]
      set num := xs.length / 2 with hnum
      refine WPS.ite_neg (fun i => by rw [ha.length]; omega) ?_
      obtain ⟨ca, hca, eca⟩ := (ha.take num).chunksE hcs
      obtain ⟨cb, hcb, ecb⟩ := ((ha.drop num).take num).chunksE hcs
      refine WPS.bind (WPS.lift eca ?_)
      refine WPS.bind (WPS.lift ecb ?_)
      refine WPS.bind ((L.orChunks hI hca hcb (chunksOf_forall₂ _ _ _ (by simp <;> omega))).mono ?_)
      rintro c st' ⟨hc, hI'⟩
      rw [chunksOf_flatten hcs, chunksOf_flatten hcs] at hc
      rw [chunksOf_flatten hcs] at hI'
      have hres := hc.append ((ha.drop num).drop num)
      have hlen : (List.zipWith (· ||| ·) (xs.take num) ((xs.drop num).take num) ++
          (xs.drop num).drop num).length = num + xs.length % 2 := by
        simp; omega
      have := ih (num + xs.length % 2) (by omega) hI' hres
        (by intro h; rw [h] at hlen; simp at hlen; omega) hlen
      refine this.mono ?_
      rintro d st'' ⟨hd, hI''⟩
      constructor
      · convert hd using 2
        rw [orAll_append, orAll_zipWith _ _ (by simp <;> omega)]
        conv_lhs => rw [← List.take_append_drop num xs, ← List.take_append_drop num (xs.drop num)]
        rw [orAll_append, orAll_append, BitVec.or_assoc]
      · rw [List.length_take] at hI''
        convert hI'' using 1
        rw [Nat.add_assoc, ← Nat.mul_add]
        congr 2; omega
    · simp only [h1, if_false]
      obtain ⟨x, rfl⟩ : ∃ x, xs = [x] := List.length_eq_one_iff.1 (by omega)
      refine WPS.pure ⟨?_, by simpa using hI⟩
      simpa using ha

/-- `or_tree` computes the OR of all inputs, for every chunk size `≥ 1` and every number `≥ 1` of inputs. -/
theorem orTree (L : BinLawful K ops Rel Inv) {u : Nat} {st : Party → σ} {cs : Nat} (hcs : cs ≠ 0)
    {xs : List (BitVec K)} {a : Party → List B} (hI : Inv u st) (ha : Rels Rel xs a) (hne : xs ≠ []) :
    WPS (fun i => (ops i).orTree cs (a i)) st
      (fun c st' => Rel (orAll xs) c ∧ Inv (u + K * (xs.length - 1)) st') := by
  unfold BinOps.orTree
  refine WPS.bind ((WPS.congr (q := fun i => (ops i).orTreeLoop cs xs.length (a i))
    (fun i => by rw [ha.length]) (L.orTreeLoop hcs hI ha hne)).mono ?_)
  rintro c st' ⟨hc, hI'⟩
  obtain ⟨b, hb, eb⟩ := hc.idx (n := 0) rfl
  exact WPS.lift eb ⟨hb, hI'⟩

end BinLawful

end Verif
