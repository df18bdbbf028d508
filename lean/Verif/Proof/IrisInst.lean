import Verif.Model.PlainMpc
import Verif.Proof.Iris

/-! # The plaintext backend and ABY3 satisfy the laws of the iris protocol -/

namespace Verif

/-! ## The default `masked_dot_many` -/

theorem zeroUnmasked_rel {X A : Type} {R : X → (Party → A) → Prop} {z : X} {zero : A} (hz : R z (fun _ => zero))
    {xs : List X} {a : Party → List A} (h : Rels R xs a) (bits : List Bool) :
    Rels R (zeroUnmasked z xs bits) (fun i => zeroUnmasked zero (a i) bits) := by
  induction xs generalizing a bits with
  | nil => rw [h.eq_nil]; exact Rels.nil
  | cons x xs ih =>
    obtain ⟨a1, a2, h1, h2, rfl⟩ := h.uncons
    cases bits with
    | nil => exact Rels.nil
    | cons b bits =>
      refine Rels.cons (b := fun i => if b then a1 i else zero) ?_ (ih h2 bits)
      cases b
      · simpa using hz
      · simpa using h1

theorem zeroUnmasked_length {A : Type} (z : A) (xs : List A) (bits : List Bool) (h : xs.length = bits.length) :
    (zeroUnmasked z xs bits).length = xs.length := by
  simp [zeroUnmasked, h]

theorem zeroUnmasked_dot {V : Nat} (xs ys : List (BitVec V)) (bits : List Bool) :
    (List.zipWith (· * ·) (zeroUnmasked 0 xs bits) (zeroUnmasked 0 ys bits)).sum
      = maskedSum bits (List.zipWith (· * ·) xs ys) := by
  induction xs generalizing ys bits with
  | nil => simp [zeroUnmasked, maskedSum]
  | cons x xs ih =>
    cases ys with
    | nil => simp [zeroUnmasked, maskedSum]
    | cons y ys =>
      cases bits with
      | nil => simp [zeroUnmasked, maskedSum]
      | cons b bits =>
        have := ih ys bits
        cases b <;> simp_all [zeroUnmasked, maskedSum]

theorem maskedVecs_rel {V : Nat} {A : Type} {R : BitVec V → (Party → A) → Prop} {zero : A} (hz : R 0 (fun _ => zero))
    {xs : List (BitVec V)} {a : Party → List A} (ha : Rels R xs a) (hx : xs.length = irisCodeSize)
    {yss : List (List (BitVec V))} {masks : List IrisCodeArray} {b : Party → List (List A)}
    (hb : Rels (Rels R) yss b) (hl : ∀ ys ∈ yss, ys.length = irisCodeSize) (hm : yss.length = masks.length) :
    ∃ as bs : Party → List (List A),
      Rels (Rels R) (masks.map fun m => zeroUnmasked 0 xs m.bits) as ∧
      Rels (Rels R) (List.zipWith (fun ys (m : IrisCodeArray) => zeroUnmasked 0 ys m.bits) yss masks) bs ∧
      ∀ i, maskedVecs zero (a i) ((b i).zip masks) = .ok (as i, bs i) := by
  induction yss generalizing masks b with
  | nil =>
    cases masks with
    | cons m ms => simp at hm
    | nil => rw [hb.eq_nil]; exact ⟨_, _, Rels.nil, Rels.nil, fun i => rfl⟩
  | cons ys yss ih =>
    cases masks with
    | nil => simp at hm
    | cons m ms =>
      obtain ⟨b1, b2, h1, h2, rfl⟩ := hb.uncons
      obtain ⟨as, bs, has, hbs, e⟩ := ih h2 (fun y hy => hl y (by simp [hy])) (by simpa using hm)
      refine ⟨_, _, Rels.cons (zeroUnmasked_rel hz ha m.bits) has,
        Rels.cons (zeroUnmasked_rel hz h1 m.bits) hbs, fun i => ?_⟩
      have l1 : (a i).length = irisCodeSize := by rw [ha.length, hx]
      have l2 : (b1 i).length = irisCodeSize := by rw [h1.length, hl ys (by simp)]
      simp only [List.zip_cons_cons, maskedVecs]
      rw [if_neg (by simp [l1, l2]), e i]
      rfl

theorem defaultMaskedDotMany_gen {V : Nat} {σ A : Type} {R : BitVec V → (Party → A) → Prop} {zero : A}
    (hz : R 0 (fun _ => zero)) {dotMany : Party → List (List A) → List (List A) → Proto σ (List A)}
    {st : Party → σ} {Q : List (BitVec V) → (Party → List A) → (Party → σ) → Prop} {num : Nat}
    (hdot : ∀ {xss yss : List (List (BitVec V))} {a b : Party → List (List A)},
      Rels (Rels R) xss a → Rels (Rels R) yss b →
      List.Forall₂ (fun xs ys => xs.length = irisCodeSize ∧ ys.length = irisCodeSize) xss yss → yss.length = num →
      WPS (fun i => dotMany i (a i) (b i)) st
        (Q (List.zipWith (fun xs ys => (List.zipWith (· * ·) xs ys).sum) xss yss)))
    {xs : List (BitVec V)} {a : Party → List A} (ha : Rels R xs a) (hx : xs.length = irisCodeSize)
    {yss : List (List (BitVec V))} {masks : List IrisCodeArray} {b : Party → List (List A)}
    (hb : Rels (Rels R) yss b) (hl : ∀ ys ∈ yss, ys.length = irisCodeSize) (hm : yss.length = masks.length)
    (hnum : yss.length = num) :
    WPS (fun i => defaultMaskedDotMany zero (dotMany i) (a i) (b i) masks) st
      (Q (List.zipWith (fun ys (m : IrisCodeArray) =>
        maskedSum (IrisCodeArray.bitList m) (List.zipWith (· * ·) xs ys)) yss masks)) := by
  obtain ⟨as, bs, has, hbs, e⟩ := maskedVecs_rel hz ha hx hb hl hm
  unfold defaultMaskedDotMany
  refine WPS.bind (WPS.lift e ?_)
  have hf : List.Forall₂ (fun (xs ys : List (BitVec V)) => xs.length = irisCodeSize ∧ ys.length = irisCodeSize)
      (masks.map fun m => zeroUnmasked 0 xs m.bits)
      (List.zipWith (fun ys (m : IrisCodeArray) => zeroUnmasked 0 ys m.bits) yss masks) := by
    clear hb hbs has e hnum
    induction yss generalizing masks with
    | nil =>
      cases masks with
      | cons m ms => simp at hm
      | nil => exact .nil
    | cons ys yss ih =>
      cases masks with
      | nil => simp at hm
      | cons m ms =>
        refine .cons ?_ (ih (fun y hy => hl y (by simp [hy])) (by simpa using hm))
        have hb : m.bits.length = irisCodeSize := by rw [C17_bits, Aby3.bitList_length]
        rw [zeroUnmasked_length _ _ _ (hx.trans hb.symm),
          zeroUnmasked_length _ _ _ ((hl ys (by simp)).trans hb.symm), hx, hl ys (by simp)]
        exact ⟨rfl, rfl⟩
  have := hdot has hbs hf (by rw [List.length_zipWith, ← hm, Nat.min_self, hnum])
  have heq : List.zipWith (fun xs ys => (List.zipWith (· * ·) xs ys).sum)
      (masks.map fun m => zeroUnmasked 0 xs m.bits)
      (List.zipWith (fun ys (m : IrisCodeArray) => zeroUnmasked 0 ys m.bits) yss masks)
      = List.zipWith (fun ys (m : IrisCodeArray) =>
        maskedSum (IrisCodeArray.bitList m) (List.zipWith (· * ·) xs ys)) yss masks := by
    clear hb hbs has e this hf hnum
    induction yss generalizing masks with
    | nil =>
      cases masks with
      | cons m ms => simp at hm
      | nil => rfl
    | cons ys yss ih =>
      cases masks with
      | nil => simp at hm
      | cons m ms =>
        simp only [List.map_cons, List.zipWith_cons_cons]
        rw [ih (fun y hy => hl y (by simp [hy])) (by simpa using hm), zeroUnmasked_dot, C17_bits]
  rw [heq] at this
  exact this

theorem defaultMaskedDotMany_sized {V : Nat} {σ A : Type} {R : BitVec V → (Party → A) → Prop} {zero : A}
    (hz : R 0 (fun _ => zero)) {dotMany : Party → List (List A) → List (List A) → Proto σ (List A)}
    {st : Party → σ} {P : (Party → σ) → Prop} {num : Nat}
    (hdot : ∀ {xss yss : List (List (BitVec V))} {a b : Party → List (List A)},
      Rels (Rels R) xss a → Rels (Rels R) yss b →
      List.Forall₂ (fun xs ys => xs.length = irisCodeSize ∧ ys.length = irisCodeSize) xss yss → yss.length = num →
      WPS (fun i => dotMany i (a i) (b i)) st
        (fun c st' => Rels R (List.zipWith (fun xs ys => (List.zipWith (· * ·) xs ys).sum) xss yss) c ∧ P st'))
    {xs : List (BitVec V)} {a : Party → List A} (ha : Rels R xs a) (hx : xs.length = irisCodeSize)
    {yss : List (List (BitVec V))} {masks : List IrisCodeArray} {b : Party → List (List A)}
    (hb : Rels (Rels R) yss b) (hl : ∀ ys ∈ yss, ys.length = irisCodeSize) (hm : yss.length = masks.length)
    (hnum : yss.length = num) :
    WPS (fun i => defaultMaskedDotMany zero (dotMany i) (a i) (b i) masks) st
      (fun c st' => Rels R (List.zipWith (fun ys (m : IrisCodeArray) =>
        maskedSum (IrisCodeArray.bitList m) (List.zipWith (· * ·) xs ys)) yss masks) c ∧ P st') :=
  defaultMaskedDotMany_gen (Q := fun vs c st' => Rels R vs c ∧ P st') hz hdot ha hx hb hl hm hnum

theorem defaultMaskedDotMany_wp {V : Nat} {σ A : Type} {R : BitVec V → (Party → A) → Prop} {zero : A}
    (hz : R 0 (fun _ => zero)) {dotMany : Party → List (List A) → List (List A) → Proto σ (List A)}
    {st : Party → σ} {P : (Party → σ) → Prop}
    (hdot : ∀ {xss yss : List (List (BitVec V))} {a b : Party → List (List A)},
      Rels (Rels R) xss a → Rels (Rels R) yss b → List.Forall₂ (fun xs ys => xs.length = ys.length) xss yss →
      WPS (fun i => dotMany i (a i) (b i)) st
        (fun c st' => Rels R (List.zipWith (fun xs ys => (List.zipWith (· * ·) xs ys).sum) xss yss) c ∧ P st'))
    {xs : List (BitVec V)} {a : Party → List A} (ha : Rels R xs a) (hx : xs.length = irisCodeSize)
    {yss : List (List (BitVec V))} {masks : List IrisCodeArray} {b : Party → List (List A)}
    (hb : Rels (Rels R) yss b) (hl : ∀ ys ∈ yss, ys.length = irisCodeSize) (hm : yss.length = masks.length) :
    WPS (fun i => defaultMaskedDotMany zero (dotMany i) (a i) (b i) masks) st
      (fun c st' => Rels R (List.zipWith (fun ys (m : IrisCodeArray) =>
        maskedSum (IrisCodeArray.bitList m) (List.zipWith (· * ·) xs ys)) yss masks) c ∧ P st') :=
  defaultMaskedDotMany_sized hz (fun h1 h2 h3 _ => hdot h1 h2 (h3.imp fun _ _ h => h.1.trans h.2.symm)) ha hx hb hl hm rfl

/-! ## Plain -/

namespace PlainMpc

variable {K : Nat}

/-- Every "party" holds the value itself. -/
def Holds (x : BitVec K) (s : Party → BitVec K) : Prop := ∀ i, s i = x

theorem rels_holds {xs : List (BitVec K)} {a : Party → List (BitVec K)} : Rels Holds xs a ↔ ∀ i, a i = xs := by
  induction xs generalizing a with
  | nil =>
    constructor
    · intro h i; rw [h.eq_nil]
    · intro h; rw [show a = fun _ => [] from funext h]; exact Rels.nil
  | cons x xs ih =>
    constructor
    · intro h i
      obtain ⟨a1, a2, h1, h2, rfl⟩ := h.uncons
      simp [h1 i, ih.1 h2 i]
    · intro h
      rw [show a = fun _ => x :: xs from funext h]
      exact Rels.cons (b := fun _ => x) (fun _ => rfl) (ih.2 fun _ => rfl)

theorem rels_rels_holds {xss : List (List (BitVec K))} {a : Party → List (List (BitVec K))} :
    Rels (Rels Holds) xss a ↔ ∀ i, a i = xss := by
  induction xss generalizing a with
  | nil =>
    constructor
    · intro h i; rw [h.eq_nil]
    · intro h; rw [show a = fun _ => [] from funext h]; exact Rels.nil
  | cons x xs ih =>
    constructor
    · intro h i
      obtain ⟨a1, a2, h1, h2, rfl⟩ := h.uncons
      simp [rels_holds.1 h1 i, ih.1 h2 i]
    · intro h
      rw [show a = fun _ => x :: xs from funext h]
      exact Rels.cons (b := fun _ => x) (rels_holds.2 fun _ => rfl) (ih.2 fun _ => rfl)

theorem dotLoop_eq (acc : BitVec K) (xs ys : List (BitVec K)) :
    dotLoop acc (xs.zip ys) = acc + (List.zipWith (· * ·) xs ys).sum := by
  induction xs generalizing acc ys with
  | nil => simp [dotLoop]
  | cons x xs ih =>
    cases ys with
    | nil => simp [dotLoop]
    | cons y ys =>
      have := ih (acc + x * y) ys
      simp only [dotLoop, List.zip_cons_cons, List.foldl_cons] at this ⊢
      rw [this]; simp [BitVec.add_assoc]

theorem dotManyLoop_eq (xss yss : List (List (BitVec K)))
    (hl : List.Forall₂ (fun xs ys => xs.length = ys.length) xss yss) (s : Unit) :
    dotManyLoop (xss.zip yss) s
      = .ret (List.zipWith (fun xs ys => (List.zipWith (· * ·) xs ys).sum) xss yss, s) := by
  induction hl with
  | nil => rfl
  | @cons xs ys xss yss h _ ih =>
    simp only [List.zip_cons_cons, dotManyLoop, dot]
    rw [if_neg (by simp [h])]
    show (dotManyLoop (xss.zip yss) s >>= _) = _
    rw [ih, dotLoop_eq, zero_add]
    rfl

theorem checkedAdd_small (hK : 15 ≤ K) (s : Bool) {c : Nat} (hc : c < 12800) :
    checkedAdd s (BitVec.ofNat K c) 1 = .ok (BitVec.ofNat K (c + 1)) := by
  have h14 : (2 : Nat) ^ 14 ≤ 2 ^ (K - 1) := Nat.pow_le_pow_right (by omega) (by omega)
  have hp : (2 : Nat) ^ K = 2 * 2 ^ (K - 1) := by rw [← Nat.pow_succ']; congr 1; omega
  have e1 : (BitVec.ofNat K c).toNat = c := by rw [BitVec.toNat_ofNat, Nat.mod_eq_of_lt (by omega)]
  have e2 : (1 : BitVec K).toNat = 1 := by
    show (BitVec.ofNat K 1).toNat = 1
    rw [BitVec.toNat_ofNat, Nat.mod_eq_of_lt (by omega)]
  have e3 : (BitVec.ofNat K c).toInt = c := by
    rw [BitVec.toInt_eq_toNat_of_lt (by rw [e1]; omega), e1]
  have e4 : (1 : BitVec K).toInt = 1 := by
    rw [BitVec.toInt_eq_toNat_of_lt (by rw [e2]; omega), e2]; rfl
  have hs : BitVec.ofNat K c + 1 = BitVec.ofNat K (c + 1) := by
    apply BitVec.eq_of_toNat_eq
    rw [BitVec.toNat_add, e1, e2, BitVec.toNat_ofNat]
  unfold checkedAdd
  cases s
  · simp only [Bool.false_eq_true, if_false]
    rw [if_pos (by rw [e1, e2]; omega), hs]
  · simp only [if_true]
    rw [if_pos ?_, hs]
    rw [e3, e4]
    have h5 : ((2 : Nat) ^ (K - 1) : Int) = ((2 ^ (K - 1) : Nat) : Int) := by push_cast; rfl
    have h6 : (2 : Int) ^ (K - 1) = ((2 ^ (K - 1) : Nat) : Int) := by push_cast; rfl
    rw [h6]
    constructor <;> omega

theorem filterSum_eq (hK : 15 ≤ K) (s : Bool) (bs ms : List Bool) (c : Nat) (hc : c + bs.length ≤ 12800) :
    filterSum s (BitVec.ofNat K c) ((bs.map fun b => if b then (1 : BitVec K) else 0).zip ms)
      = .ok (BitVec.ofNat K c + maskedSum ms (bs.map fun b => if b then (1 : BitVec K) else 0)) := by
  induction bs generalizing ms c with
  | nil => simp [filterSum, maskedSum]
  | cons b bs ih =>
    simp only [List.length_cons] at hc
    cases ms with
    | nil => simp [filterSum, maskedSum]
    | cons m ms =>
      simp only [List.map_cons, List.zip_cons_cons, filterSum, maskedSum_cons]
      cases m
      · simp only [Bool.false_eq_true, if_false]
        rw [ih ms c (by omega), zero_add]
      · cases b
        · simp only [if_true, Bool.false_eq_true, if_false]
          have : checkedAdd s (BitVec.ofNat K c) 0 = .ok (BitVec.ofNat K c) := by
            unfold checkedAdd
            cases s
            · have := (BitVec.ofNat K c).isLt
              simp only [Bool.false_eq_true, if_false]
              rw [if_pos (by rw [show (0 : BitVec K).toNat = 0 by simp]; exact this)]
              simp
            · have h1 := BitVec.toInt_lt (x := BitVec.ofNat K c)
              have h2 := BitVec.le_toInt (x := BitVec.ofNat K c)
              simp only [if_true]
              rw [if_pos (by rw [show (0 : BitVec K).toInt = 0 by simp, add_zero]; exact ⟨h2, h1⟩)]
              simp
          rw [this]
          show filterSum s _ _ = _
          rw [ih ms c (by omega), zero_add]
        · simp only [if_true]
          rw [checkedAdd_small hK s (by omega)]
          show filterSum s _ _ = _
          rw [ih ms (c + 1) (by omega)]
          congr 1
          rw [← BitVec.add_assoc]
          congr 1
          apply BitVec.eq_of_toNat_eq
          simp

theorem filterReduce_eq (hK : 15 ≤ K) (s : Bool) (p q m : IrisCodeArray) :
    filterReduceAddTwice s (encode K p) (encode K q) m
      = .ok (maskedSum (IrisCodeArray.bitList m) (encode K p), maskedSum (IrisCodeArray.bitList m) (encode K q)) := by
  have l1 := MpcLawful.encode_length (V := K) p
  have l2 := MpcLawful.encode_length (V := K) q
  have e1 := filterSum_eq hK s (IrisCodeArray.bitList p) (IrisCodeArray.bitList m) 0
    (by rw [Aby3.bitList_length]; exact Nat.le_of_eq (by rw [Nat.zero_add]; rfl))
  have e2 := filterSum_eq hK s (IrisCodeArray.bitList q) (IrisCodeArray.bitList m) 0
    (by rw [Aby3.bitList_length]; exact Nat.le_of_eq (by rw [Nat.zero_add]; rfl))
  rw [show BitVec.ofNat K 0 = 0 from rfl, zero_add] at e1 e2
  unfold filterReduceAddTwice
  rw [if_neg ?_]
  · rw [C17_bits]
    change (filterSum s 0 ((encode K p).zip _) >>= fun sa => filterSum s 0 ((encode K q).zip _) >>= fun sb =>
      pure (sa, sb)) = _
    change filterSum s 0 ((encode K p).zip _) = .ok (maskedSum _ (encode K p)) at e1
    change filterSum s 0 ((encode K q).zip _) = .ok (maskedSum _ (encode K q)) at e2
    rw [e1, e2]
    rfl
  · rw [l1, l2, List.isEmpty_iff]
    rintro (h | h | h)
    · rw [h] at l1; simp [irisCodeSize] at l1
    · exact h rfl
    · exact h rfl

theorem foldl_or (bits : List (BitVec 1)) (acc : Bool) :
    bits.foldl (fun x y => x ||| y) (bitOf acc) = bitOf (acc || bits.any bitVal) := by
  induction bits generalizing acc with
  | nil => simp
  | cons b bs ih =>
    have : bitOf acc ||| b = bitOf (acc || bitVal b) := by
      apply BitVec.eq_of_getLsbD_eq
      intro i hi
      have : i = 0 := by omega
      subst this
      cases acc <;> simp [bitVal]
    rw [List.foldl_cons, this, ih, List.any_cons, Bool.or_assoc]

theorem pure_wps {α : Type} {p : Party → Proto Unit α} {st : Party → Unit} {a : α}
    {Q : (Party → α) → (Party → Unit) → Prop} (h : ∀ i, p i () = .ret (a, ())) (hQ : Q (fun _ => a) (fun _ => ())) :
    WPS p st Q := by
  unfold WPS
  rw [show (fun i => p i (st i)) = fun _ => .ret (a, ()) from funext fun i => h i]
  exact WP.ret (a := fun _ => (a, ())) hQ

theorem lawful (hK : 15 ≤ K) (s : Bool) :
    MpcLawful (fun _ => ops K s) (Holds (K := K)) Holds (fun _ => True) (fun _ => True) (fun _ _ _ => True)
      (fun _ _ => True) (fun _ => 0) (fun _ => 0) (fun _ => True) where
  maskedDotMany := by
    intro n u st xs a yss masks b _ hx ha hb hl hm _
    refine defaultMaskedDotMany_wp (P := fun _ => True) (R := Holds) (zero := 0) (dotMany := fun _ => dotMany)
      (fun _ => rfl) ?_ ha hx hb hl hm
    intro xss yss a b ha hb hl
    rw [show a = fun _ => xss from funext (rels_rels_holds.1 ha), show b = fun _ => yss from funext (rels_rels_holds.1 hb)]
    refine pure_wps (a := _) (fun i => ?_) ⟨rels_holds.2 fun _ => rfl, trivial⟩
    unfold dotMany
    rw [if_neg (by simp [hl.length_eq])]
    exact dotManyLoop_eq xss yss hl ()
  filter := by
    intro p q m a b ha hb
    refine ⟨fun _ => maskedSum (IrisCodeArray.bitList m) (encode K p),
      fun _ => maskedSum (IrisCodeArray.bitList m) (encode K q), fun _ => rfl, fun _ => rfl, fun i => ?_⟩
    exact (congrArg₂ (fun x y => filterReduceAddTwice s x y m) (rels_holds.1 ha i) (rels_holds.1 hb i)).trans
      (filterReduce_eq hK s p q m)
  add := fun ha hb i => by show _ + _ = _; rw [ha i, hb i]
  sub := fun ha hb i => by show _ - _ = _; rw [ha i, hb i]
  mulConst := fun c _ ha i => by show _ * _ = _; rw [ha i]; simp
  subConst := fun c _ _ ha i => by show _ - _ = _; rw [ha i]; simp
  getMsb := by
    intro n u st x a _ ha
    rw [show a = fun _ => x from funext ha]
    exact pure_wps (a := Verif.getMsb x) (fun _ => rfl)
      ⟨fun _ => by rw [getMsb_eq (by omega)]; simp, 0, trivial⟩
  getMsbMany := by
    intro n u st xs a _ _ ha
    rw [show a = fun _ => xs from funext (rels_holds.1 ha)]
    refine pure_wps (a := xs.map Verif.getMsb) (fun _ => rfl) ⟨rels_holds.2 fun _ => ?_, trivial⟩
    refine List.map_congr_left fun x _ => ?_
    rw [getMsb_eq (by omega)]; simp
  reduceBinaryOr := by
    intro n u st bits a cs _ _ _ _ ha
    rw [show a = fun _ => bits from funext (rels_holds.1 ha)]
    refine pure_wps (a := bits.foldl (fun x y => x ||| y) (ofBit 1 false)) (fun _ => rfl) ⟨fun _ => ?_, trivial⟩
    have := foldl_or bits false
    rw [Bool.false_or] at this
    exact this
  precompute := fun _ => pure_wps (a := ()) (fun _ => rfl) trivial
  verify := fun _ _ => pure_wps (a := ()) (fun _ => rfl) trivial
  openBit := by
    intro st x s _ hs
    rw [show s = fun _ => x from funext hs]
    exact pure_wps (a := bitVal x) (fun _ => rfl) ⟨fun _ => rfl, trivial⟩

end PlainMpc

/-! ## ABY3 -/

namespace AShare

variable {K : Nat}

theorem drop_ofFn {n : Nat} (f : Fin n → Bool) (k : Nat) (h : k < n) :
    (List.ofFn f).drop k = f ⟨k, h⟩ :: (List.ofFn f).drop (k + 1) := by
  rw [List.drop_eq_getElem_cons (by simpa using h), List.getElem_ofFn]

theorem filterSum_rel (m : IrisCodeArray) {xs : List (BitVec K)} {a : Party → List (AShare K)}
    (ha : Rels SharesOf xs a) (k : Nat) (hk : k + xs.length = irisCodeSize) {w : BitVec K} {acc : Party → AShare K}
    (hacc : SharesOf w acc) :
    ∃ r : Party → AShare K, SharesOf (w + maskedSum ((IrisCodeArray.bitList m).drop k) xs) r ∧
      ∀ i, filterSum m k (acc i) (a i) = .ok (r i) := by
  induction xs generalizing a k w acc with
  | nil => rw [ha.eq_nil]; exact ⟨acc, by simpa [maskedSum] using hacc, fun i => rfl⟩
  | cons x xs ih =>
    obtain ⟨a1, a2, h1, h2, rfl⟩ := ha.uncons
    simp only [List.length_cons] at hk
    have hk' : k < 12800 := by have : irisCodeSize = 12800 := rfl; omega
    have hd : (IrisCodeArray.bitList m).drop k
        = IrisCodeArray.bitAt m ⟨k, hk'⟩ :: (IrisCodeArray.bitList m).drop (k + 1) := drop_ofFn _ _ hk'
    have hg : m.getBit k = .ok (IrisCodeArray.bitAt m ⟨k, hk'⟩) := C17_get_bit m ⟨k, hk'⟩
    obtain ⟨r, hr, e⟩ := ih h2 (k + 1) (by omega) (w := w + if IrisCodeArray.bitAt m ⟨k, hk'⟩ then x else 0)
      (acc := fun i => if IrisCodeArray.bitAt m ⟨k, hk'⟩ then (acc i).add (a1 i) else acc i) (by
        cases IrisCodeArray.bitAt m ⟨k, hk'⟩
        · simpa using hacc
        · simpa using hacc.add h1)
    refine ⟨r, ?_, fun i => ?_⟩
    · rw [hd, maskedSum_cons, ← BitVec.add_assoc]; exact hr
    · show (m.getBit k >>= _) = _
      rw [hg]
      exact e i

theorem filterReduce_rel (m : IrisCodeArray) {xs ys : List (BitVec K)} {a b : Party → List (AShare K)}
    (ha : Rels SharesOf xs a) (hb : Rels SharesOf ys b) (hx : xs.length = irisCodeSize)
    (hy : ys.length = irisCodeSize) :
    ∃ c d : Party → AShare K, SharesOf (maskedSum (IrisCodeArray.bitList m) xs) c ∧
      SharesOf (maskedSum (IrisCodeArray.bitList m) ys) d ∧
      ∀ i, filterReduceAddTwice (a i) (b i) m = .ok (c i, d i) := by
  have hz : SharesOf (0 : BitVec K) (fun _ => AShare.zero K) := ⟨by simp [zero], fun _ => rfl⟩
  obtain ⟨c, hc, e1⟩ := filterSum_rel m ha 0 (by omega) hz
  obtain ⟨d, hd, e2⟩ := filterSum_rel m hb 0 (by omega) hz
  rw [zero_add, List.drop_zero] at hc hd
  refine ⟨c, d, hc, hd, fun i => ?_⟩
  unfold filterReduceAddTwice
  have l1 : (a i).length = irisCodeSize := by rw [ha.length, hx]
  have l2 : (b i).length = irisCodeSize := by rw [hb.length, hy]
  rw [if_neg ?_, e1 i, e2 i]
  · rfl
  · rw [l1, l2, List.isEmpty_iff]
    rintro (h | h)
    · rw [h] at l1; simp [irisCodeSize] at l1
    · exact h rfl

end AShare

namespace Aby3

variable {K : Nat}

theorem mpcLawful (G : Prg) (hK : 3 ≤ K) (s : Bool) :
    MpcLawful (Aby3.ops G K s) (SharesOf (K := K)) BinSharesOf (fun st => Inv 0 st) (fun st => Inv 0 st)
      (fun _ _ st => Inv 0 st) (fun _ _ => True) (fun _ => 0) (fun _ => 0) (fun _ => True) where
  maskedDotMany := by
    intro n u st xs a yss masks b hI hx ha hb hl hm _
    exact maskedDotMany_wp hx ha hI hb hl hm
  filter := by
    intro p q m a b ha hb
    exact AShare.filterReduce_rel m ha hb (MpcLawful.encode_length p) (MpcLawful.encode_length q)
  add := fun ha hb => ha.add hb
  sub := fun ha hb => ha.sub hb
  mulConst := fun c _ ha => by
    have := ha.mulConst c
    rw [BitVec.ofNat_toNat, BitVec.setWidth_eq]; exact this
  subConst := fun c _ _ ha => by
    have := ha.subConst c
    rw [BitVec.ofNat_toNat, BitVec.setWidth_eq]; exact this
  getMsb := fun {n u st x a} hI ha => (getMsb_wp (v := 0) (by omega) hI ha).mono fun r st' ⟨h, hI'⟩ =>
    ⟨by rw [BitVec.setWidth_eq]; exact h, 0, hI'⟩
  getMsbMany := fun {n u st xs a} hne hI ha => (getMsbMany_wp (v := 0) hK hne hI ha).mono fun r st' ⟨h, hI'⟩ =>
    ⟨by simp only [BitVec.setWidth_eq]; exact h, hI'⟩
  reduceBinaryOr := fun hcs _ hne hI ha => reduceBinaryOr_wp hcs hne hI ha
  precompute := fun hI => WPS.pure (a := fun _ => ()) hI
  verify := fun hI _ => WPS.pure (a := fun _ => ()) hI
  openBit := fun hI hs => openBit_wp hI hs

end Aby3

end Verif
