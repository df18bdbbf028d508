import Verif.Model.Aby3
import Verif.Proof.AShare
import Verif.Props.Plain

/-! # The ABY3 backend is a lawful backend -/

namespace Verif

namespace Aby3

variable {K : Nat} {G : Prg}

/-- The joint state invariant; the AND counter is not tracked by ABY3. -/
def Inv (_u : Nat) (st : Party → Aby3St G) : Prop := PrfOk (fun i => (st i).prf)

variable {st : Party → Aby3St G} {u v : Nat}

theorem genZero_wp (hI : Inv u st) :
    WPS (fun _ => genZero K) st (fun z st' => SumsTo 0 z ∧ Inv v st') := by
  obtain ⟨h1, h2⟩ := PrfOk.genZero K hI
  exact WPS.step ⟨h2, h1⟩

theorem genBinZero_wp (hI : Inv u st) :
    WPS (fun _ => genBinZero K) st (fun z st' => XorsTo 0 z ∧ Inv v st') := by
  obtain ⟨h1, h2⟩ := PrfOk.genBinZero K hI
  exact WPS.step ⟨h2, h1⟩

theorem reshare_wp {x : BitVec K} {c : Party → BitVec K} {Q : (Party → AShare K) → (Party → Aby3St G) → Prop}
    (h : Q (fun i => ⟨c i, c i.prev⟩) st) :
    WPS (fun i => (do let cb ← Proto.net (sendAndReceiveValue i (c i)); pure (⟨c i, cb⟩ : AShare K))) st Q :=
  WPS.bind (WPS.net (WP.exchangeValue (WPS.pure (a := fun i => (⟨c i, c i.prev⟩ : AShare K)) h)))

theorem reshareMany_wp {X : Type} {R : X → (Party → BitVec K) → Prop} {S : X → (Party → AShare K) → Prop}
    (hRS : ∀ x c, R x c → S x (fun i => ⟨c i, c (Party.prev i)⟩)) {xs : List X} {cs : Party → List (BitVec K)}
    (h : Rels R xs cs) (hI : Inv u st) :
    WPS (fun i => (do let b ← Proto.net (sendSliceAndReceiveIter i (cs i))
                      pure (List.zipWith AShare.mk (cs i) b))) st
      (fun r st' => Rels S xs r ∧ Inv v st') :=
  WPS.bind (WPS.net (WP.exchangeSlice h.length_prev
    (WPS.pure (a := fun i => List.zipWith AShare.mk (cs i) (cs i.prev)) ⟨Rels.reshare hRS h, hI⟩)))

theorem add_zero_sum {x : BitVec K} {c z : Party → BitVec K} (h : SumsTo x c) (hz : SumsTo 0 z) :
    SumsTo x (fun i => c i + z i) := by
  have : c 0 + z 0 + (c 1 + z 1) + (c 2 + z 2) = (c 0 + c 1 + c 2) + (z 0 + z 1 + z 2) := by ring
  rw [SumsTo, this, h, hz]; simp

theorem xor_zero_sum {x : BitVec K} {c z : Party → BitVec K} (h : XorsTo x c) (hz : XorsTo 0 z) :
    XorsTo x (fun i => c i ^^^ z i) := by
  have : c 0 ^^^ z 0 ^^^ (c 1 ^^^ z 1) ^^^ (c 2 ^^^ z 2) = (c 0 ^^^ c 1 ^^^ c 2) ^^^ (z 0 ^^^ z 1 ^^^ z 2) := by
    bitwise
  rw [XorsTo, this, h, hz]; simp

/-! ## Binary operations -/

theorem and_wp {x y : BitVec K} {a b : Party → AShare K} (hI : Inv u st) (ha : BinSharesOf x a)
    (hb : BinSharesOf y b) :
    WPS (fun i => Aby3.and i (a i) (b i)) st (fun c st' => BinSharesOf (x &&& y) c ∧ Inv v st') := by
  unfold Aby3.and
  refine WPS.bind ((genBinZero_wp (v := v) hI).mono ?_)
  rintro z st' ⟨hz, hI'⟩
  exact reshare_wp (x := x) ⟨(xor_zero_sum (ha.andLocal hb) hz).shares, hI'⟩

theorem andLoop_wp {xs ys : List (BitVec K)} {a b : Party → List (AShare K)} (hI : Inv u st)
    (ha : Rels BinSharesOf xs a) (hb : Rels BinSharesOf ys b) (hl : xs.length = ys.length) :
    WPS (fun i => andLoop ((a i).zip (b i))) st
      (fun c st' => Rels XorsTo (List.zipWith (· &&& ·) xs ys) c ∧ Inv v st') := by
  induction xs generalizing ys a b st u with
  | nil =>
    have := List.eq_nil_of_length_eq_zero hl.symm
    subst this
    rw [ha.eq_nil, hb.eq_nil]
    exact WPS.pure (a := fun _ => []) ⟨Rels.nil, hI⟩
  | cons x xs ih =>
    cases ys with
    | nil => simp at hl
    | cons y ys =>
      obtain ⟨a1, a2, h1, h2, rfl⟩ := ha.uncons
      obtain ⟨b1, b2, k1, k2, rfl⟩ := hb.uncons
      simp only [List.zip_cons_cons, andLoop]
      refine WPS.bind ((genBinZero_wp (v := v) hI).mono ?_)
      rintro z st' ⟨hz, hI'⟩
      refine WPS.bind ((ih hI' h2 k2 (by simpa using hl)).mono ?_)
      rintro cs st'' ⟨hcs, hI''⟩
      refine WPS.pure (a := fun i => (((a1 i).andLocal (b1 i)).a ^^^ z i) :: cs i) ⟨?_, hI''⟩
      exact Rels.cons (xor_zero_sum (h1.andLocal k1) hz) hcs

theorem andMany_wp {xs ys : List (BitVec K)} {a b : Party → List (AShare K)} (hI : Inv u st)
    (ha : Rels BinSharesOf xs a) (hb : Rels BinSharesOf ys b) (hl : xs.length = ys.length) :
    WPS (fun i => andMany i (a i) (b i)) st
      (fun c st' => Rels BinSharesOf (List.zipWith (· &&& ·) xs ys) c ∧ Inv v st') := by
  unfold andMany
  refine WPS.ite_neg (fun i => by simp [ha.length, hb.length, hl]) ?_
  refine WPS.bind ((andLoop_wp (v := v) hI ha hb hl).mono ?_)
  rintro cs st' ⟨hcs, hI'⟩
  exact reshareMany_wp (fun _ _ h => h.shares) hcs hI'

theorem binLawful (G : Prg) (K : Nat) : BinLawful K (fun i => (fam G i).ops K) BinSharesOf Inv where
  xor := fun h h' => h.xor h'
  shl := fun n h => h.shl n
  and := fun hI ha hb => and_wp hI ha hb
  andMany := fun hI ha hb hl => andMany_wp hI ha hb hl

theorem lawful (G : Prg) : FamLawful (fam G) (fun _ => BinSharesOf) Inv where
  bin K _ _ := binLawful G K
  zero _ := BinSharesOf.zero
  mapLists hf hn h := BinSharesOf.mapLists hf hn h

/-! ## Arithmetic to binary -/

theorem a2bPre_rel {x : BitVec K} {a : Party → AShare K} (h : SharesOf x a) :
    BinSharesOf (a 0).a (fun i => (a2bPre i (a i)).1) ∧
    BinSharesOf (a 1).a (fun i => (a2bPre i (a i)).2.1) ∧
    BinSharesOf (a 2).a (fun i => (a2bPre i (a i)).2.2) := by
  obtain ⟨h0, h1, h2⟩ := h.b_eq
  refine ⟨.mk' ?_ ?_ ?_ ?_, .mk' ?_ ?_ ?_ ?_, .mk' ?_ ?_ ?_ ?_⟩ <;> simp [a2bPre, h0, h1, h2]

theorem a2b_wp {x : BitVec K} {a : Party → AShare K} (hI : Inv u st) (h : SharesOf x a) :
    WPS (fun i => a2b i (a i)) st (fun r st' => BinSharesOf x r ∧ Inv v st') := by
  obtain ⟨h1, h2, h3⟩ := a2bPre_rel h
  refine ((binLawful G K).binaryAdd3 hI h1 h2 h3).mono ?_
  rintro r st' ⟨hr, hI'⟩
  rw [h.1] at hr
  exact ⟨hr, hI'⟩

/-- The lists of the three additive components. -/
theorem a2bPre_rels {xs : List (BitVec K)} {a : Party → List (AShare K)} (h : Rels SharesOf xs a) :
    ∃ zs : List (BitVec K × BitVec K × BitVec K), xs = zs.map (fun z => z.1 + z.2.1 + z.2.2) ∧
      Rels BinSharesOf (zs.map (·.1)) (fun i => (a i).map fun x => (a2bPre i x).1) ∧
      Rels BinSharesOf (zs.map (·.2.1)) (fun i => (a i).map fun x => (a2bPre i x).2.1) ∧
      Rels BinSharesOf (zs.map (·.2.2)) (fun i => (a i).map fun x => (a2bPre i x).2.2) := by
  induction xs generalizing a with
  | nil => rw [h.eq_nil]; exact ⟨[], rfl, Rels.nil, Rels.nil, Rels.nil⟩
  | cons x xs ih =>
    obtain ⟨a1, a2, h1, h2, rfl⟩ := h.uncons
    obtain ⟨zs, e, r1, r2, r3⟩ := ih h2
    obtain ⟨k1, k2, k3⟩ := a2bPre_rel h1
    exact ⟨((a1 0).a, (a1 1).a, (a1 2).a) :: zs, by simp [← e, h1.1], .cons k1 r1, .cons k2 r2, .cons k3 r3⟩

theorem zipWith_map_three {α β : Type} (f : β → β → β) (zs : List α) (p q r : α → β) :
    List.zipWith f (List.zipWith f (zs.map p) (zs.map q)) (zs.map r) = zs.map fun z => f (f (p z) (q z)) (r z) := by
  induction zs with
  | nil => rfl
  | cons z zs ih => simp [ih]

theorem a2bMany_wp {xs : List (BitVec K)} {a : Party → List (AShare K)} (hI : Inv u st) (h : Rels SharesOf xs a) :
    WPS (fun i => a2bMany i (a i)) st (fun r st' => Rels BinSharesOf xs r ∧ Inv v st') := by
  obtain ⟨zs, rfl, h1, h2, h3⟩ := a2bPre_rels h
  refine ((binLawful G K).binaryAdd3Many hI h1 h2 h3 (by simp) (by simp)).mono ?_
  rintro r st' ⟨hr, hI'⟩
  rw [zipWith_map_three] at hr
  exact ⟨hr, hI'⟩

theorem getMsb_rel (hK : 0 < K) {x : BitVec K} {a : Party → AShare K} (h : BinSharesOf x a) :
    BinSharesOf (bitOf x.msb) (fun i => (a i).getMsb) := by
  refine ⟨?_, fun i => by simp only [AShare.getMsb, h.2 i]⟩
  simp only [AShare.getMsb, Verif.getMsb_eq hK, bitOf_xor, ← h.1, BitVec.msb_xor]

theorem getMsb_wp (hK : 0 < K) {x : BitVec K} {a : Party → AShare K} (hI : Inv u st) (h : SharesOf x a) :
    WPS (fun i => Aby3.getMsb i (a i)) st (fun r st' => BinSharesOf (bitOf x.msb) r ∧ Inv v st') := by
  unfold Aby3.getMsb
  refine WPS.bind ((a2b_wp (v := v) hI h).mono ?_)
  rintro r st' ⟨hr, hI'⟩
  exact WPS.pure ⟨getMsb_rel hK hr, hI'⟩

theorem getMsbMany_wp (hK : 3 ≤ K) {xs : List (BitVec K)} (hne : xs ≠ []) {a : Party → List (AShare K)}
    (hI : Inv u st) (h : Rels SharesOf xs a) :
    WPS (fun i => getMsbMany i (a i)) st
      (fun r st' => Rels BinSharesOf (xs.map fun x => bitOf x.msb) r ∧ Inv v st') := by
  obtain ⟨zs, rfl, h1, h2, h3⟩ := a2bPre_rels h
  refine ((lawful G).msbAdderMany hK (by rintro rfl; simp at hne) hI h1 h2 h3).mono ?_
  rintro r st' ⟨hr, hI'⟩
  refine ⟨?_, hI'⟩
  rw [List.map_map]
  convert hr using 2
  funext z
  simp only [Function.comp_def, BitVec.msb_eq_getLsbD_last]

theorem reduceBinaryOr_wp {bits : List (BitVec 1)} {a : Party → List (AShare 1)} {cs : Nat} (hcs : cs ≠ 0)
    (hne : bits ≠ []) (hI : Inv u st) (ha : Rels BinSharesOf bits a) :
    WPS (fun i => reduceBinaryOr i (a i) cs) st
      (fun c st' => BinSharesOf (bitOf (bits.any bitVal)) c ∧ Inv v st') := by
  refine ((lawful G).reduceBinaryOr hcs hne hI ha).mono ?_
  rintro r st' ⟨hr, hI'⟩
  rw [FamLawful.orAll_bits] at hr
  exact ⟨hr, hI'⟩

/-! ## Arithmetic operations -/

theorem mul_wp {x y : BitVec K} {a b : Party → AShare K} (hI : Inv u st) (ha : SharesOf x a)
    (hb : SharesOf y b) :
    WPS (fun i => Aby3.mul i (a i) (b i)) st (fun c st' => SharesOf (x * y) c ∧ Inv v st') := by
  unfold Aby3.mul
  refine WPS.bind ((genZero_wp (v := v) hI).mono ?_)
  rintro z st' ⟨hz, hI'⟩
  exact reshare_wp (x := x) ⟨(add_zero_sum (ha.mulLocal hb) hz).shares, hI'⟩

theorem mulLoop_wp {xs ys : List (BitVec K)} {a b : Party → List (AShare K)} (hI : Inv u st)
    (ha : Rels SharesOf xs a) (hb : Rels SharesOf ys b) (hl : xs.length = ys.length) :
    WPS (fun i => mulLoop ((a i).zip (b i))) st
      (fun c st' => Rels SumsTo (List.zipWith (· * ·) xs ys) c ∧ Inv v st') := by
  induction xs generalizing ys a b st u with
  | nil =>
    have := List.eq_nil_of_length_eq_zero hl.symm
    subst this
    rw [ha.eq_nil, hb.eq_nil]
    exact WPS.pure (a := fun _ => []) ⟨Rels.nil, hI⟩
  | cons x xs ih =>
    cases ys with
    | nil => simp at hl
    | cons y ys =>
      obtain ⟨a1, a2, h1, h2, rfl⟩ := ha.uncons
      obtain ⟨b1, b2, k1, k2, rfl⟩ := hb.uncons
      simp only [List.zip_cons_cons, mulLoop]
      refine WPS.bind ((genZero_wp (v := v) hI).mono ?_)
      rintro z st' ⟨hz, hI'⟩
      refine WPS.bind ((ih hI' h2 k2 (by simpa using hl)).mono ?_)
      rintro cs st'' ⟨hcs, hI''⟩
      refine WPS.pure (a := fun i => (((a1 i).mulLocal (b1 i)).a + z i) :: cs i) ⟨?_, hI''⟩
      exact Rels.cons (add_zero_sum (h1.mulLocal k1) hz) hcs

theorem mulMany_wp {xs ys : List (BitVec K)} {a b : Party → List (AShare K)} (hI : Inv u st)
    (ha : Rels SharesOf xs a) (hb : Rels SharesOf ys b) (hl : xs.length = ys.length) :
    WPS (fun i => mulMany i (a i) (b i)) st
      (fun c st' => Rels SharesOf (List.zipWith (· * ·) xs ys) c ∧ Inv v st') := by
  unfold mulMany
  refine WPS.bind ((mulLoop_wp (v := v) hI ha hb hl).mono ?_)
  rintro cs st' ⟨hcs, hI'⟩
  exact reshareMany_wp (fun _ _ h => h.shares) hcs hI'

theorem dotAcc_sum {xs ys : List (BitVec K)} {a b : Party → List (AShare K)} {w : BitVec K} {z : Party → BitVec K}
    (hz : SumsTo w z) (ha : Rels SharesOf xs a) (hb : Rels SharesOf ys b) (hl : xs.length = ys.length) :
    SumsTo (w + (List.zipWith (· * ·) xs ys).sum) (fun i => dotAcc (z i) ((a i).zip (b i))) := by
  induction xs generalizing ys a b w z with
  | nil => rw [ha.eq_nil]; simpa [dotAcc] using hz
  | cons x xs ih =>
    cases ys with
    | nil => simp at hl
    | cons y ys =>
      obtain ⟨a1, a2, h1, h2, rfl⟩ := ha.uncons
      obtain ⟨b1, b2, k1, k2, rfl⟩ := hb.uncons
      have hz' : SumsTo (w + x * y) (fun i => z i + ((a1 i).mulLocal (b1 i)).a) := by
        have e := h1.mulLocal k1
        rw [SumsTo] at e hz ⊢
        rw [← e, ← hz]; ring
      have := ih hz' h2 k2 (by simpa using hl)
      simpa [dotAcc, BitVec.add_assoc] using this

theorem dot_wp {xs ys : List (BitVec K)} {a b : Party → List (AShare K)} (hI : Inv u st)
    (ha : Rels SharesOf xs a) (hb : Rels SharesOf ys b) (hl : xs.length = ys.length) :
    WPS (fun i => dot i (a i) (b i)) st
      (fun c st' => SharesOf (List.zipWith (· * ·) xs ys).sum c ∧ Inv v st') := by
  unfold dot
  refine WPS.ite_neg (fun i => by simp [ha.length, hb.length, hl]) ?_
  refine WPS.bind ((genZero_wp (v := v) hI).mono ?_)
  rintro z st' ⟨hz, hI'⟩
  have := dotAcc_sum hz ha hb hl
  rw [zero_add] at this
  exact reshare_wp (x := (0 : BitVec K)) ⟨this.shares, hI'⟩

theorem dotLoop_wp {xss yss : List (List (BitVec K))} {a b : Party → List (List (AShare K))} (hI : Inv u st)
    (ha : Rels (Rels SharesOf) xss a) (hb : Rels (Rels SharesOf) yss b)
    (hl : List.Forall₂ (fun xs ys => xs.length = ys.length) xss yss) :
    WPS (fun i => dotLoop ((a i).zip (b i))) st
      (fun c st' => Rels SumsTo (List.zipWith (fun xs ys => (List.zipWith (· * ·) xs ys).sum) xss yss) c ∧
        Inv v st') := by
  induction hl generalizing a b st u with
  | nil =>
    rw [ha.eq_nil, hb.eq_nil]
    exact WPS.pure (a := fun _ => []) ⟨Rels.nil, hI⟩
  | @cons xs ys xss yss hl _ ih =>
    obtain ⟨a1, a2, h1, h2, rfl⟩ := ha.uncons
    obtain ⟨b1, b2, k1, k2, rfl⟩ := hb.uncons
    simp only [List.zip_cons_cons, dotLoop]
    refine WPS.bind ((genZero_wp (v := v) hI).mono ?_)
    rintro z st' ⟨hz, hI'⟩
    refine WPS.ite_neg (fun i => by simp [h1.length, k1.length, hl]) ?_
    refine WPS.bind ((ih hI' h2 k2).mono ?_)
    rintro cs st'' ⟨hcs, hI''⟩
    refine WPS.pure (a := fun i => dotAcc (z i) ((a1 i).zip (b1 i)) :: cs i) ⟨?_, hI''⟩
    have := dotAcc_sum hz h1 k1 hl
    rw [zero_add] at this
    exact Rels.cons this hcs

theorem dotMany_wp {xss yss : List (List (BitVec K))} {a b : Party → List (List (AShare K))} (hI : Inv u st)
    (ha : Rels (Rels SharesOf) xss a) (hb : Rels (Rels SharesOf) yss b)
    (hl : List.Forall₂ (fun xs ys => xs.length = ys.length) xss yss) :
    WPS (fun i => dotMany i (a i) (b i)) st
      (fun c st' => Rels SharesOf (List.zipWith (fun xs ys => (List.zipWith (· * ·) xs ys).sum) xss yss) c ∧
        Inv v st') := by
  unfold dotMany
  refine WPS.ite_neg (fun i => by simp [ha.length, hb.length, hl.length_eq]) ?_
  refine WPS.bind ((dotLoop_wp (v := v) hI ha hb hl).mono ?_)
  rintro cs st' ⟨hcs, hI'⟩
  exact reshareMany_wp (fun _ _ h => h.shares) hcs hI'

theorem maskedAcc_sum {xs ys : List (BitVec K)} {bs : List Bool} {a b : Party → List (AShare K)} {w : BitVec K}
    {z : Party → BitVec K} (hz : SumsTo w z) (ha : Rels SharesOf xs a) (hb : Rels SharesOf ys b)
    (hl : xs.length = ys.length) (hm : xs.length = bs.length) :
    SumsTo (w + maskedSum bs (List.zipWith (· * ·) xs ys))
      (fun i => maskedAcc (z i) (((a i).zip (b i)).zip bs)) := by
  induction xs generalizing ys a b w z bs with
  | nil => rw [ha.eq_nil]; simpa [maskedAcc, maskedSum] using hz
  | cons x xs ih =>
    cases ys with
    | nil => simp at hl
    | cons y ys =>
      cases bs with
      | nil => simp at hm
      | cons m bs =>
        obtain ⟨a1, a2, h1, h2, rfl⟩ := ha.uncons
        obtain ⟨b1, b2, k1, k2, rfl⟩ := hb.uncons
        have hz' : SumsTo (w + if m then x * y else 0)
            (fun i => if m then z i + ((a1 i).mulLocal (b1 i)).a else z i) := by
          have e := h1.mulLocal k1
          rw [SumsTo] at e hz ⊢
          cases m
          · simpa using hz
          · simp only [if_true]; rw [← e, ← hz]; ring
        have := ih hz' h2 k2 (by simpa using hl) (by simpa using hm)
        simpa [maskedAcc, maskedSum, BitVec.add_assoc] using this

theorem bitList_length (m : IrisCodeArray) : (IrisCodeArray.bitList m).length = irisCodeSize := by
  simp only [IrisCodeArray.bitList, List.length_ofFn]; rfl

theorem maskedDotLoop_wp {xs : List (BitVec K)} {a : Party → List (AShare K)} (hx : xs.length = irisCodeSize)
    (ha : Rels SharesOf xs a) {yss : List (List (BitVec K))} {masks : List IrisCodeArray}
    {b : Party → List (List (AShare K))} (hI : Inv u st)
    (hb : Rels (Rels SharesOf) yss b) (hl : ∀ ys ∈ yss, ys.length = irisCodeSize) (hm : yss.length = masks.length) :
    WPS (fun i => maskedDotLoop (a i) ((b i).zip masks)) st
      (fun c st' => Rels SumsTo (List.zipWith
        (fun ys (m : IrisCodeArray) => maskedSum (IrisCodeArray.bitList m) (List.zipWith (· * ·) xs ys)) yss masks) c ∧
        Inv v st') := by
  induction yss generalizing masks b st u with
  | nil =>
    rw [hb.eq_nil]
    exact WPS.pure (a := fun _ => []) ⟨Rels.nil, hI⟩
  | cons ys yss ih =>
    cases masks with
    | nil => simp at hm
    | cons m masks =>
      obtain ⟨b1, b2, k1, k2, rfl⟩ := hb.uncons
      simp only [List.zip_cons_cons, maskedDotLoop]
      refine WPS.bind ((genZero_wp (v := v) hI).mono ?_)
      rintro z st' ⟨hz, hI'⟩
      have hy : ys.length = irisCodeSize := hl ys (by simp)
      refine WPS.ite_neg (fun i => by simp [ha.length, k1.length, hx, hy]) ?_
      refine WPS.bind ((ih hI' k2 (fun ys h => hl ys (by simp [h])) (by simpa using hm)).mono ?_)
      rintro cs st'' ⟨hcs, hI''⟩
      refine WPS.pure (a := fun i => maskedAcc (z i) (((a i).zip (b1 i)).zip m.bits) :: cs i) ⟨?_, hI''⟩
      rw [C17_bits]
      have := maskedAcc_sum hz ha k1 (hx.trans hy.symm) (bs := IrisCodeArray.bitList m)
        (by rw [hx, bitList_length])
      rw [zero_add] at this
      exact Rels.cons this hcs

theorem maskedDotMany_wp {xs : List (BitVec K)} {a : Party → List (AShare K)} (hx : xs.length = irisCodeSize)
    (ha : Rels SharesOf xs a) {yss : List (List (BitVec K))} {masks : List IrisCodeArray}
    {b : Party → List (List (AShare K))} (hI : Inv u st)
    (hb : Rels (Rels SharesOf) yss b) (hl : ∀ ys ∈ yss, ys.length = irisCodeSize) (hm : yss.length = masks.length) :
    WPS (fun i => maskedDotMany i (a i) (b i) masks) st
      (fun c st' => Rels SharesOf (List.zipWith
        (fun ys (m : IrisCodeArray) => maskedSum (IrisCodeArray.bitList m) (List.zipWith (· * ·) xs ys)) yss masks) c ∧
        Inv v st') := by
  unfold maskedDotMany
  refine WPS.ite_neg (fun i => by simp [ha.length, hx]) ?_
  refine WPS.bind ((maskedDotLoop_wp (v := v) hx ha hI hb hl hm).mono ?_)
  rintro cs st' ⟨hcs, hI'⟩
  exact reshareMany_wp (fun _ _ h => h.shares) hcs hI'

/-! ## Input and opening -/

theorem setup_wp (seeds : Party → Bytes) (hs : ∀ i, (seeds i).length = 32) (st : Party → Aby3St G) :
    WPS (fun i => setupPrfFromSeed i (seeds i)) st (fun _ st' => st' = fun i =>
      ⟨⟨G.ofSeed (seeds i), G.ofSeed (seeds i.prev)⟩⟩) := by
  unfold setupPrfFromSeed
  refine WPS.bind (WPS.net (WP.sendAndReceive ?_))
  refine WPS.bind (WPS.lift (a := fun i => seeds i.prev) (fun i => by simp [bytesToSeed, hs]) ?_)
  exact WPS.step rfl

theorem input_wp {id : Party} {x : BitVec K} {inp : Party → Option (BitVec K)} (hx : inp id = some x)
    (hI : Inv u st) :
    WPS (fun i => input i (inp i) id.val) st (fun r st' => SharesOf x r ∧ Inv v st') := by
  unfold input
  have hid : ¬ id.val ≥ 3 := by have := id.isLt; omega
  refine WPS.ite_neg (fun _ => hid) ?_
  refine WPS.bind ((genZero_wp (K := K) (v := v) hI).mono ?_)
  rintro z st' ⟨hz, hI'⟩
  refine WPS.congr (q := fun i => (do
      let cb ← Proto.net (sendAndReceiveValue i (if i = id then z i + x else z i))
      pure ⟨if i = id then z i + x else z i, cb⟩)) (fun i => ?_)
    (reshare_wp (x := x) (c := fun i => if i = id then z i + x else z i) ⟨?_, hI'⟩)
  · by_cases hi : i = id
    · subst hi; simp [hx]
    · have : ¬ id.val = i.val := fun h => hi (Fin.ext h.symm)
      simp only [if_neg hi, if_neg this]
  · refine SumsTo.shares ?_
    rw [SumsTo] at hz ⊢
    have : (z 0 + z 1 + z 2) + x = x := by rw [hz]; simp
    match id with
    | 0 => simp only [if_true, show ¬ ((1 : Party) = 0) by decide, show ¬ ((2 : Party) = 0) by decide, if_false]; exact Eq.trans (by ring) this
    | 1 => simp only [if_true, show ¬ ((0 : Party) = 1) by decide, show ¬ ((2 : Party) = 1) by decide, if_false]; exact Eq.trans (by ring) this
    | 2 => simp only [if_true, show ¬ ((0 : Party) = 2) by decide, show ¬ ((1 : Party) = 2) by decide, if_false]; exact Eq.trans (by ring) this

/-- Adding a value to one component of a zero sharing. -/
theorem zero_plus {z : Party → BitVec K} (hz : SumsTo 0 z) (id : Party) (x : BitVec K) :
    SumsTo x (fun i => if i = id then z i + x else z i) := by
  rw [SumsTo] at hz ⊢
  have : (z 0 + z 1 + z 2) + x = x := by rw [hz]; simp
  match id with
  | 0 => simp only [if_true, show ¬ ((1 : Party) = 0) by decide, show ¬ ((2 : Party) = 0) by decide, if_false]; exact Eq.trans (by ring) this
  | 1 => simp only [if_true, show ¬ ((0 : Party) = 1) by decide, show ¬ ((2 : Party) = 1) by decide, if_false]; exact Eq.trans (by ring) this
  | 2 => simp only [if_true, show ¬ ((0 : Party) = 2) by decide, show ¬ ((1 : Party) = 2) by decide, if_false]; exact Eq.trans (by ring) this

theorem inputAll_wp (x : Party → BitVec K) (hI : Inv u st) :
    WPS (fun i => inputAll i (x i)) st
      (fun r st' => Rels SharesOf [x 0, x 1, x 2] r ∧ Inv v st') := by
  unfold inputAll
  refine WPS.bind ((genZero_wp (K := K) (v := v) hI).mono ?_)
  rintro z0 st0 ⟨hz0, hI0⟩
  refine WPS.bind ((genZero_wp (K := K) (v := v) hI0).mono ?_)
  rintro z1 st1 ⟨hz1, hI1⟩
  refine WPS.bind ((genZero_wp (K := K) (v := v) hI1).mono ?_)
  rintro z2 st2 ⟨hz2, hI2⟩
  refine reshareMany_wp (R := SumsTo) (fun _ _ h => h.shares) (cs := fun i : Party =>
    [if i = 0 then z0 i + x i else z0 i, if i = 1 then z1 i + x i else z1 i, if i = 2 then z2 i + x i else z2 i])
    ?_ hI2
  have key : ∀ (z : Party → BitVec K) (j : Party), SumsTo 0 z →
      SumsTo (x j) (fun i : Party => if i = j then z i + x i else z i) := by
    intro z j hz
    have := zero_plus hz j (x j)
    convert this using 2 with i
    split
    · rename_i h; rw [h]
    · rfl
  exact Rels.cons (key z0 0 hz0) (Rels.cons (key z1 1 hz1) (Rels.singleton (key z2 2 hz2)))

theorem open_wp {x : BitVec K} {s : Party → AShare K} (hI : Inv u st) (h : SharesOf x s) :
    WPS (fun i => openShare i (s i)) st (fun r st' => (∀ i, r i = x) ∧ Inv v st') := by
  unfold openShare
  exact WPS.bind (WPS.net (WP.exchangeValue (WPS.pure ⟨fun i => h.open_eq i, hI⟩)))

theorem openBit_wp {x : BitVec 1} {s : Party → AShare 1} (hI : Inv u st) (h : BinSharesOf x s) :
    WPS (fun i => openBit i (s i)) st (fun r st' => (∀ i, r i = bitVal x) ∧ Inv v st') := by
  unfold openBit
  exact WPS.bind (WPS.net (WP.exchangeValue (WPS.pure ⟨fun i => congrArg bitVal (h.open_eq i), hI⟩)))

theorem openMany_eq {xs : List (BitVec K)} {ss : Party → List (AShare K)} (h : Rels SharesOf xs ss) (i : Party) :
    List.zipWith (fun s c => c + s.a + s.b) (ss i) ((ss i.prev).map (·.b)) = xs := by
  induction xs generalizing ss with
  | nil => rw [h.eq_nil]; rfl
  | cons x xs ih =>
    obtain ⟨s, ss', hs, h', rfl⟩ := h.uncons
    simp only [List.map_cons, List.zipWith_cons_cons, ih h']
    rw [← hs.open_eq i]
    congr 1
    ring

theorem openMany_wp {xs : List (BitVec K)} {ss : Party → List (AShare K)} (hI : Inv u st)
    (h : Rels SharesOf xs ss) :
    WPS (fun i => openMany i (ss i)) st (fun r st' => (∀ i, r i = xs) ∧ Inv v st') := by
  unfold openMany
  refine WPS.bind (WPS.net (WP.exchangeSlice (x := fun i => (ss i).map (·.b)) (fun i => ?_)
    (WPS.pure ⟨openMany_eq h, hI⟩)))
  simp [h.length]

theorem openBitMany_eq {xs : List (BitVec 1)} {ss : Party → List (AShare 1)} (h : Rels BinSharesOf xs ss)
    (i : Party) :
    List.zipWith (fun s c => bitVal (c ^^^ s.a ^^^ s.b)) (ss i) ((ss i.prev).map (·.b)) = xs.map bitVal := by
  induction xs generalizing ss with
  | nil => rw [h.eq_nil]; rfl
  | cons x xs ih =>
    obtain ⟨s, ss', hs, h', rfl⟩ := h.uncons
    simp only [List.map_cons, List.zipWith_cons_cons, ih h']
    rw [← hs.open_eq i]
    congr 2
    rw [BitVec.xor_comm ((s i).a ^^^ (s i).b), BitVec.xor_assoc]

theorem openBitMany_wp {xs : List (BitVec 1)} {ss : Party → List (AShare 1)} (hI : Inv u st)
    (h : Rels BinSharesOf xs ss) :
    WPS (fun i => openBitMany i (ss i)) st (fun r st' => (∀ i, r i = xs.map bitVal) ∧ Inv v st') := by
  unfold openBitMany
  refine WPS.bind (WPS.net (WP.exchangeSlice (x := fun i => (ss i).map (·.b)) (fun i => ?_)
    (WPS.pure ⟨openBitMany_eq h, hI⟩)))
  simp [h.length]

end Aby3
end Verif
