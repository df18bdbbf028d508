import Verif.Model.MalAby3
import Verif.Proof.Jmp

/-! # The maliciously secure ABY3 backend with three honest parties -/

namespace Verif

variable {G : Prg} {K V : Nat}

/-! ## Truncation and extension of shares -/

theorem BitVec.setWidth_sub' {x y : BitVec V} (h : K ≤ V) : (x - y).setWidth K = x.setWidth K - y.setWidth K := by
  have : (x - y + y).setWidth K = (x - y).setWidth K + y.setWidth K := BitVec.setWidth_add _ _ h
  rw [sub_add_cancel] at this
  rw [this, add_sub_cancel_right]

theorem SharesOf.fromVerif {X : BitVec V} {s : Party → AShare V} (hK : K ≤ V) (h : SharesOf X s) :
    SharesOf (X.setWidth K) (fun i => (s i).fromVerif K) := by
  refine ⟨?_, fun i => by simp only [AShare.fromVerif, h.2 i]⟩
  rw [← h.1, BitVec.setWidth_add _ _ hK, BitVec.setWidth_add _ _ hK]; rfl

theorem SharesOf.toVerif {x : BitVec K} {s : Party → AShare K} (hK : K ≤ V) (h : SharesOf x s) :
    ∃ X : BitVec V, X.setWidth K = x ∧ SharesOf X (fun i => (s i).toVerif V) := by
  refine ⟨_, ?_, rfl, fun i => by simp only [AShare.toVerif, h.2 i]⟩
  rw [← h.1, BitVec.setWidth_add _ _ hK, BitVec.setWidth_add _ _ hK]
  simp only [AShare.toVerif, Verif.toVerif, BitVec.setWidth_setWidth_of_le _ hK, BitVec.setWidth_eq]

theorem Rels.fromVerif {Xs : List (BitVec V)} {s : Party → List (AShare V)} (hK : K ≤ V) (h : Rels SharesOf Xs s) :
    Rels SharesOf (Xs.map (·.setWidth K)) (fun i => (s i).map (·.fromVerif K)) :=
  h.map (f := (·.setWidth K)) (g := fun _ x => x.fromVerif K) fun _ _ h => h.fromVerif hK

theorem Rels.toVerif {xs : List (BitVec K)} {s : Party → List (AShare K)} (hK : K ≤ V) (h : Rels SharesOf xs s) :
    ∃ Xs : List (BitVec V), Xs.map (·.setWidth K) = xs ∧ Rels SharesOf Xs (fun i => (s i).map (·.toVerif V)) := by
  induction xs generalizing s with
  | nil => rw [h.eq_nil]; exact ⟨[], rfl, Rels.nil⟩
  | cons x xs ih =>
    obtain ⟨b, ls, hb, h', rfl⟩ := h.uncons
    obtain ⟨X, rfl, hX⟩ := hb.toVerif hK
    obtain ⟨Xs, rfl, hXs⟩ := ih h'
    exact ⟨X :: Xs, rfl, Rels.cons hX hXs⟩

theorem Rels.toVerifs {xss : List (List (BitVec K))} {s : Party → List (List (AShare K))} (hK : K ≤ V)
    (h : Rels (Rels SharesOf) xss s) :
    ∃ Xss : List (List (BitVec V)), Xss.map (fun l => l.map (·.setWidth K)) = xss ∧
      Rels (Rels SharesOf) Xss (fun i => (s i).map fun l => l.map (·.toVerif V)) := by
  induction xss generalizing s with
  | nil => rw [h.eq_nil]; exact ⟨[], rfl, Rels.nil⟩
  | cons x xs ih =>
    obtain ⟨b, ls, hb, h', rfl⟩ := h.uncons
    obtain ⟨X, rfl, hX⟩ := hb.toVerif hK
    obtain ⟨Xs, rfl, hXs⟩ := ih h'
    exact ⟨X :: Xs, rfl, Rels.cons (b := fun i => (b i).map (·.toVerif V)) hX hXs⟩

theorem setWidth_sum (hK : K ≤ V) (l : List (BitVec V)) : l.sum.setWidth K = (l.map (·.setWidth K)).sum := by
  induction l with
  | nil => simp
  | cons x l ih => simp only [List.sum_cons, List.map_cons, BitVec.setWidth_add _ _ hK, ih]

theorem setWidth_prods (hK : K ≤ V) (xs ys : List (BitVec V)) :
    (List.zipWith (· * ·) xs ys).map (·.setWidth K) =
      List.zipWith (· * ·) (xs.map (·.setWidth K)) (ys.map (·.setWidth K)) := by
  rw [List.map_zipWith, List.zipWith_map]
  simp only [BitVec.setWidth_mul _ _ hK]

theorem add_bit (x y : BitVec 1) : x + y = x ^^^ y := by
  revert x y; decide

theorem SharesOf.bin {x : BitVec 1} {s : Party → AShare 1} (h : SharesOf x s) : BinSharesOf x s :=
  ⟨by rw [← h.1, add_bit, add_bit], h.2⟩

theorem mul_bit (x y : BitVec 1) : x * y = x &&& y := by
  revert x y; decide

namespace MalAby3

open Jmp

variable {st : Party → JmpSt G} {H : Hash}

theorem abyMulMany_wp {xs ys : List (BitVec K)} {a b : Party → List (AShare K)} (hI : JmpOk st)
    (ha : Rels SharesOf xs a) (hb : Rels SharesOf ys b) (hl : xs.length = ys.length) :
    WPS (fun i => abyMulMany i (a i) (b i)) st
      (fun c st' => Rels SharesOf (List.zipWith (· * ·) xs ys) c ∧ JmpOk st') := by
  unfold abyMulMany
  refine WPS.bind ((viaPrf_wp hI fun _ h => Aby3.mulLoop_wp h ha hb hl).mono ?_)
  rintro cs st' ⟨hcs, hI'⟩
  exact WPS.bind (WPS.net (WP.exchangeVec hcs.length_prev
    (WPS.pure (a := fun i => List.zipWith AShare.mk (cs i) (cs i.prev))
      ⟨Rels.reshare (mk := AShare.mk) (fun _ _ h => h.shares) hcs, hI'⟩)))

theorem abyDotMany_wp {xss yss : List (List (BitVec K))} {a b : Party → List (List (AShare K))} (hI : JmpOk st)
    (ha : Rels (Rels SharesOf) xss a) (hb : Rels (Rels SharesOf) yss b)
    (hl : List.Forall₂ (fun xs ys => xs.length = ys.length) xss yss) :
    WPS (fun i => abyDotMany i (a i) (b i)) st
      (fun c st' => Rels SharesOf (List.zipWith (fun xs ys => (List.zipWith (· * ·) xs ys).sum) xss yss) c ∧
        JmpOk st') := by
  unfold abyDotMany
  refine WPS.ite_neg (fun i => by simp [ha.length, hb.length, hl.length_eq]) ?_
  refine WPS.bind ((viaPrf_wp hI fun _ h => Aby3.dotLoop_wp h ha hb hl).mono ?_)
  rintro cs st' ⟨hcs, hI'⟩
  exact WPS.bind (WPS.net (WP.exchangeVec hcs.length_prev
    (WPS.pure (a := fun i => List.zipWith AShare.mk (cs i) (cs i.prev))
      ⟨Rels.reshare (mk := AShare.mk) (fun _ _ h => h.shares) hcs, hI'⟩)))

theorem coinElem_wp (V : Nat) (hI : JmpOk st) :
    WPS (fun i => coinElem V i) st (fun r st' => (∃ r₀, ∀ i, r i = r₀) ∧ JmpOk st') := by
  unfold coinElem
  refine WPS.bind ((coin_wp hI).mono ?_)
  rintro s st' ⟨⟨k, _, hs⟩, hI'⟩
  obtain rfl : s = fun _ => coinOf k := funext hs
  exact WPS.pure (a := fun _ => (G.gen V (G.ofSeed (coinOf k))).1) ⟨⟨_, fun _ => rfl⟩, hI'⟩

/-! ## Multiplication triples -/

theorem getMulTriple_wp (hV : 40 ≤ V - K) (hI : JmpOk st) :
    WPS (fun i => getMulTriple H V K i) st
      (fun t st' => (∃ x y : BitVec K, SharesOf x (fun i => (t i).1) ∧ SharesOf y (fun i => (t i).2.1) ∧
        SharesOf (x * y) (fun i => (t i).2.2)) ∧ JmpOk st') := by
  unfold getMulTriple
  have hKV : K ≤ V := by omega
  refine WPS.ite_neg (fun _ => by omega) ?_
  refine WPS.bind ((genRand_wp hI).mono ?_)
  rintro a st1 ⟨ha, hI⟩
  obtain ⟨A, ha⟩ := shares_of_agree ha
  refine WPS.bind ((genRand_wp hI).mono ?_)
  rintro a' st2 ⟨ha', hI⟩
  obtain ⟨A', ha'⟩ := shares_of_agree ha'
  refine WPS.bind ((genRand_wp hI).mono ?_)
  rintro b st3 ⟨hb, hI⟩
  obtain ⟨B, hb⟩ := shares_of_agree hb
  refine WPS.bind ((abyMulMany_wp hI (a := fun i => [a i, a' i]) (b := fun i => [b i, b i])
    (.cons (b := a) ha (.singleton ha')) (.cons (b := b) hb (.singleton hb)) rfl).mono ?_)
  rintro cs st4 ⟨hcs, hI⟩
  obtain ⟨c0, hc0, e0⟩ := hcs.idx (n := 0) rfl
  obtain ⟨c1, hc1, e1⟩ := hcs.idx (n := 1) rfl
  refine WPS.bind (WPS.lift e0 ?_)
  refine WPS.bind (WPS.lift e1 ?_)
  refine WPS.bind ((coinElem_wp V hI).mono ?_)
  rintro r st5 ⟨⟨r, hr⟩, hI⟩
  obtain rfl := funext hr
  refine WPS.bind ((reconstruct_wp ((ha.mulConst r).sub ha') hI).mono ?_)
  rintro v st6 ⟨hv, hI⟩
  obtain rfl := funext hv
  refine WPS.bind ((jmpVerify_wp H hI).mono ?_)
  rintro _ st7 hI
  have hw := ((hb.mulConst (A * r - A')).sub (hc0.mulConst r)).add hc1
  have e : B * (A * r - A') - A * B * r + A' * B = 0 := by ring
  rw [e] at hw
  refine WPS.bind (WPS.net (hashZeroVerify_wp H (n := 1) (Rels.singleton hw) ?_))
  refine WPS.pure (a := fun i => ((a i).fromVerif K, (b i).fromVerif K, (c0 i).fromVerif K)) ⟨⟨_, _, ha.fromVerif hKV,
    hb.fromVerif hKV, ?_⟩, hI⟩
  have := hc0.fromVerif hKV
  rwa [BitVec.setWidth_mul _ _ hKV] at this

theorem tripleCheck_rel (r : BitVec V) {A A' B : List (BitVec V)} {b c0 c1 : Party → List (AShare V)}
    (hl : A.length = B.length) (hl' : A'.length = B.length)
    (hb : Rels SharesOf B b) (h0 : Rels SharesOf (List.zipWith (· * ·) A B) c0)
    (h1 : Rels SharesOf (List.zipWith (· * ·) A' B) c1) :
    Rels SharesOf (List.replicate B.length 0)
      (fun i => tripleCheck r (b i) (List.zipWith (fun x y => x * r - y) A A') (c0 i) (c1 i)) := by
  induction B generalizing A A' b c0 c1 with
  | nil =>
    rw [hb.eq_nil]
    simpa [tripleCheck] using Rels.nil
  | cons y B ih =>
    cases A with
    | nil => simp at hl
    | cons x A =>
      cases A' with
      | nil => simp at hl'
      | cons x' A' =>
        simp only [List.zipWith_cons_cons] at h0 h1
        obtain ⟨b1, b2, hb1, hb2, rfl⟩ := hb.uncons
        obtain ⟨d1, d2, hd1, hd2, rfl⟩ := h0.uncons
        obtain ⟨e1, e2, he1, he2, rfl⟩ := h1.uncons
        have := ih (by simpa using hl) (by simpa using hl') hb2 hd2 he2
        simp only [List.zipWith_cons_cons, tripleCheck, List.zip_cons_cons, List.length_cons, List.replicate_succ]
        refine Rels.cons (b := fun i => (((b1 i).mulConst (x * r - x')).sub ((d1 i).mulConst r)).add (e1 i)) ?_ this
        have hw := ((hb1.mulConst (x * r - x')).sub (hd1.mulConst r)).add he1
        have e : y * (x * r - x') - x * y * r + x' * y = 0 := by ring
        rwa [e] at hw

theorem sacrificeOpen_rel (r : BitVec V) {A A' : List (BitVec V)} {a a' : Party → List (AShare V)}
    (ha : Rels SharesOf A a) (ha' : Rels SharesOf A' a') :
    Rels SharesOf (List.zipWith (fun x y => x * r - y) A A')
      (fun i => List.zipWith (fun x y => (x.mulConst r).sub y) (a i) (a' i)) :=
  Rels.zipWith (f := fun x y => x * r - y) (g := fun _ x y => (AShare.mulConst x r).sub y)
    (fun _ _ _ _ h h' => (h.mulConst r).sub h') ha ha'

theorem getMulTripleMany_wp (hV : 40 ≤ V - K) (n : Nat) (hI : JmpOk st) :
    WPS (fun i => getMulTripleMany H V K i n) st
      (fun t st' => (∃ x y : List (BitVec K), x.length = n ∧ y.length = n ∧ Rels SharesOf x (fun i => (t i).1) ∧
        Rels SharesOf y (fun i => (t i).2.1) ∧ Rels SharesOf (List.zipWith (· * ·) x y) (fun i => (t i).2.2)) ∧
        JmpOk st') := by
  unfold getMulTripleMany
  have hKV : K ≤ V := by omega
  refine WPS.ite_neg (fun _ => by omega) ?_
  refine WPS.bind ((genRandMany_wp n hI).mono ?_)
  rintro a st1 ⟨⟨A, lA, ha⟩, hI⟩
  refine WPS.bind ((genRandMany_wp n hI).mono ?_)
  rintro b st2 ⟨⟨B, lB, hb⟩, hI⟩
  refine WPS.bind ((genRandMany_wp n hI).mono ?_)
  rintro a' st3 ⟨⟨A', lA', ha'⟩, hI⟩
  refine WPS.bind ((abyMulMany_wp hI (ha.append ha') (hb.append hb) (by simp [lA, lA', lB])).mono ?_)
  rintro cs st4 ⟨hcs, hI⟩
  rw [List.zipWith_append (by omega)] at hcs
  have h0 := hcs.take n
  have h1 := hcs.drop n
  rw [List.take_left' (by simp [lA, lB])] at h0
  rw [List.drop_left' (by simp [lA, lB])] at h1
  refine WPS.bind ((coinElem_wp V hI).mono ?_)
  rintro r st5 ⟨⟨r, hr⟩, hI⟩
  obtain rfl := funext hr
  refine WPS.bind ((reconstructMany_wp (sacrificeOpen_rel r ha ha') hI).mono ?_)
  rintro v st6 ⟨hv, hI⟩
  obtain rfl := funext hv
  refine WPS.bind ((jmpVerify_wp H hI).mono ?_)
  rintro _ st7 hI
  refine WPS.bind (WPS.net (hashZeroVerify_wp H (tripleCheck_rel r (by omega) (by omega) hb h0 h1) ?_))
  refine WPS.pure (a := fun i => ((a i).map (·.fromVerif K), (b i).map (·.fromVerif K),
    ((cs i).take n).map (·.fromVerif K))) ?_
  refine ⟨⟨_, _, ?_, ?_, ha.fromVerif hKV, hb.fromVerif hKV, ?_⟩, hI⟩
  · simp [lA]
  · simp [lB]
  · have := h0.fromVerif hKV
    rwa [setWidth_prods hKV] at this

theorem mul_wp (hV : 40 ≤ verifWidth K - K) {x y : BitVec K} {a b : Party → AShare K} (hI : JmpOk st)
    (ha : SharesOf x a) (hb : SharesOf y b) :
    WPS (fun i => mul H i (a i) (b i)) st (fun c st' => SharesOf (x * y) c ∧ JmpOk st') := by
  unfold mul
  refine WPS.bind ((getMulTriple_wp hV hI).mono ?_)
  rintro t st1 ⟨⟨p, q, hp, hq, hpq⟩, hI⟩
  refine WPS.bind ((reconstructMany_wp (ss := fun i => [(a i).sub (t i).1, (b i).sub (t i).2.1])
    (.cons (b := fun i => (a i).sub (t i).1) (ha.sub hp) (.singleton (hb.sub hq))) hI).mono ?_)
  rintro uv st2 ⟨huv, hI⟩
  obtain rfl := funext huv
  refine WPS.bind (WPS.lift (a := fun _ => x - p) (fun i => rfl) ?_)
  refine WPS.bind (WPS.lift (a := fun _ => y - q) (fun i => rfl) ?_)
  refine WPS.pure ⟨?_, hI⟩
  have := ((hpq.add (hb.mulConst (x - p))).add (ha.mulConst (y - q))).subConst ((x - p) * (y - q))
  convert this using 1
  ring

/-! ## Dot products -/

theorem dotCheckAcc_rel {w : BitVec V} {W : Party → AShare V} (hw : SharesOf w W) {ys vs : List (BitVec V)}
    {b : Party → List (AShare V)} (hb : Rels SharesOf ys b) (hl : vs.length = ys.length) :
    SharesOf (w + (List.zipWith (· * ·) ys vs).sum) (fun i => dotCheckAcc (W i) (vs.zip (b i))) := by
  induction ys generalizing w W vs b with
  | nil => rw [hb.eq_nil]; simpa [dotCheckAcc] using hw
  | cons y ys ih =>
    cases vs with
    | nil => simp at hl
    | cons v vs =>
      obtain ⟨b1, b2, hb1, hb2, rfl⟩ := hb.uncons
      have := ih (hw.add (hb1.mulConst v)) hb2 (by simpa using hl)
      simpa [dotCheckAcc, BitVec.add_assoc] using this

theorem sacrifice_sum (r : BitVec V) (xs as ys : List (BitVec V)) (hl : xs.length = ys.length)
    (hl' : as.length = ys.length) :
    (List.zipWith (· * ·) ys (List.zipWith (fun x y => x * r - y) xs as)).sum =
      (List.zipWith (· * ·) xs ys).sum * r - (List.zipWith (· * ·) as ys).sum := by
  induction ys generalizing xs as with
  | nil => simp
  | cons y ys ih =>
    cases xs with
    | nil => simp at hl
    | cons x xs =>
      cases as with
      | nil => simp at hl'
      | cons a as =>
        simp only [List.zipWith_cons_cons, List.sum_cons, ih xs as (by simpa using hl) (by simpa using hl')]
        ring

theorem dotCheck_zero (r : BitVec V) {xs as ys : List (BitVec V)} (hl : xs.length = ys.length)
    (hl' : as.length = ys.length) {b : Party → List (AShare V)} {c0 c1 : Party → AShare V}
    (hb : Rels SharesOf ys b) (h0 : SharesOf (List.zipWith (· * ·) xs ys).sum c0)
    (h1 : SharesOf (List.zipWith (· * ·) as ys).sum c1) :
    SharesOf 0 (fun i => dotCheckAcc (((c0 i).neg.mulConst r).add (c1 i))
      ((List.zipWith (fun x y => x * r - y) xs as).zip (b i))) := by
  have := dotCheckAcc_rel ((h0.neg.mulConst r).add h1) hb (vs := List.zipWith (fun x y => x * r - y) xs as)
    (by simp [hl, hl'])
  rw [sacrifice_sum r xs as ys hl hl'] at this
  convert this using 1
  ring

theorem dotSacrifice_wp (hV : 40 ≤ V - K) {xs ys : List (BitVec K)} {a b : Party → List (AShare K)} (hI : JmpOk st)
    (ha : Rels SharesOf xs a) (hb : Rels SharesOf ys b) (hl : xs.length = ys.length) :
    WPS (fun i => dotSacrifice H V i (a i) (b i)) st
      (fun c st' => SharesOf (List.zipWith (· * ·) xs ys).sum c ∧ JmpOk st') := by
  unfold dotSacrifice
  have hKV : K ≤ V := by omega
  refine WPS.ite_neg (fun _ => by omega) ?_
  simp only [ha.length]
  obtain ⟨X, rfl, hX⟩ := ha.toVerif hKV
  obtain ⟨Y, rfl, hY⟩ := hb.toVerif hKV
  simp only [List.length_map] at hl ⊢
  refine WPS.bind ((genRandMany_wp X.length hI).mono ?_)
  rintro a' st1 ⟨⟨A', lA', ha'⟩, hI⟩
  refine WPS.bind ((abyDotMany_wp hI
    (a := fun i => [(a i).map (·.toVerif V), a' i]) (b := fun i => [(b i).map (·.toVerif V), (b i).map (·.toVerif V)])
    (.cons (b := fun i => (a i).map (·.toVerif V)) hX (.singleton ha'))
    (.cons (b := fun i => (b i).map (·.toVerif V)) hY (.singleton hY)) (.cons hl (.cons (lA'.trans hl) .nil))).mono ?_)
  rintro cs st2 ⟨hcs, hI⟩
  obtain ⟨c0, hc0, e0⟩ := hcs.idx (n := 0) rfl
  obtain ⟨c1, hc1, e1⟩ := hcs.idx (n := 1) rfl
  refine WPS.bind (WPS.lift e0 ?_)
  refine WPS.bind (WPS.lift e1 ?_)
  refine WPS.bind ((coinElem_wp V hI).mono ?_)
  rintro r st3 ⟨⟨r, hr⟩, hI⟩
  obtain rfl := funext hr
  refine WPS.bind ((reconstructMany_wp (sacrificeOpen_rel r hX ha') hI).mono ?_)
  rintro v st4 ⟨hv, hI⟩
  obtain rfl := funext hv
  refine WPS.bind ((jmpVerify_wp H hI).mono ?_)
  rintro _ st5 hI
  refine WPS.bind (WPS.net (hashZeroVerify_wp H (n := 1) (Rels.singleton
    (dotCheck_zero r hl (lA'.trans hl) hY hc0 hc1)) ?_))
  refine WPS.pure (a := fun i => (c0 i).fromVerif K) ⟨?_, hI⟩
  have := hc0.fromVerif hKV
  rwa [setWidth_sum hKV, setWidth_prods hKV] at this

theorem genRandVecs_wp (ns : List Nat) (hI : JmpOk st) :
    WPS (fun _ => genRandVecs V ns) st
      (fun s st' => (∃ xss : List (List (BitVec V)), xss.map List.length = ns ∧ Rels (Rels SharesOf) xss s) ∧
        JmpOk st') := by
  induction ns generalizing st with
  | nil => exact WPS.pure (a := fun _ => []) ⟨⟨[], rfl, Rels.nil⟩, hI⟩
  | cons n ns ih =>
    unfold genRandVecs
    refine WPS.bind ((genRandMany_wp n hI).mono ?_)
    rintro s st' ⟨⟨x, hx, hs⟩, hI'⟩
    refine WPS.bind ((ih hI').mono ?_)
    rintro ss st'' ⟨⟨xs, hl, hxs⟩, hI''⟩
    exact WPS.pure (a := fun i => s i :: ss i) ⟨⟨x :: xs, by simp [hl, hx], Rels.cons hs hxs⟩, hI''⟩

theorem dotCheckLoop_rel (r : BitVec V) {xss ass yss : List (List (BitVec V))}
    (hl : List.Forall₂ (fun xs ys => xs.length = ys.length) xss yss) (hl' : ass.map List.length = yss.map List.length)
    {b : Party → List (List (AShare V))} {c0 c1 : Party → List (AShare V)} (hb : Rels (Rels SharesOf) yss b)
    (h0 : Rels SharesOf (List.zipWith (fun xs ys => (List.zipWith (· * ·) xs ys).sum) xss yss) c0)
    (h1 : Rels SharesOf (List.zipWith (fun xs ys => (List.zipWith (· * ·) xs ys).sum) ass yss) c1) :
    ∃ ws : Party → List (AShare V), Rels SharesOf (List.replicate yss.length 0) ws ∧
      ∀ i, dotCheckLoop r
        (List.zipWith (fun xs ys => List.zipWith (fun x y => x * r - y) xs ys) xss ass).flatten
        ((b i).zip ((c0 i).zip (c1 i))) = .ok (ws i) := by
  induction hl generalizing ass b c0 c1 with
  | nil => rw [hb.eq_nil]; exact ⟨_, Rels.nil, fun i => rfl⟩
  | @cons xs ys xss yss hl _ ih =>
    cases ass with
    | nil => simp at hl'
    | cons as ass =>
      simp only [List.map_cons, List.cons.injEq] at hl'
      simp only [List.zipWith_cons_cons] at h0 h1
      obtain ⟨b1, b2, hb1, hb2, rfl⟩ := hb.uncons
      obtain ⟨d1, d2, hd1, hd2, rfl⟩ := h0.uncons
      obtain ⟨e1, e2, he1, he2, rfl⟩ := h1.uncons
      obtain ⟨ws, hws, ew⟩ := ih hl'.2 hb2 hd2 he2
      refine ⟨_, Rels.cons (dotCheck_zero r hl hl'.1 hb1 hd1 he1) hws, fun i => ?_⟩
      have lz : (List.zipWith (fun x y => x * r - y) xs as).length = (b1 i).length := by
        rw [hb1.length]; simp [hl, hl'.1]
      simp only [List.zipWith_cons_cons, List.flatten_cons, List.zip_cons_cons, dotCheckLoop]
      rw [if_neg (by rw [List.length_append]; omega), ← lz, List.drop_left, List.take_left, ew i]
      rfl

theorem dotSacrificeMany_wp (hV : 40 ≤ V - K) {xss yss : List (List (BitVec K))}
    {a b : Party → List (List (AShare K))} (hI : JmpOk st) (ha : Rels (Rels SharesOf) xss a)
    (hb : Rels (Rels SharesOf) yss b) (hl : List.Forall₂ (fun xs ys => xs.length = ys.length) xss yss) :
    WPS (fun i => dotSacrificeMany H V i (a i) (b i)) st
      (fun c st' => Rels SharesOf (List.zipWith (fun xs ys => (List.zipWith (· * ·) xs ys).sum) xss yss) c ∧
        JmpOk st') := by
  unfold dotSacrificeMany
  have hKV : K ≤ V := by omega
  refine WPS.ite_neg (fun _ => by omega) ?_
  simp only [ha.length]
  obtain ⟨X, rfl, hX⟩ := ha.toVerifs hKV
  obtain ⟨Y, rfl, hY⟩ := hb.toVerifs hKV
  have hXY : List.Forall₂ (fun xs ys => xs.length = ys.length) X Y := by
    rw [List.forall₂_map_left_iff, List.forall₂_map_right_iff] at hl
    simpa using hl
  have hlen : ∀ i, ((b i).map fun l => l.map (·.toVerif V)).map List.length = Y.map List.length := by
    intro i
    have h2 := hY
    obtain ⟨js, hj, e⟩ := h2
    rw [congrFun e i]
    rw [List.map_map]
    clear e hl hXY hY hb
    induction hj with
    | nil => rfl
    | cons h _ ih => simp only [List.map_cons, ih, Function.comp, h.length]
  simp only [List.length_map] at hlen ⊢
  simp only [hlen]
  refine WPS.bind ((genRandVecs_wp _ hI).mono ?_)
  rintro a' st1 ⟨⟨A', lA', ha'⟩, hI⟩
  have hAY : List.Forall₂ (fun xs ys => xs.length = ys.length) A' Y := by
    clear ha' hXY hlen hY hX hl hb ha
    induction Y generalizing A' with
    | nil => simp at lA'; subst lA'; exact .nil
    | cons y Y ih =>
      cases A' with
      | nil => simp at lA'
      | cons x A' =>
        simp only [List.map_cons, List.cons.injEq] at lA'
        exact .cons lA'.1 (ih A' lA'.2)
  refine WPS.bind ((abyDotMany_wp hI (hX.append ha') (hY.append hY) (List.rel_append hXY hAY)).mono ?_)
  rintro cs st2 ⟨hcs, hI⟩
  rw [List.zipWith_append hXY.length_eq] at hcs
  have h0 := hcs.take X.length
  have h1 := hcs.drop X.length
  rw [List.take_left' (by simp [hXY.length_eq])] at h0
  rw [List.drop_left' (by simp [hXY.length_eq])] at h1
  refine WPS.bind ((coinElem_wp V hI).mono ?_)
  rintro r st3 ⟨⟨r, hr⟩, hI⟩
  obtain rfl := funext hr
  have ho := (Rels.zipWith (f := fun xs ys => List.zipWith (fun x y => x * r - y) xs ys)
    (g := fun _ xs ys => List.zipWith (fun x y => (AShare.mulConst x r).sub y) xs ys)
    (fun _ _ _ _ h h' => sacrificeOpen_rel r h h') hX ha').flatten
  refine WPS.bind ((reconstructMany_wp ho hI).mono ?_)
  rintro v st4 ⟨hv, hI⟩
  obtain rfl := funext hv
  refine WPS.bind ((jmpVerify_wp H hI).mono ?_)
  rintro _ st5 hI
  obtain ⟨ws, hws, ew⟩ := dotCheckLoop_rel r hXY lA' hY h0 h1
  refine WPS.bind (WPS.lift ew ?_)
  refine WPS.bind (WPS.net (hashZeroVerify_wp H hws ?_))
  refine WPS.pure (a := fun i => ((cs i).take X.length).map (·.fromVerif K)) ?_
  refine ⟨?_, hI⟩
  have := h0.fromVerif hKV
  convert this using 1
  rw [List.map_zipWith, List.zipWith_map]
  simp only [setWidth_sum hKV, setWidth_prods hKV]

theorem dot_wp (hV : 40 ≤ verifWidth K - K) {xs ys : List (BitVec K)} {a b : Party → List (AShare K)} (hI : JmpOk st)
    (ha : Rels SharesOf xs a) (hb : Rels SharesOf ys b) (hl : xs.length = ys.length) :
    WPS (fun i => dot H i (a i) (b i)) st
      (fun c st' => SharesOf (List.zipWith (· * ·) xs ys).sum c ∧ JmpOk st') := by
  unfold dot
  refine WPS.ite_neg (fun i => by simp [ha.length, hb.length, hl]) (dotSacrifice_wp hV hI ha hb hl)

theorem dotMany_wp (hV : 40 ≤ verifWidth K - K) {xss yss : List (List (BitVec K))}
    {a b : Party → List (List (AShare K))} (hI : JmpOk st) (ha : Rels (Rels SharesOf) xss a)
    (hb : Rels (Rels SharesOf) yss b) (hl : List.Forall₂ (fun xs ys => xs.length = ys.length) xss yss) :
    WPS (fun i => dotMany H i (a i) (b i)) st
      (fun c st' => Rels SharesOf (List.zipWith (fun xs ys => (List.zipWith (· * ·) xs ys).sum) xss yss) c ∧
        JmpOk st') := by
  unfold dotMany
  refine WPS.ite_neg (fun i => by simp [ha.length, hb.length, hl.length_eq]) (dotSacrificeMany_wp hV hI ha hb hl)

/-! ## Binary operations -/

theorem packExact_rel {bits : List (BitVec 1)} {s : Party → List (AShare 1)} (h : Rels BinSharesOf bits s)
    (hl : bits.length ≤ K) : BinSharesOf (packWord K bits) (fun i => packExact K (s i)) := by
  have := BinSharesOf.mapLists (packWord_linear K bits.length hl) rfl h
  simp only [AShare.mapLists, List.zipWith_cons_cons, List.zipWith_nil_left] at this
  obtain ⟨b, ls, hb, _, e⟩ := this.uncons
  have : (fun i => packExact K (s i)) = b := by
    funext i
    have := congrFun e i
    simp only [List.cons.injEq] at this
    exact this.1
  rw [this]; exact hb

theorem pack_rel {bits : List (BitVec 1)} {s : Party → List (AShare 1)} (h : Rels BinSharesOf bits s) :
    Rels BinSharesOf ((chunksOf K bits).map (packWord K)) (fun i => pack K (s i)) := by
  have := Rels.flatMap (S := BinSharesOf) (f := fun ch => [packWord K ch]) (g := fun _ ch => [packExact K ch])
    (fun ch hch b hb => Rels.singleton (packExact_rel hb (mem_chunksOf_length K bits ch hch)))
    (h.chunksOf K)
  simp only [← List.map_eq_flatMap] at this
  exact this

theorem packWord_and (xs ys : List (BitVec 1)) (hl : xs.length = ys.length) (h : ys.length ≤ K) :
    packWord K (List.zipWith (· &&& ·) xs ys) = packWord K xs &&& packWord K ys := by
  apply BitVec.eq_of_getLsbD_eq
  intro j _
  rw [BitVec.getLsbD_and, packWord_getLsbD _ (by simp; omega), packWord_getLsbD _ (by omega),
    packWord_getLsbD _ (by omega), List.getElem?_zipWith]
  by_cases hj : j < ys.length
  · rw [List.getElem?_eq_getElem (by omega), List.getElem?_eq_getElem (by omega)]
    simp
  · rw [List.getElem?_eq_none (by omega), List.getElem?_eq_none (by omega)]
    simp

theorem chunksOf_zipWith {X Y Z : Type} (f : X → Y → Z) (n : Nat) (xs : List X) (ys : List Y)
    (hl : xs.length = ys.length) :
    chunksOf n (List.zipWith f xs ys) = List.zipWith (List.zipWith f) (chunksOf n xs) (chunksOf n ys) := by
  by_cases hn : n = 0
  · subst hn
    unfold chunksOf
    simp
  induction hm : xs.length using Nat.strong_induction_on generalizing xs ys with
  | _ m ih =>
    by_cases hx : xs = []
    · subst hx; simp [chunksOf_nil]
    · have hy : ys ≠ [] := by rintro rfl; simp at hl; exact hx hl
      have hxy : List.zipWith f xs ys ≠ [] := by
        intro h; rw [List.zipWith_eq_nil_iff] at h; rcases h with h | h <;> contradiction
      have : 0 < xs.length := List.length_pos_of_ne_nil hx
      rw [chunksOf_cons hn hxy, chunksOf_cons hn hx, chunksOf_cons hn hy, List.zipWith_cons_cons,
        List.take_zipWith, List.drop_zipWith, ih _ (by rw [← hm, List.length_drop]; omega) (xs.drop n) (ys.drop n) (by simp [hl]) rfl]

theorem pack_and (xs ys : List (BitVec 1)) (hl : xs.length = ys.length) :
    (chunksOf K (List.zipWith (· &&& ·) xs ys)).map (packWord K) =
      List.zipWith (· &&& ·) ((chunksOf K xs).map (packWord K)) ((chunksOf K ys).map (packWord K)) := by
  rw [chunksOf_zipWith _ _ _ _ hl, List.map_zipWith, List.zipWith_map]
  have h2 := BinLawful.chunksOf_forall₂ K xs ys hl
  have h3 := mem_chunksOf_length K ys
  revert h2 h3
  generalize chunksOf K xs = cx
  generalize chunksOf K ys = cy
  intro h2 h3
  induction h2 with
  | nil => rfl
  | cons h _ ih =>
    simp only [List.zipWith_cons_cons]
    rw [packWord_and _ _ h (h3 _ (by simp)), ih (fun ch hch => h3 ch (by simp [hch]))]

theorem verifBit : 40 ≤ verifWidth 1 - 1 := by decide

theorem and_id (x y p q : BitVec K) :
    (p &&& q) ^^^ (y &&& (x ^^^ p)) ^^^ (x &&& (y ^^^ q)) ^^^ ((x ^^^ p) &&& (y ^^^ q)) = x &&& y := by
  bitwise

theorem and_wp {x y : BitVec K} {a b : Party → AShare K} (hI : JmpOk st) (ha : BinSharesOf x a)
    (hb : BinSharesOf y b) :
    WPS (fun i => and H i (a i) (b i)) st (fun c st' => BinSharesOf (x &&& y) c ∧ JmpOk st') := by
  unfold MalAby3.and
  refine WPS.bind ((getMulTripleMany_wp verifBit K hI).mono ?_)
  rintro t st1 ⟨⟨p, q, lp, lq, hp, hq, hpq⟩, hI⟩
  simp only [mul_bit] at hpq
  have hp' := packExact_rel (K := K) (hp.imp fun _ _ h => h.bin) (by omega)
  have hq' := packExact_rel (K := K) (hq.imp fun _ _ h => h.bin) (by omega)
  have hpq' := packExact_rel (K := K) (hpq.imp fun _ _ h => h.bin) (by simp; omega)
  rw [packWord_and _ _ (by omega) (by omega)] at hpq'
  refine WPS.bind ((reconstructBinaryMany_wp
    (ss := fun i => [(a i).xor (packExact K (t i).1), (b i).xor (packExact K (t i).2.1)])
    (.cons (b := fun i => (a i).xor (packExact K (t i).1)) (ha.xor hp') (.singleton (hb.xor hq'))) hI).mono ?_)
  rintro uv st2 ⟨huv, hI⟩
  obtain rfl := funext huv
  refine WPS.bind (WPS.lift (a := fun _ => x ^^^ packWord K p) (fun i => rfl) ?_)
  refine WPS.bind (WPS.lift (a := fun _ => y ^^^ packWord K q) (fun i => rfl) ?_)
  refine WPS.pure ⟨?_, hI⟩
  have := ((hpq'.xor (hb.andConst (x ^^^ packWord K p))).xor (ha.andConst (y ^^^ packWord K q))).xorConst
    ((x ^^^ packWord K p) &&& (y ^^^ packWord K q))
  rwa [and_id] at this

theorem andCombine_rel {xs ys ps qs : List (BitVec K)} {a b z : Party → List (AShare K)}
    (hxy : xs.length = ys.length) (hp : ps.length = xs.length) (hq : qs.length = xs.length)
    (ha : Rels BinSharesOf xs a) (hb : Rels BinSharesOf ys b)
    (hz : Rels BinSharesOf (List.zipWith (· &&& ·) ps qs) z) :
    Rels BinSharesOf (List.zipWith (· &&& ·) xs ys)
      (fun i => List.zipWith (fun z (q : (AShare K × AShare K) × (BitVec K × BitVec K)) =>
        ((z.xor (q.1.2.andConst q.2.1)).xor (q.1.1.andConst q.2.2)).xorConst (q.2.1 &&& q.2.2) i)
      (z i) (((a i).zip (b i)).zip ((List.zipWith (· ^^^ ·) xs ps).zip (List.zipWith (· ^^^ ·) ys qs)))) := by
  induction xs generalizing ys ps qs a b z with
  | nil => rw [ha.eq_nil]; simpa using Rels.nil
  | cons x xs ih =>
    cases ys with
    | nil => simp at hxy
    | cons y ys =>
      cases ps with
      | nil => simp at hp
      | cons p ps =>
        cases qs with
        | nil => simp at hq
        | cons q qs =>
          simp only [List.zipWith_cons_cons] at hz ⊢
          obtain ⟨a1, a2, ha1, ha2, rfl⟩ := ha.uncons
          obtain ⟨b1, b2, hb1, hb2, rfl⟩ := hb.uncons
          obtain ⟨z1, z2, hz1, hz2, rfl⟩ := hz.uncons
          have := ((hz1.xor (hb1.andConst (x ^^^ p))).xor (ha1.andConst (y ^^^ q))).xorConst
            ((x ^^^ p) &&& (y ^^^ q))
          rw [and_id] at this
          exact Rels.cons this (ih (by simpa using hxy) (by simpa using hp) (by simpa using hq) ha2 hb2 hz2)

theorem chunksOf_mul_length {α : Type} (hK : K ≠ 0) {n : Nat} {l : List α} (h : l.length = K * n) :
    (chunksOf K l).length = n := by
  rw [chunksOf_length hK, h]
  rw [Nat.add_sub_assoc (by omega), Nat.mul_add_div (by omega), Nat.div_eq_of_lt (by omega)]
  omega

theorem andMany_wp (hK : K ≠ 0) {xs ys : List (BitVec K)} {a b : Party → List (AShare K)} (hI : JmpOk st)
    (ha : Rels BinSharesOf xs a) (hb : Rels BinSharesOf ys b) (hl : xs.length = ys.length) :
    WPS (fun i => andMany H i (a i) (b i)) st
      (fun c st' => Rels BinSharesOf (List.zipWith (· &&& ·) xs ys) c ∧ JmpOk st') := by
  unfold andMany
  refine WPS.ite_neg (fun i => by simp [ha.length, hb.length, hl]) ?_
  simp only [ha.length]
  refine WPS.bind ((getMulTripleMany_wp verifBit (K * xs.length) hI).mono ?_)
  rintro t st1 ⟨⟨p, q, lp, lq, hp, hq, hpq⟩, hI⟩
  simp only [mul_bit] at hpq
  have hp' := pack_rel (K := K) (hp.imp fun _ _ h => h.bin)
  have hq' := pack_rel (K := K) (hq.imp fun _ _ h => h.bin)
  have hpq' := pack_rel (K := K) (hpq.imp fun _ _ h => h.bin)
  rw [pack_and _ _ (by omega)] at hpq'
  have lP : ((chunksOf K p).map (packWord K)).length = xs.length := by
    rw [List.length_map, chunksOf_mul_length hK lp]
  have lQ : ((chunksOf K q).map (packWord K)).length = xs.length := by
    rw [List.length_map, chunksOf_mul_length hK lq]
  revert hp' hq' hpq' lP lQ
  generalize (chunksOf K p).map (packWord K) = P
  generalize (chunksOf K q).map (packWord K) = Q
  intro hp' hq' hpq' lP lQ
  have h1 := Rels.zipWith (f := (· ^^^ ·)) (g := fun _ => AShare.xor) (fun _ _ _ _ h h' => h.xor h') ha hp'
  have h2 := Rels.zipWith (f := (· ^^^ ·)) (g := fun _ => AShare.xor) (fun _ _ _ _ h h' => h.xor h') hb hq'
  refine WPS.bind ((reconstructBinaryMany_wp (h1.append h2) hI).mono ?_)
  rintro uv st2 ⟨huv, hI⟩
  obtain rfl := funext huv
  have l1 : (List.zipWith (· ^^^ ·) xs P).length = xs.length := by simp [lP]
  simp only [List.take_left' l1, List.drop_left' l1]
  exact WPS.pure (Q := fun c st' => Rels BinSharesOf (List.zipWith (· &&& ·) xs ys) c ∧ JmpOk st')
    ⟨andCombine_rel hl lP lQ ha hb hpq', hI⟩

theorem lawful (hK : K ≠ 0) : BinLawful K (fun i => binOps G H K i) BinSharesOf (fun _ => JmpOk) where
  xor h h' := h.xor h'
  shl n h := h.shl n
  and hI ha hb := and_wp hI ha hb
  andMany hI ha hb hl := andMany_wp hK hI ha hb hl

theorem a2b_wp (hK : K ≠ 0) {x : BitVec K} {a : Party → AShare K} (hI : JmpOk st) (h : SharesOf x a) :
    WPS (fun i => a2b H i (a i)) st (fun r st' => BinSharesOf x r ∧ JmpOk st') := by
  obtain ⟨h1, h2, h3⟩ := Aby3.a2bPre_rel h
  refine ((lawful hK).binaryAdd3 (u := 0) hI h1 h2 h3).mono ?_
  rintro r st' ⟨hr, hI'⟩
  rw [h.1] at hr
  exact ⟨hr, hI'⟩

theorem a2bMany_wp (hK : K ≠ 0) {xs : List (BitVec K)} {a : Party → List (AShare K)} (hI : JmpOk st)
    (h : Rels SharesOf xs a) :
    WPS (fun i => a2bMany H i (a i)) st (fun r st' => Rels BinSharesOf xs r ∧ JmpOk st') := by
  obtain ⟨zs, rfl, h1, h2, h3⟩ := Aby3.a2bPre_rels h
  refine ((lawful hK).binaryAdd3Many (u := 0) hI h1 h2 h3 (by simp) (by simp)).mono ?_
  rintro r st' ⟨hr, hI'⟩
  rw [Aby3.zipWith_map_three] at hr
  exact ⟨hr, hI'⟩

theorem getMsb_wp (hK : K ≠ 0) {x : BitVec K} {a : Party → AShare K} (hI : JmpOk st) (h : SharesOf x a) :
    WPS (fun i => getMsb H i (a i)) st (fun r st' => BinSharesOf (bitOf x.msb) r ∧ JmpOk st') := by
  unfold MalAby3.getMsb
  refine WPS.bind ((a2b_wp hK hI h).mono ?_)
  rintro r st' ⟨hr, hI'⟩
  exact WPS.pure ⟨Aby3.getMsb_rel (by omega) hr, hI'⟩

theorem getMsbMany_wp (hK : K ≠ 0) {xs : List (BitVec K)} {a : Party → List (AShare K)}
    (hI : JmpOk st) (h : Rels SharesOf xs a) :
    WPS (fun i => getMsbMany H i (a i)) st
      (fun r st' => Rels BinSharesOf (xs.map fun x => bitOf x.msb) r ∧ JmpOk st') := by
  unfold MalAby3.getMsbMany
  refine WPS.bind ((a2bMany_wp hK hI h).mono ?_)
  rintro r st' ⟨hr, hI'⟩
  exact WPS.pure (Q := fun r st' => Rels BinSharesOf (xs.map fun x => bitOf x.msb) r ∧ JmpOk st')
    ⟨hr.map (f := fun x => bitOf x.msb) (g := fun _ => AShare.getMsb) (fun _ _ h => Aby3.getMsb_rel (by omega) h), hI'⟩

theorem reduceBinaryOr_wp {bits : List (BitVec 1)} {a : Party → List (AShare 1)} {cs : Nat} (hcs : cs ≠ 0)
    (hlt : cs * 128 < 2 ^ 64) (hne : bits ≠ []) (hI : JmpOk st) (ha : Rels BinSharesOf bits a) :
    WPS (fun i => reduceBinaryOr H i (a i) cs) st
      (fun c st' => BinSharesOf (bitOf (bits.any bitVal)) c ∧ JmpOk st') := by
  unfold MalAby3.reduceBinaryOr
  refine WPS.bind (WPS.lift (a := fun _ => cs * 128) (fun _ => by unfold usizeE usizeLimit; rw [if_pos hlt]) ?_)
  refine (((lawful (by decide)).orTree (u := 0) (by omega) hI ha hne)).mono ?_
  rintro r st' ⟨hr, hI'⟩
  rw [FamLawful.orAll_bits] at hr
  exact ⟨hr, hI'⟩

end MalAby3

end Verif
