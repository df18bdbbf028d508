import Verif.Proof.Swift3PairMany
import Verif.Proof.Swift3Iris
import Verif.Proof.PairCallsQuery

/-! # A query of Swift3 with a corrupt party, up to the verification -/

namespace Verif

namespace Swift3

variable {G : Prg} {H : Hash} {K L : Nat} {i : Party}

/-! ## Shares for the corrupt party -/

/-- A share for the corrupt party that fits to the ones of the honest parties. -/
def third (i : Party) (s s' : S3Share L) (k : Party) : S3Share L :=
  if k = i then s else if k = i.next then s' else ⟨s.b, s'.a, s.c⟩

theorem third_left (i : Party) (s s' : S3Share L) : third i s s' i = s := by simp [third]
theorem third_right (i : Party) (s s' : S3Share L) : third i s s' i.next = s' := by simp [third, Party.next_ne]

theorem third_bin {x : BitVec L} {s s' : S3Share L} (h : S3BinPairOf x s s') : S3BinSharesOf x (third i s s') := by
  obtain ⟨h1, h2, h3⟩ := h
  rcases (by decide : ∀ i : Party, i = 0 ∨ i = 1 ∨ i = 2) i with rfl | rfl | rfl
  · refine .mk' ?_ ?_ ?_ ?_ ?_ ?_ <;> simp [third, h1, h2, h3] <;> bitwise
  · refine .mk' ?_ ?_ ?_ ?_ ?_ ?_ <;> simp [third, h1, h2, h3] <;> bitwise
  · refine .mk' ?_ ?_ ?_ ?_ ?_ ?_ <;> simp [third, h1, h2, h3] <;> bitwise

theorem third_arith {x : BitVec L} {s s' : S3Share L} (h : S3PairOf x s s') : S3SharesOf x (third i s s') := by
  obtain ⟨h1, h2, h3⟩ := h
  rcases (by decide : ∀ i : Party, i = 0 ∨ i = 1 ∨ i = 2) i with rfl | rfl | rfl
  · refine .mk' ?_ ?_ ?_ ?_ ?_ ?_ <;> simp [third, h1, h2, h3] <;> ring
  · refine .mk' ?_ ?_ ?_ ?_ ?_ ?_ <;> simp [third, h1, h2, h3] <;> ring
  · refine .mk' ?_ ?_ ?_ ?_ ?_ ?_ <;> simp [third, h1, h2, h3] <;> ring

theorem thirds {R : BitVec L → S3Share L → S3Share L → Prop} {R' : BitVec L → (Party → S3Share L) → Prop}
    (hR : ∀ x s s', R x s s' → R' x (third i s s')) {xs : List (BitVec L)} {l l' : List (S3Share L)} (h : Pairs R xs l l') :
    ∃ c : Party → List (S3Share L), c i = l ∧ c i.next = l' ∧ Rels R' xs c := by
  induction xs generalizing l l' with
  | nil =>
    obtain ⟨rfl, rfl⟩ := h.nil_left
    exact ⟨fun _ => [], rfl, rfl, Rels.nil⟩
  | cons x xs ih =>
    obtain ⟨s, s', l, l', rfl, rfl, h1, h2⟩ := h.uncons
    obtain ⟨c, rfl, rfl, hc⟩ := ih h2
    exact ⟨fun k => third i s s' k :: c k, by simp [third_left], by simp [third_right], Rels.cons (hR _ _ _ h1) hc⟩

theorem pairs_of_rels {A X : Type} {R : X → A → A → Prop} {R' : X → (Party → A) → Prop}
    (hR : ∀ x s, R' x s → R x (s i) (s i.next)) {xs : List X} {c : Party → List A} (h : Rels R' xs c) :
    Pairs R xs (c i) (c i.next) := by
  induction xs generalizing c with
  | nil => rw [h.eq_nil]; exact Pairs.nil
  | cons x xs ih =>
    obtain ⟨a1, a2, h1, h2, rfl⟩ := h.uncons
    exact Pairs.cons (hR _ _ h1) (ih h2)

theorem pair_arith {x : BitVec L} {s : Party → S3Share L} (h : S3SharesOf x s) : S3PairOf x (s i) (s i.next) := by
  obtain ⟨h1, h2⟩ := h
  have e0 := h1 0; have e1 := h1 1; have e2 := h1 2
  have b0 := h2 0; have b1 := h2 1; have b2 := h2 2
  simp only [Party.prev_zero, Party.prev_one, Party.prev_two] at b0 b1 b2
  rcases (by decide : ∀ i : Party, i = 0 ∨ i = 1 ∨ i = 2) i with rfl | rfl | rfl <;>
    simp only [S3PairOf, Party.next_zero, Party.next_one, Party.next_two, e0, e1, e2, b0, b1, b2] <;>
    refine ⟨?_, ?_, ?_⟩ <;> first | trivial | ring

theorem pair_bin {x : BitVec L} {s : Party → S3Share L} (h : S3BinSharesOf x s) : S3BinPairOf x (s i) (s i.next) := by
  obtain ⟨h1, h2⟩ := h
  have e0 := h1 0; have e1 := h1 1; have e2 := h1 2
  have b0 := h2 0; have b1 := h2 1; have b2 := h2 2
  simp only [Party.prev_zero, Party.prev_one, Party.prev_two] at b0 b1 b2
  rcases (by decide : ∀ i : Party, i = 0 ∨ i = 1 ∨ i = 2) i with rfl | rfl | rfl <;>
    simp only [S3BinPairOf, Party.next_zero, Party.next_one, Party.next_two, e0, e1, e2, b0, b1, b2] <;>
    refine ⟨?_, ?_, ?_⟩ <;> first | trivial | bitwise

/-! ## Worlds -/

/-- Binary shares in a world. -/
def RelS (w : Prop) (L : Nat) (x : BitVec L) (s : Party → S3Share L) : Prop := w → S3BinSharesOf x s

/-- Arithmetic shares in a world. -/
def RelQ (w : Prop) (K : Nat) (x : BitVec K) (s : Party → S3Share K) : Prop := w → S3SharesOf x s

/-- The invariant: if the states of the honest parties show no error, the world holds. -/
structure InvS (i : Party) (w : Prop) (st : Party → S3St G K) : Prop where
  ok : PairOk (st i) (st i.next)
  clean : Clean (st i) (st i.next) → w

theorem locS (w : Prop) : FamLawful (fam G K) (RelS w) (fun _ _ => False) where
  bin L _ _ :=
    { xor := fun h h' hw => (h hw).xor (h' hw)
      shl := fun n h hw => (h hw).shl n
      and := fun h => h.elim
      andMany := fun h => h.elim }
  zero L _ := S3BinSharesOf.zero
  mapLists := by
    intro K L n f xs a hf hn h
    refine Rels.world (fun k => ?_) fun hw => S3BinSharesOf.mapLists hf hn (Rels.in_world h hw)
    have hl : ∀ k, (a k).length = n := fun k => by rw [h.length, hn]
    show (S3Share.mapLists f (a k)).length = _
    unfold S3Share.mapLists
    simp only [List.length_zipWith, List.length_map, List.length_zip]
    rw [hf.len ((a k).map _) xs (by simp [hl]) hn, hf.len ((a k).map _) xs (by simp [hl]) hn,
      hf.len ((a k).map _) xs (by simp [hl]) hn, min_self, min_self]

theorem and_pk (hL : 0 < L) {w : Prop} {st : Party → S3St G K} (hI : InvS i w st) {x y : BitVec L} {a b : Party → S3Share L}
    (ha : RelS w L x a) (hb : RelS w L y b) :
    PK i w (fun j => ((fam G K j).ops L).and (a j) (b j)) st
      (fun w' c st' => RelS w' L (x &&& y) c ∧ InvS i w' st') := by
  refine PWS.ghost (and_pws hL hI.ok a b) ?_
  rintro m c s ⟨hP, h⟩
  by_cases hcl : Clean (s i) (s i.next)
  · obtain ⟨h0, h1⟩ := h hcl
    have hw := hI.clean h0
    refine ⟨third i (c i) (c i.next), s, third_left _ _ _, third_right _ _ _, rfl, rfl, Clean (s i) (s i.next), fun _ => hw,
      fun _ => third_bin (h1 x y (pair_bin (ha hw)) (pair_bin (hb hw))), hP, id⟩
  · exact ⟨c, s, rfl, rfl, rfl, rfl, Clean (s i) (s i.next), fun h => (hcl h).elim, fun h => (hcl h).elim, hP, id⟩

theorem andMany_pk (hL : 0 < L) {w : Prop} {st : Party → S3St G K} (hI : InvS i w st) {xs ys : List (BitVec L)}
    {a b : Party → List (S3Share L)} (ha : Rels (RelS w L) xs a) (hb : Rels (RelS w L) ys b) (hxy : xs.length = ys.length) :
    PK i w (fun j => ((fam G K j).ops L).andMany (a j) (b j)) st
      (fun w' c st' => Rels (RelS w' L) (List.zipWith (· &&& ·) xs ys) c ∧ InvS i w' st') := by
  refine PWS.ghost (andMany_pws hL hI.ok a b (n := xs.length) (fun k => ha.length k) (fun k => by rw [hb.length, hxy])) ?_
  rintro m c s ⟨l1, l2, hP, h⟩
  by_cases hcl : Clean (s i) (s i.next)
  · obtain ⟨h0, h1⟩ := h hcl
    have hw := hI.clean h0
    obtain ⟨c', e1, e2, hc⟩ := thirds (i := i) (fun _ _ _ => third_bin)
      (h1 xs ys (pairs_of_rels (fun _ _ => pair_bin) (Rels.in_world ha hw))
        (pairs_of_rels (fun _ _ => pair_bin) (Rels.in_world hb hw)))
    exact ⟨c', s, e1, e2, rfl, rfl, Clean (s i) (s i.next), fun _ => hw, Rels.to_world hc, hP, id⟩
  · refine ⟨fun k => if k = i.next then c i.next else c i, s, by simp [(Party.next_ne i).symm], by simp, rfl, rfl,
      Clean (s i) (s i.next), fun h => (hcl h).elim, Rels.off_world hcl fun k => ?_, hP, id⟩
    split <;> simp [l1, l2, hxy]

theorem lawfulS : WorldLawful i (fam G K) RelS (fun w _ st => InvS i w st) where
  loc := locS
  mono h hr hw := hr (h hw)
  and h1 _ hI ha hb := and_pk h1 hI ha hb
  andMany h1 _ hI ha hb hl := andMany_pk h1 hI ha hb hl

/-! ## The iris protocol -/

/-- The laws of the local operations. (The others are vacuous: no state satisfies the invariant.) -/
theorem localLawfulS (G : Prg) (H : Hash) (K : Nat) (sg : Bool) (verify : Party → Proto (S3St G K) Unit) (w : Prop) :
    MpcLawful (fun k => Swift3.ops G H K sg (verify k) k) (RelQ w K) (RelS w 1) (fun _ => False) (fun _ => False)
      (fun _ _ _ => False) (fun _ _ => True) (fun _ => 0) (fun _ => 0) (fun _ => True) where
  maskedDotMany h := h.elim
  filter := by
    intro p q m a b ha hb
    by_cases hw : w
    · obtain ⟨c, d, h1, h2, e⟩ := filterReduce_rel m (Rels.in_world ha hw) (Rels.in_world hb hw)
        (MpcLawful.encode_length p) (MpcLawful.encode_length q)
      exact ⟨c, d, fun _ => h1, fun _ => h2, e⟩
    · refine ⟨fun k => S3Share.filterSum (a k) m, fun k => S3Share.filterSum (b k) m, fun h => (hw h).elim,
        fun h => (hw h).elim, fun k => ?_⟩
      have h1 := ha.length k
      have h2 := hb.length k
      rw [MpcLawful.encode_length] at h1 h2
      show S3Share.filterReduceAddTwice (a k) (b k) m = _
      unfold S3Share.filterReduceAddTwice
      rw [if_neg ?_]
      rw [h1, h2, List.isEmpty_iff]
      rintro (h | h)
      · rw [h] at h1; simp [irisCodeSize] at h1
      · exact h rfl
  add := fun ha hb hw => (ha hw).add (hb hw)
  sub := fun ha hb hw => (ha hw).sub (hb hw)
  mulConst := fun c _ ha hw => by
    have := (ha hw).mulConst c
    rw [BitVec.ofNat_toNat, BitVec.setWidth_eq]; exact this
  subConst := fun c _ h _ => h.elim
  getMsb h := h.elim
  getMsbMany _ h := h.elim
  reduceBinaryOr _ _ _ h := h.elim
  precompute h := h.elim
  verify h := h.elim
  openBit h := h.elim

theorem innerProd_eq (xs ys : List (BitVec K)) : innerProd xs ys = (List.zipWith (· * ·) xs ys).sum := rfl

/-- The masked inner products of a chunk. -/
theorem maskedDot_pkS {sg : Bool} {verify : Party → Proto (S3St G K) Unit} {w : Prop} {st : Party → S3St G K} (hI : InvS i w st)
    {xs : List (BitVec K)} {a : Party → List (S3Share K)} (ha : Rels S3SharesOf xs a) (hx : xs.length = irisCodeSize)
    {yss : List (List (BitVec K))} {masks : List IrisCodeArray} {b : Party → List (List (S3Share K))}
    (hb : Rels (Rels S3SharesOf) yss b) (hl : ∀ ys ∈ yss, ys.length = irisCodeSize) (hm : yss.length = masks.length) :
    PK i w (fun j => (Swift3.ops G H K sg (verify j) j).maskedDotMany (a j) (b j) masks) st
      (fun w' c st' => Rels (RelQ w' K) (List.zipWith (fun ys (m : IrisCodeArray) =>
        maskedSum (IrisCodeArray.bitList m) (List.zipWith (· * ·) xs ys)) yss masks) c ∧ InvS i w' st') := by
  obtain ⟨X, Y, as, bs, has, hbs, hlen, heq, e⟩ := MalAby3.maskedVecs_dots (R := S3SharesOf) (zero := S3Share.zero K)
    S3SharesOf.zero ha hx hb hl hm
  rw [← heq]
  show PK i w (fun j => defaultMaskedDotMany (S3Share.zero K) (dotMany j) (a j) (b j) masks) st _
  unfold defaultMaskedDotMany
  refine PK.bind (PK.lift e ?_)
  have hlens : ∀ {Z : List (List (BitVec K))} {c : Party → List (List (S3Share K))}, Rels (Rels S3SharesOf) Z c →
      ∀ k, (c k).map List.length = Z.map List.length := by
    intro Z c h k
    induction Z generalizing c with
    | nil => rw [h.eq_nil]; rfl
    | cons z Z ih =>
      obtain ⟨a1, a2, h1, h2, rfl⟩ := h.uncons
      simp only [List.map_cons, h1.length, ih h2]
  refine PWS.ghost (dotMany_pws hI.ok as bs (hlens has) (hlens hbs) (by simpa using hlen.length_eq)) ?_
  rintro m c s ⟨l1, l2, hP, h⟩
  rw [List.length_map] at l1 l2
  by_cases hcl : Clean (s i) (s i.next)
  · obtain ⟨h0, h1⟩ := h hcl
    have hw := hI.clean h0
    have hp : ∀ {Z : List (List (BitVec K))} {c : Party → List (List (S3Share K))}, Rels (Rels S3SharesOf) Z c →
        Pairs S3PairsOf Z (c i) (c i.next) := fun h =>
      pairs_of_rels (fun _ _ h => pairs_of_rels (fun _ _ => pair_arith) h) h
    obtain ⟨c', e1, e2, hc⟩ := thirds (i := i) (fun _ _ _ => third_arith) (h1 X Y (hp has) (hp hbs))
    exact ⟨c', s, e1, e2, rfl, rfl, Clean (s i) (s i.next), fun _ => hw, Rels.to_world hc, hP, id⟩
  · refine ⟨fun k => if k = i.next then c i.next else c i, s, by simp [(Party.next_ne i).symm], by simp, rfl, rfl,
      Clean (s i) (s i.next), fun h => (hcl h).elim, Rels.off_world hcl fun k => ?_, hP, id⟩
    split <;> simp [l1, l2, hlen.length_eq]

theorem diffLoop_worldS (hK : 15 ≤ K) {sg : Bool} {verify : Party → Proto (S3St G K) Unit} {w : Prop} {st : Party → S3St G K}
    (ps : List (BitVec K × Nat)) (ht : ∀ p ∈ ps, p.2 ≤ 12800) {a : Party → List (S3Share K)}
    (ha : Rels (RelQ w K) (ps.map fun p => p.1) a) :
    ∃ r : Party → List (S3Share K), Rels (RelQ w K) (ps.map fun p => p.1 - BitVec.ofNat K (matchThreshold p.2)) r ∧
      ∀ k, Iris.diffLoop (Swift3.ops G H K sg (verify k) k) (st k) ((a k).zip (ps.map fun p => p.2)) = .ok (r k) := by
  induction ps generalizing a with
  | nil => rw [ha.eq_nil]; exact ⟨_, Rels.nil, fun i => rfl⟩
  | cons p ps ih =>
    obtain ⟨a1, a2, k1, k2, rfl⟩ := Rels.uncons ha
    obtain ⟨r2, hr2, e2⟩ := ih (fun p hp => ht p (by simp [hp])) k2
    have hle : matchThreshold p.2 ≤ 12800 := by
      have := ht p (by simp)
      rw [C18_match_threshold _ this]; omega
    have h1 : RelQ w K (p.1 - BitVec.ofNat K (matchThreshold p.2)) fun k => (a1 k).subConst (BitVec.ofNat K (matchThreshold p.2)) :=
      fun hw => (k1 hw).subConst _
    refine ⟨_, Rels.cons h1 hr2, fun k => ?_⟩
    have e1 : Iris.getCmpDiff (Swift3.ops G H K sg (verify k) k) (st k) (a1 k) p.2
        = .ok ((a1 k).subConst (BitVec.ofNat K (matchThreshold p.2))) := by
      unfold Iris.getCmpDiff
      rw [(MpcLawful.tryFrom_ok hK _ hle).1]; rfl
    simp only [List.map_cons, List.zip_cons_cons, Iris.diffLoop, e1, e2 k]
    rfl

/-- The most significant bits of shared values. -/
theorem getMsbMany_pkS (k1 : 1 ≤ K) (k2 : K ≤ 128) {w : Prop} {st : Party → S3St G K} (hI : InvS i w st)
    {xs : List (BitVec K)} {a : Party → List (S3Share K)} (ha : Rels (RelQ w K) xs a) :
    PK i w (fun j => getMsbMany j (a j)) st
      (fun w' c st' => Rels (RelS w' 1) (xs.map fun x => bitOf x.msb) c ∧ InvS i w' st') := by
  obtain ⟨x1, x2, x3, l1, l2, l3, e, h1, h2, h3⟩ : ∃ x1 x2 x3 : List (BitVec K), x1.length = xs.length ∧
      x2.length = xs.length ∧ x3.length = xs.length ∧
      (w → xs = List.zipWith (· + ·) (List.zipWith (· + ·) x1 x2) x3) ∧
      Rels (RelS w K) x1 (fun k => (a k).map fun x => (a2bPre k x).1) ∧
      Rels (RelS w K) x2 (fun k => (a k).map fun x => (a2bPre k x).2.1) ∧
      Rels (RelS w K) x3 (fun k => (a k).map fun x => (a2bPre k x).2.2) := by
    by_cases hw : w
    · obtain ⟨zs, hzs, h1, h2, h3⟩ := a2bPre_rels (Rels.in_world ha hw)
      refine ⟨zs.map (·.1), zs.map (·.2.1), zs.map (·.2.2), by simp [hzs], by simp [hzs], by simp [hzs], fun _ => ?_,
        Rels.to_world h1, Rels.to_world h2, Rels.to_world h3⟩
      rw [Aby3.zipWith_map_three, hzs]
    · exact ⟨xs, xs, xs, rfl, rfl, rfl, fun h => (hw h).elim, Rels.off_world hw fun k => by simp [ha.length],
        Rels.off_world hw fun k => by simp [ha.length], Rels.off_world hw fun k => by simp [ha.length]⟩
  have hadd := (lawfulS (G := G) (K := K) (i := i)).binaryAdd3Many (u := 0) k1 k2 hI h1 h2 h3 (by omega) (by omega)
  unfold getMsbMany a2bMany
  refine PK.bind (PK.mono hadd ?_)
  rintro w' r st' hw ⟨hr, -, hI'⟩
  refine PK.pure ⟨?_, hI'⟩
  have hl : (List.zipWith (· + ·) (List.zipWith (· + ·) x1 x2) x3).length = xs.length := by simp [l1, l2, l3]
  refine Rels.world (fun k => by rw [List.length_map, hr.length, hl, List.length_map]) fun hw' => ?_
  rw [e (hw hw')]
  exact (Rels.in_world hr hw').map (f := fun x => bitOf x.msb) (g := fun _ => S3Share.getMsb) fun _ _ h => h.getMsb (by omega)

attribute [local irreducible] hammingDistance commonBits

/-- One chunk of a query. -/
theorem chunk_pkS (hK : 15 ≤ K) (hK2 : K ≤ 128) {sg : Bool} {verify : Party → Proto (S3St G K) Unit} {w : Prop}
    {st : Party → S3St G K} (hI : InvS i w st) {q : IrisCode} {a : Party → List (S3Share K)}
    (ha : Rels S3SharesOf (encode _ q.code) a)
    {cs : List IrisCode} (hne : cs ≠ []) (hm : ∀ c ∈ cs, 8960 ≤ commonBits q c) {b : Party → List (List (S3Share K))}
    (hb : Rels (Rels S3SharesOf) (cs.map fun c => encode _ c.code) b) :
    PK i w (fun k => Iris.compareIrisMany (Swift3.ops G H K sg (verify k) k) (a k) (b k) q.mask (cs.map fun c => c.mask)) st
      (fun w' o s => Rels (RelS w' 1) (cs.map fun c => bitOf (MpcLawful.closeBit q c)) o ∧ InvS i w' s) := by
  unfold Iris.compareIrisMany
  refine PK.ite_neg (fun k => by rw [hb.length]; simp [hne]) ?_
  refine PK.bind (PK.lift (fun k => MpcLawful.combineAll_ok q cs hm) ?_)
  refine PK.bind ?_
  unfold Iris.hammingMany
  refine PK.bind (PK.mono (maskedDot_pkS hI ha (MpcLawful.encode_length _) hb (masks := cs.map fun c => q.mask.and c.mask) ?_ (by simp)) ?_)
  · intro ys hys
    obtain ⟨c, -, rfl⟩ := List.mem_map.1 hys
    exact MpcLawful.encode_length _
  rintro w1 d s1 hw1 ⟨hd, hI1⟩
  rw [MpcLawful.zipWith_maps] at hd
  obtain ⟨r, hr, e⟩ := (localLawfulS G H K sg verify w1).hammingLoop_rel hK (Rels.to_world ha) cs
    (hb.imp fun _ _ h => Rels.to_world h) hd
  refine PK.lift e ?_
  unfold Iris.compareThresholdMany
  refine PK.ite_neg (fun k => by rw [hr.length]; simp) ?_
  have hlen : (cs.map fun c => q.mask.and c.mask).map IrisCodeArray.countOnes
      = (cs.map fun c => (BitVec.ofNat K (hammingDistance q c), commonBits q c)).map fun p => p.2 := by
    rw [List.map_map, List.map_map]
    apply List.map_congr_left
    intro c _
    exact countOnes_masks q c
  beta_reduce
  rw [hlen]
  refine PK.bind (PWS.get ⟨w1, id, ?_⟩)
  obtain ⟨r', hr', e'⟩ := diffLoop_worldS (H := H) (sg := sg) (verify := verify) (st := s1) hK
    (cs.map fun c => (BitVec.ofNat K (hammingDistance q c), commonBits q c)) (by
      intro p hp
      obtain ⟨c, -, rfl⟩ := List.mem_map.1 hp
      exact commonBits_le q c) (a := r) (by rw [List.map_map]; exact hr)
  refine PK.bind (PK.lift e' ?_)
  refine PK.mono (getMsbMany_pkS (by omega) hK2 hI1 hr') ?_
  rintro w2 o s2 hw2 ⟨ho, hI2⟩
  refine ⟨?_, hI2⟩
  rw [List.map_map, List.map_map] at ho
  convert ho using 2
  funext c
  have := MpcLawful.diff_msb hK (le_refl K) q c
  rw [BitVec.setWidth_eq] at this
  simp only [Function.comp_def, this]

theorem loop_pkS (hK : 15 ≤ K) (hK2 : K ≤ 128) {sg : Bool} {verify : Party → Proto (S3St G K) Unit} {q : IrisCode}
    {a : Party → List (S3Share K)} (ha : Rels S3SharesOf (encode _ q.code) a) (css : List (List IrisCode))
    (hne : ∀ cs ∈ css, cs ≠ []) (hm : ∀ cs ∈ css, ∀ c ∈ cs, 8960 ≤ commonBits q c)
    {b : Party → List (List (List (S3Share K)))} {w : Prop} {st : Party → S3St G K} (hI : InvS i w st)
    (hb : Rels (Rels (Rels S3SharesOf)) (css.map fun cs => cs.map fun c => encode _ c.code) b) :
    PK i w (fun k => Iris.chunkLoop (Swift3.ops G H K sg (verify k) k) (a k) q.mask
      ((b k).zip (css.map fun cs => cs.map fun c => c.mask))) st
      (fun w' o s => Rels (RelS w' 1) (css.flatten.map fun c => bitOf (MpcLawful.closeBit q c)) o ∧ InvS i w' s) := by
  induction css generalizing b w st with
  | nil =>
    rw [hb.eq_nil]
    exact PK.pure (a := fun _ => []) ⟨Rels.nil, hI⟩
  | cons cs css ih =>
    obtain ⟨b1, b2, k1, k2, rfl⟩ := Rels.uncons hb
    simp only [List.map_cons, List.zip_cons_cons, Iris.chunkLoop]
    refine PK.bind (PK.mono (chunk_pkS hK hK2 hI ha (hne cs (by simp)) (hm cs (by simp)) k1) ?_)
    rintro w1 o s hw1 ⟨ho, hI1⟩
    refine PK.bind (PK.mono (ih (fun cs h => hne cs (by simp [h])) (fun cs h => hm cs (by simp [h])) hI1 k2) ?_)
    rintro w2 o' s' hw2 ⟨ho', hI2⟩
    refine PK.pure (a := fun k => o k ++ o' k) ⟨?_, hI2⟩
    rw [List.flatten_cons, List.map_append]
    exact Rels.append (ho.imp fun _ _ h hw => h (hw2 hw)) ho'

/-- The query up to the verification: if the states of the honest parties show no error, they hold the answer. -/
theorem queryBody_pws (hK : 15 ≤ K) (hK2 : K ≤ 128) {sg : Bool} {verify : Party → Proto (S3St G K) Unit} {q : IrisCode}
    {db : List IrisCode} (hne : db ≠ []) (hm : ∀ c ∈ db, 8960 ≤ commonBits c q) {a : Party → List (S3Share K)}
    {b : Party → List (List (S3Share K))} (ha : Rels S3SharesOf (encode _ q.code) a)
    (hb : Rels (Rels S3SharesOf) (db.map fun c => encode _ c.code) b)
    {cs : Nat} (hcs : cs ≠ 0) (hov : (db.length + cs) * (2 * K) < 2 ^ 64)
    {st : Party → S3St G K} (hI : PairOk (st i) (st i.next)) :
    PWS i (fun k => Iris.queryBody (Swift3.ops G H K sg (verify k) k) (a k) (b k) q.mask (db.map fun c => c.mask) cs) st
      (fun _ => False) (fun _ o s => PairOk (s i) (s i.next) ∧ (Clean (s i) (s i.next) → Clean (st i) (st i.next) ∧
        S3BinPairOf (bitOf (inDb q db)) (o i) (o i.next))) := by
  unfold Iris.queryBody
  refine PWS.bind (PWS.lift_ok (a := fun _ => MpcLawful.queryAnds K db.length cs)
    (fun i => by rw [hb.length, List.length_map]; exact MpcLawful.numAndTriples_ok hK hcs hov) ?_)
  refine PWS.bind (PWS.pure (a := fun _ => ()) ?_)
  obtain ⟨ch, hch, ech⟩ := Rels.chunksE hb hcs
  refine PWS.bind (PWS.lift_ok ech ?_)
  refine PWS.bind (PWS.lift_ok (a := fun _ => chunksOf cs (db.map fun c => c.mask))
    (fun i => by unfold chunksE; rw [if_neg hcs]) ?_)
  rw [MpcLawful.chunksOf_map'] at hch
  have hm' : ∀ ch ∈ chunksOf cs db, ∀ c ∈ ch, 8960 ≤ commonBits q c := fun ch hc c hcc => by
    rw [MpcLawful.commonBits_comm]; exact hm c (MpcLawful.mem_of_mem_chunksOf hc hcc)
  rw [show chunksOf cs (db.map fun c => c.mask) = (chunksOf cs db).map fun cs => cs.map fun c => c.mask from
    MpcLawful.chunksOf_map' _ _ _]
  refine PWS.bind (PWS.conseq (loop_pkS hK hK2 ha (chunksOf cs db) (MpcLawful.mem_chunksOf_ne cs db) hm'
    (w := Clean (st i) (st i.next)) ⟨hI, id⟩ (b := ch) hch) (fun _ h => h.elim) ?_)
  rintro m bs s ⟨w1, hw1, hbs, hI1⟩
  rw [chunksOf_flatten hcs] at hbs
  refine PWS.conseq ((lawfulS (G := G) (K := K) (i := i)).reduceBinaryOr (u := 0) hcs (by simpa using hne) hI1 hbs)
    (fun _ h => h.elim) ?_
  rintro m c s2 ⟨w2, hw2, hc, hI2⟩
  refine ⟨hI2.ok, fun hcl => ?_⟩
  have hw := hI2.clean hcl
  refine ⟨hw1 (hw2 hw), ?_⟩
  have := pair_bin (i := i) (hc hw)
  rw [FamLawful.orAll_bits] at this
  have hbit : ∀ b : Bool, bitVal (bitOf b) = b := by decide
  have e : (db.map fun c => bitOf (MpcLawful.closeBit q c)).any bitVal = inDb q db := by
    rw [List.any_map, inDb]
    congr 1
    funext c
    simp only [Function.comp_def, hbit, MpcLawful.closeBit]
    rw [MpcLawful.hammingDistance_comm, MpcLawful.commonBits_comm]
  rw [e] at this
  exact this

end Swift3

end Verif
