import Verif.Proof.PairCalls
import Verif.Proof.PairQueue

/-! # A query of the malicious ABY3 backend with a corrupt party -/

namespace Verif

section Worlds

variable {X B : Type} {R : X → (Party → B) → Prop} {w : Prop}

theorem Rels.in_world {xs : List X} {ls : Party → List B} (h : Rels (fun x s => w → R x s) xs ls) (hw : w) : Rels R xs ls :=
  h.imp fun _ _ h => h hw

theorem Rels.to_world {xs : List X} {ls : Party → List B} (h : Rels R xs ls) : Rels (fun x s => w → R x s) xs ls :=
  h.imp fun _ _ h _ => h

theorem Rels.off_world (hw : ¬ w) {xs : List X} {ls : Party → List B} (hl : ∀ k, (ls k).length = xs.length) :
    Rels (fun x s => w → R x s) xs ls := by
  induction xs generalizing ls with
  | nil =>
    have : ls = fun _ => [] := funext fun k => List.eq_nil_of_length_eq_zero (hl k)
    rw [this]; exact Rels.nil
  | cons x xs ih =>
    have hs : ∀ k, ∃ t ts, ls k = t :: ts := fun k => by
      cases h : ls k with
      | nil => have := hl k; rw [h] at this; simp at this
      | cons t ts => exact ⟨t, ts, rfl⟩
    choose t ts e using hs
    obtain rfl : ls = fun k => t k :: ts k := funext e
    exact Rels.cons (fun h => (hw h).elim) (ih fun k => by simpa using hl k)

theorem Rels.world {xs : List X} {ls : Party → List B} (hl : ∀ k, (ls k).length = xs.length) (h : w → Rels R xs ls) :
    Rels (fun x s => w → R x s) xs ls := by
  by_cases hw : w
  · exact Rels.to_world (h hw)
  · exact Rels.off_world hw hl

end Worlds

namespace MalAby3

open Jmp

variable {G : Prg} {H : Hash} {K L : Nat} {i : Party}

theorem SomeForged.append_iff {l l' : List (Call G K)} {c c' : Call G K} (h : l.length = l'.length) :
    SomeForged H i (l ++ [c]) (l' ++ [c']) ↔ SomeForged H i l l' ∨ CallForged H i c c' := by
  constructor
  · rintro ⟨t, d, d', h1, h2, hf⟩
    by_cases ht : t < l.length
    · rw [List.getElem?_append_left ht] at h1
      rw [List.getElem?_append_left (h ▸ ht)] at h2
      exact .inl ⟨t, d, d', h1, h2, hf⟩
    · rw [List.getElem?_append_right (by omega)] at h1
      rw [List.getElem?_append_right (by omega), ← h] at h2
      have : t - l.length = 0 := by
        by_contra h0
        rw [List.getElem?_eq_none (by simp; omega)] at h1
        cases h1
      rw [this] at h1 h2
      simp only [List.getElem?_cons_zero, Option.some.injEq] at h1 h2
      subst h1 h2
      exact .inr hf
  · rintro (⟨t, d, d', h1, h2, hf⟩ | hf)
    · refine ⟨t, d, d', ?_, ?_, hf⟩
      · rw [List.getElem?_append_left (List.getElem?_eq_some_iff.1 h1).1]; exact h1
      · rw [List.getElem?_append_left (List.getElem?_eq_some_iff.1 h2).1]; exact h2
    · exact ⟨l.length, c, c', by simp, by rw [h]; simp, hf⟩

/-- Binary shares in a world. -/
def RelL (w : Prop) (L : Nat) (x : BitVec L) (s : Party → AShare L) : Prop := w → BinSharesOf x s

/-- Arithmetic shares in a world. -/
def RelA (w : Prop) (K : Nat) (x : BitVec K) (s : Party → AShare K) : Prop := w → SharesOf x s

/-- No call is forged, and the strings to be compared agree. -/
def Clean (H : Hash) (i : Party) (st : Party → LogSt G K) : Prop :=
  ¬ SomeForged H i (st i).2 (st i.next).2 ∧ (st i).1.rcvQueueNext = (st i.next).1.sendQueuePrev

/-- The invariant of the states: if nothing is forged the world holds. -/
structure InvL (H : Hash) (i : Party) (w : Prop) (st : Party → LogSt G K) : Prop where
  prf : PrfOk fun k => (st k).1.prf
  queue : (st i).1.rcvQueueNext.length = (st i.next).1.sendQueuePrev.length
  log : (st i).2.length = (st i.next).2.length
  clean : Clean H i st → w

/-- `fam` with a list of calls. -/
def logFam (G : Prg) (K : Nat) (H : Hash) (me : Party) : BinFam (LogSt G K) AShare where
  ops L := logBinOps G K H L me
  zero := AShare.zero
  mapLists := AShare.mapLists

theorem locL (w : Prop) : FamLawful (logFam G K H) (RelL w) (fun _ _ => False) where
  bin L _ _ :=
    { xor := fun h h' hw => (h hw).xor (h' hw)
      shl := fun n h hw => (h hw).shl n
      and := fun h => h.elim
      andMany := fun h => h.elim }
  zero L _ := BinSharesOf.zero
  mapLists := by
    intro K L n f xs a hf hn h
    refine Rels.world (fun k => ?_) fun hw => BinSharesOf.mapLists hf hn (Rels.in_world h hw)
    have hl : ∀ k, (a k).length = n := fun k => by rw [h.length, hn]
    show (AShare.mapLists f (a k)).length = _
    unfold AShare.mapLists
    rw [List.length_zipWith, hf.len _ xs (by simp [hl]) hn, hf.len ((a k).map _) xs (by simp [hl]) hn, min_self]

theorem and_pk {w : Prop} {st : Party → LogSt G K} (hI : InvL H i w st) {x y : BitVec L} {a b : Party → AShare L}
    (ha : RelL w L x a) (hb : RelL w L y b) :
    PK i w (fun j => (logBinOps G K H L j).and (a j) (b j)) st
      (fun w' c st' => RelL w' L (x &&& y) c ∧ InvL H i w' st') := by
  refine PWS.ghost (logged_pws (kind := fun _ => .ands L) (and_pws (H := H) (i := i) hI.prf hI.queue)) ?_
  rintro m c s ⟨⟨hP, hq, h⟩, rc, rfl, hlog⟩
  have hl : (s i).2.length = (s i.next).2.length := by simp only [hlog, List.length_append, hI.log, List.length_singleton]
  have hw : Clean H i s → ¬ TriplesForged H i L (st i).1 (st i.next).1 (rc i i.prev) ∧
      ((st i).1.rcvQueueNext = (st i.next).1.sendQueuePrev → w) := by
    rintro ⟨h1, h2⟩
    rw [hlog, hlog, SomeForged.append_iff hI.log, not_or] at h1
    exact ⟨h1.2, fun hq => hI.clean ⟨h1.1, hq⟩⟩
  have hc : Clean H i s → w ∧ ∃ c', c' i = c i ∧ c' i.next = c i.next ∧ BinSharesOf (x &&& y) c' := by
    intro hcl
    obtain ⟨g1, g2⟩ := hw hcl
    rcases h with h | ⟨hq', h⟩
    · exact (g1 h).elim
    · exact ⟨g2 hq', h hcl.2 x y (ha (g2 hq')) (hb (g2 hq'))⟩
  by_cases hcl : Clean H i s
  · obtain ⟨hw', c', e1, e2, hc'⟩ := hc hcl
    exact ⟨c', s, e1, e2, rfl, rfl, Clean H i s, fun _ => hw', fun _ => hc', hP, hq, hl, id⟩
  · exact ⟨c, s, rfl, rfl, rfl, rfl, Clean H i s, fun h => (hcl h).elim, fun h => (hcl h).elim, hP, hq, hl, id⟩

theorem andMany_pk {w : Prop} {st : Party → LogSt G K} (hL : L ≠ 0) (hI : InvL H i w st) {xs ys : List (BitVec L)}
    {a b : Party → List (AShare L)} (ha : Rels (RelL w L) xs a) (hb : Rels (RelL w L) ys b) (hxy : xs.length = ys.length) :
    PK i w (fun j => (logBinOps G K H L j).andMany (a j) (b j)) st
      (fun w' c st' => Rels (RelL w' L) (List.zipWith (· &&& ·) xs ys) c ∧ InvL H i w' st') := by
  refine PWS.ghost (logged_pws (kind := fun k => .ands (L * (a k).length)) (andMany_pws (H := H) (i := i) hL hI.prf hI.queue
    (n := xs.length) (fun k => ha.length k) (fun k => by rw [hb.length, hxy]))) ?_
  rintro m c s ⟨⟨hP, hq, l1, l2, h⟩, rc, rfl, hlog⟩
  have hl : (s i).2.length = (s i.next).2.length := by simp only [hlog, List.length_append, hI.log, List.length_singleton]
  have hw : Clean H i s → ¬ TriplesForged H i (L * (a i).length) (st i).1 (st i.next).1 (rc i i.prev) ∧
      ((st i).1.rcvQueueNext = (st i.next).1.sendQueuePrev → w) := by
    rintro ⟨h1, h2⟩
    rw [hlog, hlog, SomeForged.append_iff hI.log, not_or] at h1
    exact ⟨h1.2, fun hq => hI.clean ⟨h1.1, hq⟩⟩
  rw [ha.length] at hw
  have hc : Clean H i s → w ∧ ∃ c', c' i = c i ∧ c' i.next = c i.next ∧
      Rels BinSharesOf (List.zipWith (· &&& ·) xs ys) c' := by
    intro hcl
    obtain ⟨g1, g2⟩ := hw hcl
    rcases h with h | ⟨hq', h⟩
    · exact (g1 h).elim
    · exact ⟨g2 hq', h hcl.2 xs ys (Rels.in_world ha (g2 hq')) (Rels.in_world hb (g2 hq'))⟩
  by_cases hcl : Clean H i s
  · obtain ⟨hw', c', e1, e2, hc'⟩ := hc hcl
    exact ⟨c', s, e1, e2, rfl, rfl, Clean H i s, fun _ => hw', Rels.to_world hc', hP, hq, hl, id⟩
  · refine ⟨fun k => if k = i.next then c i.next else c i, s, by simp [(Party.next_ne i).symm], by simp, rfl, rfl, Clean H i s,
      fun h => (hcl h).elim, Rels.off_world hcl fun k => ?_, hP, hq, hl, id⟩
    split <;> simp [l1, l2, hxy]

theorem lawfulL : WorldLawful i (logFam G K H) RelL (fun w _ st => InvL H i w st) where
  loc := locL
  mono h hr hw := hr (h hw)
  and _ _ hI ha hb := and_pk hI ha hb
  andMany h1 _ hI ha hb hl := andMany_pk (by omega) hI ha hb hl

/-! ## The iris protocol -/

theorem filterSum_total (m : IrisCodeArray) (n : Nat) (acc : AShare K) (l : List (AShare K)) (h : n + l.length ≤ irisCodeSize) :
    ∃ r, AShare.filterSum m n acc l = .ok r := by
  induction l generalizing n acc with
  | nil => exact ⟨acc, rfl⟩
  | cons x l ih =>
    simp only [List.length_cons] at h
    have hk' : n < 12800 := by have : irisCodeSize = 12800 := rfl; omega
    have hg : m.getBit n = .ok (IrisCodeArray.bitAt m ⟨n, hk'⟩) := C17_get_bit m ⟨n, hk'⟩
    obtain ⟨r, e⟩ := ih (n + 1) (if IrisCodeArray.bitAt m ⟨n, hk'⟩ then acc.add x else acc) (by omega)
    refine ⟨r, ?_⟩
    show (m.getBit n >>= _) = _
    rw [hg]
    exact e

/-- The laws of the local operations. (The others are vacuous: no state satisfies the invariant.) -/
theorem localLawful (G : Prg) (H : Hash) (K : Nat) (sg : Bool) (w : Prop) :
    MpcLawful (logOps G H K sg) (RelA w K) (RelL w 1) (fun _ => False) (fun _ => False)
      (fun _ _ _ => False) (fun _ _ => True) (fun _ => 0) (fun _ => 0) (fun cs => cs * 128 < 2 ^ 64) where
  maskedDotMany h := h.elim
  filter := by
    intro p q m a b ha hb
    by_cases hw : w
    · obtain ⟨c, d, h1, h2, e⟩ := AShare.filterReduce_rel m (Rels.in_world ha hw) (Rels.in_world hb hw)
        (MpcLawful.encode_length p) (MpcLawful.encode_length q)
      exact ⟨c, d, fun _ => h1, fun _ => h2, e⟩
    · have : ∀ k, ∃ c d, AShare.filterReduceAddTwice (a k) (b k) m = .ok (c, d) := by
        intro k
        have h1 := ha.length k
        have h2 := hb.length k
        rw [MpcLawful.encode_length] at h1 h2
        obtain ⟨c, e1⟩ := filterSum_total m 0 (AShare.zero K) (a k) (by omega)
        obtain ⟨d, e2⟩ := filterSum_total m 0 (AShare.zero K) (b k) (by omega)
        refine ⟨c, d, ?_⟩
        unfold AShare.filterReduceAddTwice
        rw [if_neg ?_, e1, e2]
        · rfl
        · rw [h1, h2, List.isEmpty_iff]
          rintro (h | h)
          · rw [h] at h1; simp [irisCodeSize] at h1
          · exact h rfl
      choose c d e using this
      exact ⟨c, d, fun h => (hw h).elim, fun h => (hw h).elim, e⟩
  add := fun ha hb hw => (ha hw).add (hb hw)
  sub := fun ha hb hw => (ha hw).sub (hb hw)
  mulConst := fun c _ ha hw => by
    have := (ha hw).mulConst c
    rw [BitVec.ofNat_toNat, BitVec.setWidth_eq]; exact this
  subConst := fun c _ h _ => h.elim
  getMsb h := h.elim
  getMsbMany _ h := h.elim
  reduceBinaryOr _ _ _ h := h.elim
  precompute h := h.elim
  verify h := h.elim
  openBit h := h.elim

/-- The vectors of `masked_dot_many`. -/
theorem maskedVecs_dots {V : Nat} {A : Type} {R : BitVec V → (Party → A) → Prop} {zero : A}
    (hz : R 0 (fun _ => zero)) {xs : List (BitVec V)} {a : Party → List A} (ha : Rels R xs a) (hx : xs.length = irisCodeSize)
    {yss : List (List (BitVec V))} {masks : List IrisCodeArray} {b : Party → List (List A)}
    (hb : Rels (Rels R) yss b) (hl : ∀ ys ∈ yss, ys.length = irisCodeSize) (hm : yss.length = masks.length) :
    ∃ (X Y : List (List (BitVec V))) (as bs : Party → List (List A)), Rels (Rels R) X as ∧ Rels (Rels R) Y bs ∧
      List.Forall₂ (fun xs ys => xs.length = ys.length) X Y ∧
      (List.zipWith (fun xs ys => (List.zipWith (· * ·) xs ys).sum) X Y = List.zipWith (fun ys (m : IrisCodeArray) =>
        maskedSum (IrisCodeArray.bitList m) (List.zipWith (· * ·) xs ys)) yss masks) ∧
      ∀ i, maskedVecs zero (a i) ((b i).zip masks) = .ok (as i, bs i) := by
  obtain ⟨as, bs, has, hbs, e⟩ := maskedVecs_rel hz ha hx hb hl hm
  refine ⟨_, _, as, bs, has, hbs, ?_, ?_, e⟩
  · clear hb hbs has e
    induction yss generalizing masks with
    | nil =>
      cases masks with
      | cons m ms => simp at hm
      | nil => exact .nil
    | cons ys yss ih =>
      cases masks with
      | nil => simp at hm
      | cons m ms =>
        refine .cons ?_ (ih (fun y hy => hl y (by simp [hy])) (by simpa using hm))
        have hb : m.bits.length = irisCodeSize := by rw [C17_bits, Aby3.bitList_length]
        simp [zeroUnmasked, hb, hx, hl ys (by simp)]
  · clear hb hbs has e
    induction yss generalizing masks with
    | nil =>
      cases masks with
      | cons m ms => simp at hm
      | nil => rfl
    | cons ys yss ih =>
      cases masks with
      | nil => simp at hm
      | cons m ms =>
        simp only [List.map_cons, List.zipWith_cons_cons]
        rw [ih (fun y hy => hl y (by simp [hy])) (by simpa using hm), zeroUnmasked_dot, C17_bits]

/-- The masked inner products of a chunk. -/
theorem maskedDot_pk (hV : 40 ≤ verifWidth K - K) {sg : Bool} {w : Prop} {st : Party → LogSt G K} (hI : InvL H i w st)
    {xs : List (BitVec K)} {a : Party → List (AShare K)} (ha : Rels SharesOf xs a) (hx : xs.length = irisCodeSize)
    {yss : List (List (BitVec K))} {masks : List IrisCodeArray} {b : Party → List (List (AShare K))}
    (hb : Rels (Rels SharesOf) yss b) (hl : ∀ ys ∈ yss, ys.length = irisCodeSize) (hm : yss.length = masks.length) :
    PK i w (fun j => (logOps G H K sg j).maskedDotMany (a j) (b j) masks) st
      (fun w' c st' => Rels (RelA w' K) (List.zipWith (fun ys (m : IrisCodeArray) =>
        maskedSum (IrisCodeArray.bitList m) (List.zipWith (· * ·) xs ys)) yss masks) c ∧ InvL H i w' st') := by
  obtain ⟨X, Y, as, bs, has, hbs, hlen, heq, e⟩ := maskedVecs_dots (R := SharesOf) (zero := AShare.zero K) SharesOf.zero ha hx hb hl hm
  rw [← heq]
  show PK i w (fun j => defaultMaskedDotMany (AShare.zero K) (fun x y => logged (.dots x y) (dotMany H j x y)) (a j) (b j)
    masks) st _
  unfold defaultMaskedDotMany
  refine PK.bind (PK.lift e ?_)
  refine PWS.ghost (logged_pws (kind := fun k => .dots (as k) (bs k)) (dots_pws (H := H) (i := i) hV hI.prf hI.queue has hbs hlen)) ?_
  rintro m c s ⟨⟨hF, l1, l2, h⟩, rc, rfl, hlog⟩
  have hlog' : (s i).2.length = (s i.next).2.length := by simp only [hlog, List.length_append, hI.log, List.length_singleton]
  have hq : (s i).1.rcvQueueNext = (s i.next).1.sendQueuePrev := (hF.rcv i).trans (hF.snd i.next).symm
  have hw : Clean H i s → w ∧ PairsOf i (List.zipWith (fun xs ys => (List.zipWith (· * ·) xs ys).sum) X Y) (c i) (c i.next) := by
    rintro ⟨h1, h2⟩
    rw [hlog, hlog, SomeForged.append_iff hI.log, not_or] at h1
    rcases h with h | ⟨h, h'⟩
    · exact (h1.2 h).elim
    · exact ⟨hI.clean ⟨h1.1, h⟩, h'⟩
  by_cases hcl : Clean H i s
  · obtain ⟨hw', hc⟩ := hw hcl
    obtain ⟨c', hc', e1, e2⟩ := PairsOf.shares hc
    exact ⟨c', s, e1, e2, rfl, rfl, Clean H i s, fun _ => hw', Rels.to_world hc', hF.prf, congrArg _ hq, hlog', id⟩
  · refine ⟨fun k => if k = i.next then c i.next else c i, s, by simp [(Party.next_ne i).symm], by simp, rfl, rfl, Clean H i s,
      fun h => (hcl h).elim, Rels.off_world hcl fun k => ?_, hF.prf, congrArg _ hq, hlog', id⟩
    split <;> simp [l1, l2, hlen.length_eq]

theorem diffLoop_world (hK : 15 ≤ K) {sg : Bool} {w : Prop} {st : Party → LogSt G K} (ps : List (BitVec K × Nat))
    (ht : ∀ p ∈ ps, p.2 ≤ 12800) {a : Party → List (AShare K)} (ha : Rels (RelA w K) (ps.map fun p => p.1) a) :
    ∃ r : Party → List (AShare K), Rels (RelA w K) (ps.map fun p => p.1 - BitVec.ofNat K (matchThreshold p.2)) r ∧
      ∀ k, Iris.diffLoop (logOps G H K sg k) (st k) ((a k).zip (ps.map fun p => p.2)) = .ok (r k) := by
  induction ps generalizing a with
  | nil => rw [ha.eq_nil]; exact ⟨_, Rels.nil, fun i => rfl⟩
  | cons p ps ih =>
    obtain ⟨a1, a2, k1, k2, rfl⟩ := Rels.uncons ha
    obtain ⟨r2, hr2, e2⟩ := ih (fun p hp => ht p (by simp [hp])) k2
    have hle : matchThreshold p.2 ≤ 12800 := by
      have := ht p (by simp)
      rw [C18_match_threshold _ this]; omega
    have h1 : RelA w K (p.1 - BitVec.ofNat K (matchThreshold p.2)) fun k => (a1 k).subConst (BitVec.ofNat K (matchThreshold p.2)) k :=
      fun hw => (k1 hw).subConst _
    refine ⟨_, Rels.cons h1 hr2, fun k => ?_⟩
    have e1 : Iris.getCmpDiff (logOps G H K sg k) (st k) (a1 k) p.2 = .ok ((a1 k).subConst (BitVec.ofNat K (matchThreshold p.2)) k) := by
      unfold Iris.getCmpDiff
      rw [(MpcLawful.tryFrom_ok hK _ hle).1]; rfl
    simp only [List.map_cons, List.zip_cons_cons, Iris.diffLoop, e1, e2 k]
    rfl

/-- The most significant bits of shared values. -/
theorem getMsbMany_pk (k1 : 1 ≤ K) (k2 : K ≤ 128) {sg : Bool} {w : Prop} {st : Party → LogSt G K} (hI : InvL H i w st)
    {xs : List (BitVec K)} {a : Party → List (AShare K)} (ha : Rels (RelA w K) xs a) :
    PK i w (fun j => (logOps G H K sg j).getMsbMany (a j)) st
      (fun w' c st' => Rels (RelL w' 1) (xs.map fun x => bitOf x.msb) c ∧ InvL H i w' st') := by
  obtain ⟨x1, x2, x3, l1, l2, l3, e, h1, h2, h3⟩ : ∃ x1 x2 x3 : List (BitVec K), x1.length = xs.length ∧
      x2.length = xs.length ∧ x3.length = xs.length ∧
      (w → xs = List.zipWith (· + ·) (List.zipWith (· + ·) x1 x2) x3) ∧
      Rels (RelL w K) x1 (fun k => (a k).map fun x => (Aby3.a2bPre k x).1) ∧
      Rels (RelL w K) x2 (fun k => (a k).map fun x => (Aby3.a2bPre k x).2.1) ∧
      Rels (RelL w K) x3 (fun k => (a k).map fun x => (Aby3.a2bPre k x).2.2) := by
    by_cases hw : w
    · obtain ⟨zs, hzs, h1, h2, h3⟩ := Aby3.a2bPre_rels (Rels.in_world ha hw)
      refine ⟨zs.map (·.1), zs.map (·.2.1), zs.map (·.2.2), by simp [hzs], by simp [hzs], by simp [hzs], fun _ => ?_,
        Rels.to_world h1, Rels.to_world h2, Rels.to_world h3⟩
      rw [Aby3.zipWith_map_three, hzs]
    · exact ⟨xs, xs, xs, rfl, rfl, rfl, fun h => (hw h).elim, Rels.off_world hw fun k => by simp [ha.length],
        Rels.off_world hw fun k => by simp [ha.length], Rels.off_world hw fun k => by simp [ha.length]⟩
  have hadd := (lawfulL (G := G) (K := K) (H := H) (i := i)).binaryAdd3Many (u := 0) k1 k2 hI h1 h2 h3 (by omega) (by omega)
  show PK i w (fun j => (logBinOps G K H K j).binaryAdd3Many K ((a j).map fun x => (Aby3.a2bPre j x).1)
      ((a j).map fun x => (Aby3.a2bPre j x).2.1) ((a j).map fun x => (Aby3.a2bPre j x).2.2) >>= fun bits =>
      pure (bits.map AShare.getMsb)) st _
  refine PK.bind (PK.mono hadd ?_)
  rintro w' r st' hw ⟨hr, -, hI'⟩
  refine PK.pure ⟨?_, hI'⟩
  have hl : (List.zipWith (· + ·) (List.zipWith (· + ·) x1 x2) x3).length = xs.length := by simp [l1, l2, l3]
  refine Rels.world (fun k => by rw [List.length_map, hr.length, hl, List.length_map]) fun hw' => ?_
  rw [e (hw hw')]
  exact (Rels.in_world hr hw').map (f := fun x => bitOf x.msb) (g := fun _ => AShare.getMsb) fun _ _ h =>
    Aby3.getMsb_rel (by omega) h

attribute [local irreducible] hammingDistance commonBits

/-- One chunk of a query. -/
theorem chunk_pk (hK : 15 ≤ K) (hK2 : K ≤ 128) (hV : 40 ≤ verifWidth K - K) {sg : Bool} {w : Prop} {st : Party → LogSt G K}
    (hI : InvL H i w st) {q : IrisCode} {a : Party → List (AShare K)} (ha : Rels SharesOf (encode _ q.code) a)
    {cs : List IrisCode} (hne : cs ≠ []) (hm : ∀ c ∈ cs, 8960 ≤ commonBits q c) {b : Party → List (List (AShare K))}
    (hb : Rels (Rels SharesOf) (cs.map fun c => encode _ c.code) b) :
    PK i w (fun k => Iris.compareIrisMany (logOps G H K sg k) (a k) (b k) q.mask (cs.map fun c => c.mask)) st
      (fun w' o s => Rels (RelL w' 1) (cs.map fun c => bitOf (MpcLawful.closeBit q c)) o ∧ InvL H i w' s) := by
  unfold Iris.compareIrisMany
  refine PK.ite_neg (fun k => by rw [hb.length]; simp [hne]) ?_
  refine PK.bind (PK.lift (fun k => MpcLawful.combineAll_ok q cs hm) ?_)
  refine PK.bind ?_
  unfold Iris.hammingMany
  refine PK.bind (PK.mono (maskedDot_pk hV hI ha (MpcLawful.encode_length _) hb (masks := cs.map fun c => q.mask.and c.mask) ?_ (by simp)) ?_)
  · intro ys hys
    obtain ⟨c, -, rfl⟩ := List.mem_map.1 hys
    exact MpcLawful.encode_length _
  rintro w1 d s1 hw1 ⟨hd, hI1⟩
  rw [MpcLawful.zipWith_maps] at hd
  obtain ⟨r, hr, e⟩ := (localLawful G H K sg w1).hammingLoop_rel hK (Rels.to_world ha) cs
    (hb.imp fun _ _ h => Rels.to_world h) hd
  refine PK.lift e ?_
  unfold Iris.compareThresholdMany
  refine PK.ite_neg (fun k => by rw [hr.length]; simp) ?_
  have hlen : (cs.map fun c => q.mask.and c.mask).map IrisCodeArray.countOnes
      = (cs.map fun c => (BitVec.ofNat K (hammingDistance q c), commonBits q c)).map fun p => p.2 := by
    rw [List.map_map, List.map_map]
    apply List.map_congr_left
    intro c _
    exact countOnes_masks q c
  beta_reduce
  rw [hlen]
  refine PK.bind (PWS.get ⟨w1, id, ?_⟩)
  obtain ⟨r', hr', e'⟩ := diffLoop_world (H := H) (sg := sg) (st := s1) hK (cs.map fun c => (BitVec.ofNat K (hammingDistance q c), commonBits q c)) (by
      intro p hp
      obtain ⟨c, -, rfl⟩ := List.mem_map.1 hp
      exact commonBits_le q c) (a := r) (by rw [List.map_map]; exact hr)
  refine PK.bind (PK.lift e' ?_)
  refine PK.mono (getMsbMany_pk (by omega) hK2 hI1 hr') ?_
  rintro w2 o s2 hw2 ⟨ho, hI2⟩
  refine ⟨?_, hI2⟩
  rw [List.map_map, List.map_map] at ho
  convert ho using 2
  funext c
  have := MpcLawful.diff_msb hK (le_refl K) q c
  rw [BitVec.setWidth_eq] at this
  simp only [Function.comp_def, this]

theorem loop_pk (hK : 15 ≤ K) (hK2 : K ≤ 128) (hV : 40 ≤ verifWidth K - K) {sg : Bool} {q : IrisCode}
    {a : Party → List (AShare K)} (ha : Rels SharesOf (encode _ q.code) a) (css : List (List IrisCode))
    (hne : ∀ cs ∈ css, cs ≠ []) (hm : ∀ cs ∈ css, ∀ c ∈ cs, 8960 ≤ commonBits q c)
    {b : Party → List (List (List (AShare K)))} {w : Prop} {st : Party → LogSt G K} (hI : InvL H i w st)
    (hb : Rels (Rels (Rels SharesOf)) (css.map fun cs => cs.map fun c => encode _ c.code) b) :
    PK i w (fun k => Iris.chunkLoop (logOps G H K sg k) (a k) q.mask ((b k).zip (css.map fun cs => cs.map fun c => c.mask))) st
      (fun w' o s => Rels (RelL w' 1) (css.flatten.map fun c => bitOf (MpcLawful.closeBit q c)) o ∧ InvL H i w' s) := by
  induction css generalizing b w st with
  | nil =>
    rw [hb.eq_nil]
    exact PK.pure (a := fun _ => []) ⟨Rels.nil, hI⟩
  | cons cs css ih =>
    obtain ⟨b1, b2, k1, k2, rfl⟩ := Rels.uncons hb
    simp only [List.map_cons, List.zip_cons_cons, Iris.chunkLoop]
    refine PK.bind (PK.mono (chunk_pk hK hK2 hV hI ha (hne cs (by simp)) (hm cs (by simp)) k1) ?_)
    rintro w1 o s hw1 ⟨ho, hI1⟩
    refine PK.bind (PK.mono (ih (fun cs h => hne cs (by simp [h])) (fun cs h => hm cs (by simp [h])) hI1 k2) ?_)
    rintro w2 o' s' hw2 ⟨ho', hI2⟩
    refine PK.pure (a := fun k => o k ++ o' k) ⟨?_, hI2⟩
    rw [List.flatten_cons, List.map_append]
    exact Rels.append (ho.imp fun _ _ h hw => h (hw2 hw)) ho'

/-- The whole query: a call is forged, or the honest parties output the answer. -/
theorem irisInDb_pws (hK : 15 ≤ K) (hK2 : K ≤ 128) (hV : 40 ≤ verifWidth K - K) {sg : Bool} {q : IrisCode} {db : List IrisCode}
    (hne : db ≠ []) (hm : ∀ c ∈ db, 8960 ≤ commonBits c q) {a : Party → List (AShare K)} {b : Party → List (List (AShare K))}
    (ha : Rels SharesOf (encode _ q.code) a) (hb : Rels (Rels SharesOf) (db.map fun c => encode _ c.code) b)
    {cs : Nat} (hcs : cs ≠ 0) (hok : cs * 128 < 2 ^ 64) (hov : (db.length + cs) * (2 * K) < 2 ^ 64)
    {st : Party → LogSt G K} (hI : InvL H i True st) :
    PWS i (fun k => Iris.irisInDb (logOps G H K sg k) (a k) (b k) q.mask (db.map fun c => c.mask) cs) st (fun _ => False)
      (fun _ o s => SomeForged H i (s i).2 (s i.next).2 ∨ o i = inDb q db ∧ o i.next = inDb q db) := by
  unfold Iris.irisInDb
  refine PWS.ite_neg (fun k => by rw [hb.length]; simp [hne]) ?_
  refine PWS.bind (PWS.lift_ok (a := fun _ => MpcLawful.queryAnds K db.length cs)
    (fun i => by rw [hb.length, List.length_map]; exact MpcLawful.numAndTriples_ok hK hcs hov) ?_)
  refine PWS.bind (PWS.pure (a := fun _ => ()) ?_)
  obtain ⟨ch, hch, ech⟩ := Rels.chunksE hb hcs
  refine PWS.bind (PWS.lift_ok ech ?_)
  refine PWS.bind (PWS.lift_ok (a := fun _ => chunksOf cs (db.map fun c => c.mask))
    (fun i => by unfold chunksE; rw [if_neg hcs]) ?_)
  rw [MpcLawful.chunksOf_map'] at hch
  have hm' : ∀ ch ∈ chunksOf cs db, ∀ c ∈ ch, 8960 ≤ commonBits q c := fun ch hc c hcc => by
    rw [MpcLawful.commonBits_comm]; exact hm c (MpcLawful.mem_of_mem_chunksOf hc hcc)
  rw [show chunksOf cs (db.map fun c => c.mask) = (chunksOf cs db).map fun cs => cs.map fun c => c.mask from
    MpcLawful.chunksOf_map' _ _ _]
  refine PWS.bind (PWS.conseq (loop_pk hK hK2 hV ha (chunksOf cs db) (MpcLawful.mem_chunksOf_ne cs db) hm' hI (b := ch) hch)
    (fun _ h => h.elim) ?_)
  rintro m bs s ⟨w1, -, hbs, hI1⟩
  rw [chunksOf_flatten hcs] at hbs
  have hor := (lawfulL (G := G) (K := K) (H := H) (i := i)).orTree (u := 0) (by omega) (by omega) (cs := cs * 128) (by omega) hI1 hbs
    (by simpa using hne)
  show PWS i (fun k => (Proto.lift (usizeE (cs * 128)) >>= fun cs => (logBinOps G K H 1 k).orTree cs (bs k)) >>= fun c =>
    Proto.unwrap (logOps G H K sg k).verify >>= fun _ => logged (.opening c) (openBit H k c)) s _ _
  simp only [bind_assoc]
  refine PWS.bind (PWS.lift_ok (a := fun _ => cs * 128) (fun _ => by unfold usizeE usizeLimit; rw [if_pos hok]) ?_)
  refine PWS.bind (PWS.conseq hor (fun _ h => h.elim) ?_)
  rintro m c s2 ⟨w2, -, hc, hI2⟩
  refine PWS.bind (PWS.unwrap (PWS.pure (a := fun _ => ()) ?_))
  refine PWS.mono (logged_pws (kind := fun k => .opening (c k)) (openBit_pws (H := H) (i := i))) ?_
  rintro m o s3 ⟨h, rc, rfl, hlog⟩
  rw [hlog, hlog, SomeForged.append_iff hI2.log]
  by_cases hf : SomeForged H i (s2 i).2 (s2 i.next).2
  · exact .inl (.inl hf)
  rcases h with h | ⟨hq, h⟩
  · exact .inl (.inr h)
  right
  have := h _ (hc (hI2.clean ⟨hf, hq⟩))
  rw [this.1, this.2, and_self, FamLawful.orAll_bits]
  have hbit : ∀ b : Bool, bitVal (bitOf b) = b := by decide
  rw [hbit, List.any_map, inDb]
  congr 1
  funext c
  simp only [Function.comp_def, hbit, MpcLawful.closeBit]
  rw [MpcLawful.hammingDistance_comm, MpcLawful.commonBits_comm]

end MalAby3

end Verif
