import Verif.Spec.Triples
import Verif.Proof.AShare
import Mathlib.Data.List.Perm.Basic

/-! # The buffer of AND triples -/

namespace Verif

variable {K : Nat}

theorem upgrade_getLsbD (x : BitVec K) (hK : K ≤ 128) (k : Nat) : (Triples.upgrade x).getLsbD k = x.getLsbD k := by
  unfold Triples.upgrade
  rw [BitVec.getLsbD_setWidth]
  by_cases h : k < 128
  · simp [h]
  · simp [h, BitVec.getLsbD_of_ge x k (by omega)]

theorem addAllWord_getLsbD (x : BitVec K) (w : BitVec 128) (hK : K < 128) (k : Nat) :
    (Triples.addAllWord x w).getLsbD k = (decide (k < 128) && (if k < K then x.getLsbD k else w.getLsbD (k - K))) := by
  unfold Triples.addAllWord
  rw [ringShl_lt w hK, BitVec.getLsbD_or, BitVec.getLsbD_shiftLeft, upgrade_getLsbD x (by omega)]
  by_cases h : k < K
  · simp [h, show k < 128 by omega]
  · simp [h, BitVec.getLsbD_of_ge x k (by omega)]

theorem mask_getLsbD (n k : Nat) (hn : n < 128) : (ringShl (1 : BitVec 128) n - 1).getLsbD k = decide (k < n) := by
  rw [ringShl_lt _ hn]
  have h1 : (1 : BitVec 128) <<< n = BitVec.ofNat 128 (2 ^ n) := by
    apply BitVec.eq_of_toNat_eq
    rw [BitVec.toNat_shiftLeft, BitVec.toNat_ofNat]
    simp [Nat.shiftLeft_eq]
  have hlt : 2 ^ n < 2 ^ 128 := Nat.pow_lt_pow_right (by omega) hn
  have h2 : ((1 : BitVec 128) <<< n - 1) = BitVec.ofNat 128 (2 ^ n - 1) := by
    apply BitVec.eq_of_toNat_eq
    rw [h1, BitVec.toNat_sub, BitVec.toNat_ofNat, BitVec.toNat_ofNat]
    have hp := Nat.two_pow_pos n
    rw [Nat.mod_eq_of_lt hlt, Nat.mod_eq_of_lt (by omega : 2 ^ n - 1 < 2 ^ 128),
      show (1 : BitVec 128).toNat = 1 from rfl, show 2 ^ 128 - 1 + 2 ^ n = 2 ^ n - 1 + 2 ^ 128 by omega,
      Nat.add_mod_right, Nat.mod_eq_of_lt (by omega : 2 ^ n - 1 < 2 ^ 128)]
  rw [h2, BitVec.getLsbD_ofNat]
  rw [Nat.testBit_two_pow_sub_one]
  by_cases h : k < n
  · simp [h]; omega
  · simp [h]

theorem splitLow_getLsbD (x : BitVec K) (w : BitVec 128) (n : Nat) (hK : K ≤ 128) (hn : n < 128) (k : Nat) :
    (Triples.splitLow n x w).getLsbD k = (decide (k < 128) && (if k < n then x.getLsbD k else w.getLsbD (k - n))) := by
  unfold Triples.splitLow
  rw [ringShl_lt w hn, BitVec.getLsbD_or, BitVec.getLsbD_and, BitVec.getLsbD_shiftLeft, upgrade_getLsbD x hK,
    mask_getLsbD n k hn]
  by_cases h : k < n
  · simp [h, show k < 128 by omega]
  · simp [h]

theorem splitHigh_getLsbD (x : BitVec K) (n : Nat) (hK : K ≤ 128) (hn : n < 128) (k : Nat) :
    (Triples.splitHigh n x).getLsbD k = x.getLsbD (n + k) := by
  unfold Triples.splitHigh ringShr
  rw [if_neg (by decide), Nat.mod_eq_of_lt hn, BitVec.getLsbD_ushiftRight, upgrade_getLsbD x hK]

/-- A function that picks each bit of its result from one of the arguments. -/
structure BitPick (F : BitVec K → BitVec 128 → BitVec 128) : Prop where
  pick : ∃ s : Nat → Bool × Bool × Nat, ∀ x w k, (F x w).getLsbD k =
    ((s k).1 && if (s k).2.1 then x.getLsbD (s k).2.2 else w.getLsbD (s k).2.2)

theorem BitPick.xor {F : BitVec K → BitVec 128 → BitVec 128} (h : BitPick F) (x x' : BitVec K) (w w' : BitVec 128) :
    F (x ^^^ x') (w ^^^ w') = F x w ^^^ F x' w' := by
  obtain ⟨s, hs⟩ := h.pick
  apply BitVec.eq_of_getLsbD_eq
  intro k _
  rw [BitVec.getLsbD_xor, hs, hs, hs]
  cases (s k).1 <;> cases (s k).2.1 <;> simp

theorem BitPick.and {F : BitVec K → BitVec 128 → BitVec 128} (h : BitPick F) (x x' : BitVec K) (w w' : BitVec 128) :
    F (x &&& x') (w &&& w') = F x w &&& F x' w' := by
  obtain ⟨s, hs⟩ := h.pick
  apply BitVec.eq_of_getLsbD_eq
  intro k _
  rw [BitVec.getLsbD_and, hs, hs, hs]
  cases (s k).1 <;> cases (s k).2.1 <;> simp

theorem BitPick.shares {F : BitVec K → BitVec 128 → BitVec 128} (h : BitPick F) {x : BitVec K} {w : BitVec 128}
    {a : Party → AShare K} {s : Party → AShare 128} (ha : BinSharesOf x a) (hs : BinSharesOf w s) :
    BinSharesOf (F x w) (fun i => ⟨F (a i).a (s i).a, F (a i).b (s i).b⟩) := by
  refine ⟨?_, fun i => by simp only [ha.2 i, hs.2 i]⟩
  rw [← ha.1, ← hs.1, h.xor, h.xor]

theorem addAllWord_pick (hK : K < 128) : BitPick (Triples.addAllWord (K := K)) :=
  ⟨fun k => (decide (k < 128), decide (k < K), if k < K then k else k - K), fun x w k => by
    rw [addAllWord_getLsbD x w hK]; by_cases h : k < K <;> simp [h]⟩

theorem splitLow_pick (hK : K ≤ 128) {n : Nat} (hn : n < 128) : BitPick (Triples.splitLow (K := K) n) :=
  ⟨fun k => (decide (k < 128), decide (k < n), if k < n then k else k - n), fun x w k => by
    rw [splitLow_getLsbD x w n hK hn]; by_cases h : k < n <;> simp [h]⟩

theorem splitHigh_pick (hK : K ≤ 128) {n : Nat} (hn : n < 128) :
    BitPick (fun (x : BitVec K) (_ : BitVec 128) => Triples.splitHigh n x) :=
  ⟨fun k => (true, true, n + k), fun x w k => by rw [splitHigh_getLsbD x n hK hn]; simp⟩

theorem upgrade_pick (hK : K ≤ 128) : BitPick (fun (x : BitVec K) (_ : BitVec 128) => Triples.upgrade x) :=
  ⟨fun k => (true, true, k), fun x w k => by rw [upgrade_getLsbD x hK]; simp⟩

theorem BitPick.shares1 {F : BitVec K → BitVec 128} (h : BitPick (fun x _ => F x)) {x : BitVec K}
    {a : Party → AShare K} (ha : BinSharesOf x a) : BinSharesOf (F x) (fun i => ⟨F (a i).a, F (a i).b⟩) :=
  h.shares ha BinSharesOf.zero

theorem BitPick.and1 {F : BitVec K → BitVec 128} (h : BitPick (fun x _ => F x)) (x y : BitVec K) :
    F (x &&& y) = F x &&& F y := h.and x y 0 0

theorem Rels.unsnoc {X B : Type} {R : X → (Party → B) → Prop} {xs : List X} {x : X} {ls : Party → List B}
    (h : Rels R (xs ++ [x]) ls) : ∃ (ms : Party → List B) (b : Party → B), Rels R xs ms ∧ R x b ∧
      ls = fun i => ms i ++ [b i] := by
  induction xs generalizing ls with
  | nil =>
    obtain ⟨b, ls', hb, h', rfl⟩ := Rels.uncons h
    rw [h'.eq_nil]
    exact ⟨fun _ => [], b, Rels.nil, hb, rfl⟩
  | cons y ys ih =>
    obtain ⟨b, ls', hb, h', rfl⟩ := Rels.uncons h
    obtain ⟨ms, c, hms, hc, rfl⟩ := ih h'
    exact ⟨fun i => b i :: ms i, c, Rels.cons hb hms, hc, rfl⟩

theorem modifyLast_ok (f : AShare 128 → AShare 128) (l : List (AShare 128)) (x : AShare 128) :
    Triples.modifyLast f (l ++ [x]) = .ok (l ++ [f x]) := by
  simp [Triples.modifyLast]

/-! ## The invariant of honest parties -/

/-- The buffers hold valid triples, `u` bits in all. -/
def BufOk (u : Nat) (t : Party → Triples) : Prop :=
  ∃ words bits, TriplesOf words (fun i => (t i).a) (fun i => (t i).b) (fun i => (t i).c) ∧
    (∀ i, (t i).bitsInLast = bits) ∧ 1 ≤ bits ∧ bits ≤ 128 ∧ 128 * words + bits = u + 128

theorem BufOk.empty : BufOk 0 (fun _ => Triples.empty) :=
  ⟨0, 128, ⟨[], [], rfl, rfl, Rels.nil, Rels.nil, Rels.nil⟩, fun _ => rfl, by omega, by omega, by omega⟩

theorem eq_snoc_of_length {α : Type} {l : List α} {n : Nat} (h : l.length = n + 1) :
    ∃ l' x, l = l' ++ [x] ∧ l'.length = n := by
  rcases List.eq_nil_or_concat l with rfl | ⟨l', x, rfl⟩
  · simp at h
  · refine ⟨l', x, by simp, by simpa using h⟩

theorem zipWith_snoc {α β γ : Type} (f : α → β → γ) {l : List α} {m : List β} (h : l.length = m.length) (x : α) (y : β) :
    List.zipWith f (l ++ [x]) (m ++ [y]) = List.zipWith f l m ++ [f x y] := by
  rw [List.zipWith_append h]; rfl

theorem BufOk.addT {u : Nat} {t : Party → Triples} (h : BufOk u t) (hK1 : 1 ≤ K) (hK : K ≤ 128) {x y : BitVec K}
    {a b c : Party → AShare K} (ha : BinSharesOf x a) (hb : BinSharesOf y b) (hc : BinSharesOf (x &&& y) c) :
    ∃ t' : Party → Triples, (∀ i, (t i).addT (a i) (b i) (c i) = .ok (t' i)) ∧ BufOk (u + K) t' := by
  obtain ⟨words, bits, ⟨xs, ys, hlx, hly, hxs, hys, hzs⟩, hbits, hb1, hb2, hu⟩ := h
  by_cases h0 : 128 - bits = 0
  · refine ⟨_, fun i => by rw [Triples.addT, hbits i]; exact if_pos h0, words + 1, K,
      ⟨xs ++ [Triples.upgrade x], ys ++ [Triples.upgrade y], by simp [hlx], by simp [hly], ?_, ?_, ?_⟩, fun _ => rfl, hK1, hK, by omega⟩
    · exact hxs.append (Rels.singleton ((upgrade_pick hK).shares1 ha))
    · exact hys.append (Rels.singleton ((upgrade_pick hK).shares1 hb))
    · rw [zipWith_snoc _ (by rw [hlx, hly]), ← (upgrade_pick hK).and1]
      exact hzs.append (Rels.singleton ((upgrade_pick hK).shares1 hc))
  · have hw : ∃ w, words = w + 1 := by
      cases words with
      | zero => omega
      | succ w => exact ⟨w, rfl⟩
    obtain ⟨w, rfl⟩ := hw
    obtain ⟨xs, xl, rfl, hlx'⟩ := eq_snoc_of_length hlx
    obtain ⟨ys, yl, rfl, hly'⟩ := eq_snoc_of_length hly
    rw [zipWith_snoc _ (by rw [hlx', hly'])] at hzs
    obtain ⟨ams, al, hams, hal, ea⟩ := hxs.unsnoc
    obtain ⟨bms, bl, hbms, hbl, eb⟩ := hys.unsnoc
    obtain ⟨cms, cl, hcms, hcl, ec⟩ := hzs.unsnoc
    have ea := congrFun ea
    have eb := congrFun eb
    have ec := congrFun ec
    by_cases h1 : K ≤ 128 - bits
    · have hK' : K < 128 := by omega
      refine ⟨fun i => ⟨ams i ++ [⟨Triples.addAllWord (a i).a (al i).a, Triples.addAllWord (a i).b (al i).b⟩],
        bms i ++ [⟨Triples.addAllWord (b i).a (bl i).a, Triples.addAllWord (b i).b (bl i).b⟩],
        cms i ++ [⟨Triples.addAllWord (c i).a (cl i).a, Triples.addAllWord (c i).b (cl i).b⟩], bits + K⟩, fun i => by
        rw [Triples.addT, hbits i]
        simp only [if_neg h0, ge_iff_le, if_pos h1, ea, eb, ec, Triples.addAllT, modifyLast_ok]
        rfl, w + 1, bits + K, ⟨xs ++ [Triples.addAllWord x xl], ys ++ [Triples.addAllWord y yl], by simp [hlx'],
          by simp [hly'], ?_, ?_, ?_⟩, fun _ => rfl, by omega, by omega, by omega⟩
      · exact hams.append (Rels.singleton ((addAllWord_pick hK').shares ha hal))
      · exact hbms.append (Rels.singleton ((addAllWord_pick hK').shares hb hbl))
      · rw [zipWith_snoc _ (by rw [hlx', hly']), ← (addAllWord_pick hK').and]
        exact hcms.append (Rels.singleton ((addAllWord_pick hK').shares hc hcl))
    · have hn : 128 - bits < 128 := by omega
      refine ⟨fun i => ⟨(ams i ++ [⟨Triples.splitLow (128 - bits) (a i).a (al i).a, Triples.splitLow (128 - bits) (a i).b (al i).b⟩]) ++
          [⟨Triples.splitHigh (128 - bits) (a i).a, Triples.splitHigh (128 - bits) (a i).b⟩],
        (bms i ++ [⟨Triples.splitLow (128 - bits) (b i).a (bl i).a, Triples.splitLow (128 - bits) (b i).b (bl i).b⟩]) ++
          [⟨Triples.splitHigh (128 - bits) (b i).a, Triples.splitHigh (128 - bits) (b i).b⟩],
        (cms i ++ [⟨Triples.splitLow (128 - bits) (c i).a (cl i).a, Triples.splitLow (128 - bits) (c i).b (cl i).b⟩]) ++
          [⟨Triples.splitHigh (128 - bits) (c i).a, Triples.splitHigh (128 - bits) (c i).b⟩],
        K - (128 - bits)⟩, fun i => by
        rw [Triples.addT, hbits i]
        simp only [if_neg h0, ge_iff_le, if_neg h1, ea, eb, ec, Triples.splitAndAddT, modifyLast_ok]
        rfl, w + 1 + 1, K - (128 - bits),
        ⟨(xs ++ [Triples.splitLow (128 - bits) x xl]) ++ [Triples.splitHigh (128 - bits) x],
          (ys ++ [Triples.splitLow (128 - bits) y yl]) ++ [Triples.splitHigh (128 - bits) y], by simp [hlx'],
          by simp [hly'], ?_, ?_, ?_⟩, fun _ => rfl, by omega, by omega, by omega⟩
      · exact (hams.append (Rels.singleton ((splitLow_pick hK hn).shares ha hal))).append
          (Rels.singleton ((splitHigh_pick hK hn).shares1 ha))
      · exact (hbms.append (Rels.singleton ((splitLow_pick hK hn).shares hb hbl))).append
          (Rels.singleton ((splitHigh_pick hK hn).shares1 hb))
      · rw [zipWith_snoc _ (by simp [hlx', hly']), zipWith_snoc _ (by rw [hlx', hly']), ← (splitLow_pick hK hn).and,
          ← (splitHigh_pick hK hn).and1]
        exact (hcms.append (Rels.singleton ((splitLow_pick hK hn).shares hc hcl))).append
          (Rels.singleton ((splitHigh_pick hK hn).shares1 hc))

theorem BufOk.addMany {u : Nat} {t : Party → Triples} (h : BufOk u t) (hK1 : 1 ≤ K) (hK : K ≤ 128)
    {xs ys : List (BitVec K)} {a b c : Party → List (AShare K)} (ha : Rels BinSharesOf xs a)
    (hb : Rels BinSharesOf ys b) (hc : Rels BinSharesOf (List.zipWith (· &&& ·) xs ys) c) (hl : xs.length = ys.length) :
    ∃ t' : Party → Triples, (∀ i, (t i).addMany (a i) (b i) (c i) = .ok (t' i)) ∧ BufOk (u + K * xs.length) t' := by
  unfold Triples.addMany
  induction xs generalizing ys a b c t u with
  | nil =>
    rw [ha.eq_nil]
    exact ⟨t, fun i => rfl, by simpa using h⟩
  | cons x xs ih =>
    cases ys with
    | nil => simp at hl
    | cons y ys =>
      obtain ⟨a1, a', ha1, ha', rfl⟩ := ha.uncons
      obtain ⟨b1, b', hb1, hb', rfl⟩ := hb.uncons
      obtain ⟨c1, c', hc1, hc', rfl⟩ := Rels.uncons hc
      obtain ⟨t1, ht1, h1⟩ := h.addT hK1 hK ha1 hb1 hc1
      obtain ⟨t2, ht2, h2⟩ := ih h1 ha' hb' hc' (by simpa using hl)
      refine ⟨t2, fun i => ?_, ?_⟩
      · show (do let t ← (t i).addT (a1 i) (b1 i) (c1 i); Triples.addLoop t (((a' i).zip (b' i)).zip (c' i))) = _
        rw [ht1 i]; exact ht2 i
      · convert h2 using 1
        rw [List.length_cons, Nat.mul_add]; omega

/-! ## The layout of the buffer -/

theorem readBits_snoc (n : Nat) (l : List (BitVec 128)) (w : BitVec 128) :
    readBits n (l ++ [w]) = l.flatMap (lowBits 128) ++ lowBits n w := by
  induction l with
  | nil => simp [readBits]
  | cons v l ih =>
    cases l with
    | nil => simp [readBits]
    | cons v' l => simp only [List.cons_append, readBits, List.flatMap_cons] at ih ⊢; rw [ih]; simp

theorem readBits_full (l : List (BitVec 128)) : readBits 128 l = l.flatMap (lowBits 128) := by
  rcases List.eq_nil_or_concat l with rfl | ⟨l', x, rfl⟩
  · rfl
  · rw [List.concat_eq_append, readBits_snoc]; simp

theorem range_rev_add (m n : Nat) :
    (List.range (m + n)).reverse = ((List.range n).map (m + ·)).reverse ++ (List.range m).reverse := by
  rw [List.range_add, List.reverse_append]

theorem lowBits_upgrade (x : BitVec K) (hK : K ≤ 128) (n : Nat) : lowBits n (Triples.upgrade x) = lowBits n x := by
  unfold lowBits
  exact List.map_congr_left fun k _ => upgrade_getLsbD x hK k

theorem lowBits_shift (x : BitVec K) (w v : BitVec 128) (m n : Nat)
    (hv : ∀ k, k < m + n → v.getLsbD k = if k < m then x.getLsbD k else w.getLsbD (k - m)) :
    lowBits (m + n) v = lowBits n w ++ lowBits m x := by
  unfold lowBits
  rw [range_rev_add, List.map_append, ← List.map_reverse, List.map_map]
  congr 1
  · refine List.map_congr_left fun k hk => ?_
    rw [List.mem_reverse, List.mem_range] at hk
    simp only [Function.comp_def]
    rw [hv _ (by omega), if_neg (by omega), Nat.add_sub_cancel_left]
  · refine List.map_congr_left fun k hk => ?_
    rw [List.mem_reverse, List.mem_range] at hk
    rw [hv _ (by omega), if_pos hk]

/-- Where the bits of one gate go, if `bits` bits of the last word are in use. -/
def gateOrder (bits K : Nat) : List Nat :=
  if 128 - bits = 0 ∨ K ≤ 128 - bits then (List.range K).reverse
  else (List.range (128 - bits)).reverse ++ ((List.range (K - (128 - bits))).map (128 - bits + ·)).reverse

/-- The number of used bits in the last word afterwards. -/
def nextBits (bits K : Nat) : Nat :=
  if 128 - bits = 0 then K else if K ≤ 128 - bits then bits + K else K - (128 - bits)

theorem gateOrder_perm (bits K : Nat) : (gateOrder bits K).Perm (List.range K) := by
  unfold gateOrder
  split
  · exact List.reverse_perm _
  · rename_i h
    push Not at h
    have : K = 128 - bits + (K - (128 - bits)) := by omega
    conv_rhs => rw [this, List.range_add]
    exact (List.reverse_perm _).append (List.reverse_perm _)

/-- The layout for a sequence of widths. -/
def layout : Nat → List Nat → List (Nat × Nat)
  | _, [] => []
  | bits, K :: ws => (gateOrder bits K).map (fun b => (0, b)) ++
      (layout (nextBits bits K) ws).map (fun p => (p.1 + 1, p.2))

theorem gatePositions_cons (K : Nat) (ws : List Nat) :
    gatePositions (K :: ws) = (List.range K).map (fun b => (0, b)) ++ (gatePositions ws).map (fun p => (p.1 + 1, p.2)) := by
  unfold gatePositions
  rw [List.zipIdx_cons, List.flatMap_cons]
  congr 1
  rw [List.map_flatMap, List.zipIdx_succ, List.flatMap_map]
  simp [Function.comp_def]

theorem layout_perm (bits : Nat) (ws : List Nat) : (layout bits ws).Perm (gatePositions ws) := by
  induction ws generalizing bits with
  | nil => exact .nil
  | cons K ws ih =>
    rw [gatePositions_cons, layout]
    exact ((gateOrder_perm bits K).map _).append ((ih _).map _)

/-- A buffer as the code builds it. -/
structure Triples.WF (t : Triples) : Prop where
  lb : t.b.length = t.a.length
  lc : t.c.length = t.a.length
  pos : 1 ≤ t.bitsInLast
  le : t.bitsInLast ≤ 128
  nil : t.a = [] → t.bitsInLast = 128

/-- The new words of one component. -/
def addComp (bits : Nat) (x : BitVec K) (l : List (BitVec 128)) : List (BitVec 128) :=
  if 128 - bits = 0 then l ++ [Triples.upgrade x]
  else if K ≤ 128 - bits then l.dropLast ++ [Triples.addAllWord x (l.getLastD 0)]
  else l.dropLast ++ [Triples.splitLow (128 - bits) x (l.getLastD 0)] ++ [Triples.splitHigh (128 - bits) x]

theorem comp_length {t : Triples} (h : t.WF) (cc : TripleComp) : (t.comp cc).length = t.a.length := by
  obtain ⟨p, s⟩ := cc
  match p with
  | 0 => simp [Triples.comp]
  | 1 => simp [Triples.comp, h.lb]
  | 2 => simp [Triples.comp, h.lc]

theorem map_side_addAll (x : AShare K) (l : List (AShare 128)) (w : AShare 128) (s : Bool) :
    (l ++ [(⟨Triples.addAllWord x.a w.a, Triples.addAllWord x.b w.b⟩ : AShare 128)]).map (·.side s)
      = ((l ++ [w]).map (·.side s)).dropLast ++ [Triples.addAllWord (x.side s) (((l ++ [w]).map (·.side s)).getLastD 0)] := by
  cases s <;> simp [AShare.side]

theorem map_side_split (n : Nat) (x : AShare K) (l : List (AShare 128)) (w : AShare 128) (s : Bool) :
    (l ++ [(⟨Triples.splitLow n x.a w.a, Triples.splitLow n x.b w.b⟩ : AShare 128)] ++
        [(⟨Triples.splitHigh n x.a, Triples.splitHigh n x.b⟩ : AShare 128)]).map (·.side s)
      = ((l ++ [w]).map (fun v : AShare 128 => v.side s)).dropLast ++ [Triples.splitLow n (x.side s) (((l ++ [w]).map (·.side s)).getLastD 0)] ++
        [Triples.splitHigh n (x.side s)] := by
  cases s <;> simp [AShare.side]

theorem map_side_push (x : AShare K) (l : List (AShare 128)) (s : Bool) :
    (Triples.pushT x l).map (·.side s) = l.map (·.side s) ++ [Triples.upgrade (x.side s)] := by
  cases s <;> simp [Triples.pushT, AShare.side]

theorem addT_ok {t : Triples} (h : t.WF) (g : Gate) (hK1 : 1 ≤ g.K) (hK : g.K ≤ 128) :
    ∃ t', t.addT g.a g.b g.c = .ok t' ∧ t'.WF ∧ t'.bitsInLast = nextBits t.bitsInLast g.K ∧ t'.a ≠ [] ∧
      ∀ cc, t'.comp cc = addComp t.bitsInLast (g.comp cc) (t.comp cc) := by
  by_cases h0 : 128 - t.bitsInLast = 0
  · refine ⟨_, by rw [Triples.addT]; exact if_pos h0, ⟨?_, ?_, hK1, hK, ?_⟩, ?_, ?_, ?_⟩
    · simp [Triples.pushT, h.lb]
    · simp [Triples.pushT, h.lc]
    · simp [Triples.pushT]
    · simp [nextBits, h0]
    · simp [Triples.pushT]
    · rintro ⟨p, s⟩
      match p with
      | 0 => simp only [Triples.comp, Gate.comp, addComp, if_pos h0, map_side_push]
      | 1 => simp only [Triples.comp, Gate.comp, addComp, if_pos h0, map_side_push]
      | 2 => simp only [Triples.comp, Gate.comp, addComp, if_pos h0, map_side_push]
  · have hb : t.bitsInLast ≠ 128 := by omega
    have hne : t.a ≠ [] := fun hn => hb (h.nil hn)
    obtain ⟨n, hn⟩ : ∃ n, t.a.length = n + 1 := ⟨t.a.length - 1, by have := List.length_pos_iff.2 hne; omega⟩
    obtain ⟨al, a, ea, hal⟩ := eq_snoc_of_length hn
    obtain ⟨bl, b, eb, hbl⟩ := eq_snoc_of_length (h.lb.trans hn)
    obtain ⟨cl, c, ec, hcl⟩ := eq_snoc_of_length (h.lc.trans hn)
    have hpos := h.pos
    by_cases h1 : g.K ≤ 128 - t.bitsInLast
    · refine ⟨⟨al ++ [⟨Triples.addAllWord g.a.a a.a, Triples.addAllWord g.a.b a.b⟩],
        bl ++ [⟨Triples.addAllWord g.b.a b.a, Triples.addAllWord g.b.b b.b⟩],
        cl ++ [⟨Triples.addAllWord g.c.a c.a, Triples.addAllWord g.c.b c.b⟩], t.bitsInLast + g.K⟩, ?_,
        ⟨by simp [hbl, hal], by simp [hcl, hal], by simp only; omega, by simp only; omega, by simp⟩, by simp [nextBits, h0, h1], by simp, ?_⟩
      · rw [Triples.addT]
        simp only [if_neg h0, ge_iff_le, if_pos h1, ea, eb, ec, Triples.addAllT, modifyLast_ok]
        rfl
      · rintro ⟨p, s⟩
        match p with
        | 0 => simp only [Triples.comp, Gate.comp, addComp, if_neg h0, if_pos h1, ea, map_side_addAll]
        | 1 => simp only [Triples.comp, Gate.comp, addComp, if_neg h0, if_pos h1, eb, map_side_addAll]
        | 2 => simp only [Triples.comp, Gate.comp, addComp, if_neg h0, if_pos h1, ec, map_side_addAll]
    · refine ⟨⟨al ++ [⟨Triples.splitLow (128 - t.bitsInLast) g.a.a a.a, Triples.splitLow (128 - t.bitsInLast) g.a.b a.b⟩] ++
          [⟨Triples.splitHigh (128 - t.bitsInLast) g.a.a, Triples.splitHigh (128 - t.bitsInLast) g.a.b⟩],
        bl ++ [⟨Triples.splitLow (128 - t.bitsInLast) g.b.a b.a, Triples.splitLow (128 - t.bitsInLast) g.b.b b.b⟩] ++
          [⟨Triples.splitHigh (128 - t.bitsInLast) g.b.a, Triples.splitHigh (128 - t.bitsInLast) g.b.b⟩],
        cl ++ [⟨Triples.splitLow (128 - t.bitsInLast) g.c.a c.a, Triples.splitLow (128 - t.bitsInLast) g.c.b c.b⟩] ++
          [⟨Triples.splitHigh (128 - t.bitsInLast) g.c.a, Triples.splitHigh (128 - t.bitsInLast) g.c.b⟩],
        g.K - (128 - t.bitsInLast)⟩, ?_,
        ⟨by simp [hbl, hal], by simp [hcl, hal], by simp only; omega, by simp only; omega, by simp⟩, by simp [nextBits, h0, h1], by simp, ?_⟩
      · rw [Triples.addT]
        simp only [if_neg h0, ge_iff_le, if_neg h1, ea, eb, ec, Triples.splitAndAddT, modifyLast_ok]
        rfl
      · rintro ⟨p, s⟩
        match p with
        | 0 => simp only [Triples.comp, Gate.comp, addComp, if_neg h0, if_neg h1, ea, map_side_split]
        | 1 => simp only [Triples.comp, Gate.comp, addComp, if_neg h0, if_neg h1, eb, map_side_split]
        | 2 => simp only [Triples.comp, Gate.comp, addComp, if_neg h0, if_neg h1, ec, map_side_split]

/-- The unused bits of the last word are zero. -/
def Padded (bits : Nat) (l : List (BitVec 128)) : Prop := ∀ w ∈ l.getLast?, ∀ k, bits ≤ k → w.getLsbD k = false

theorem addComp_bits {bits : Nat} (x : BitVec K) {l : List (BitVec 128)} (hb : 1 ≤ bits) (hb' : bits ≤ 128)
    (hK1 : 1 ≤ K) (hK : K ≤ 128) (hl : l = [] → bits = 128) (hp : Padded bits l) :
    readBits (nextBits bits K) (addComp bits x l) = readBits bits l ++ (gateOrder bits K).map x.getLsbD ∧
      Padded (nextBits bits K) (addComp bits x l) ∧
      128 * (addComp bits x l).length + nextBits bits K = 128 * l.length + bits + K := by
  unfold addComp nextBits gateOrder
  by_cases h0 : 128 - bits = 0
  · obtain rfl : bits = 128 := by omega
    refine ⟨?_, ?_, ?_⟩
    · simp only [if_pos h0, h0, true_or, if_true]
      rw [readBits_snoc, readBits_full, lowBits_upgrade x hK]; rfl
    · simp only [h0, if_true]
      intro w hw k hk
      rw [List.getLast?_append, List.getLast?_singleton] at hw
      simp at hw
      subst hw
      rw [upgrade_getLsbD x hK, BitVec.getLsbD_of_ge x k hk]
    · simp [h0]; omega
  · have hne : l ≠ [] := fun h => h0 (by rw [hl h])
    rcases List.eq_nil_or_concat l with rfl | ⟨l', w, rfl⟩
    · exact absurd rfl hne
    rw [List.concat_eq_append] at hp ⊢
    have hp' : ∀ k, bits ≤ k → w.getLsbD k = false := hp w (by simp)
    simp only [List.dropLast_concat, List.getLastD_concat, h0, false_or, if_false]
    by_cases h1 : K ≤ 128 - bits
    · have hK' : K < 128 := by omega
      simp only [if_pos h1]
      refine ⟨?_, ?_, ?_⟩
      · rw [readBits_snoc, readBits_snoc, List.append_assoc]
        congr 1
        rw [Nat.add_comm bits K]
        exact lowBits_shift x w _ K bits fun k hk => by rw [addAllWord_getLsbD x w hK']; simp [show k < 128 by omega]
      · intro v hv k hk
        rw [List.getLast?_append, List.getLast?_singleton] at hv
        simp at hv
        subst hv
        rw [addAllWord_getLsbD x w hK', if_neg (by omega), hp' _ (by omega)]; simp
      · simp; omega
    · simp only [if_neg h1]
      refine ⟨?_, ?_, ?_⟩
      · rw [readBits_snoc, readBits_snoc, List.flatMap_append, List.append_assoc, List.append_assoc, List.map_append]
        congr 1
        rw [List.flatMap_singleton, ← List.append_assoc]
        congr 1
        · have := lowBits_shift x w (Triples.splitLow (128 - bits) x w) (128 - bits) bits fun k hk => by
            rw [splitLow_getLsbD x w _ hK (by omega)]; simp [show k < 128 by omega]
          rw [show 128 - bits + bits = 128 by omega] at this
          rw [this]; rfl
        · unfold lowBits
          rw [← List.map_reverse, List.map_map]
          exact List.map_congr_left fun k _ => splitHigh_getLsbD x _ hK (by omega) k
      · intro v hv k hk
        rw [List.getLast?_append, List.getLast?_singleton] at hv
        simp at hv
        subst hv
        rw [splitHigh_getLsbD x _ hK (by omega), BitVec.getLsbD_of_ge x _ (by omega)]
      · simp; omega

theorem gateBit_cons (g : Gate) (gs : List Gate) (cc : TripleComp) (p : Nat × Nat) :
    gateBit (g :: gs) cc (p.1 + 1, p.2) = gateBit gs cc p := by
  simp [gateBit]

theorem addGates_ok {t : Triples} (h : t.WF) (hp : ∀ cc, Padded t.bitsInLast (t.comp cc)) (gs : List Gate)
    (hK : ∀ g ∈ gs, 1 ≤ g.K ∧ g.K ≤ 128) :
    ∃ t', t.addGates gs = .ok t' ∧ t'.WF ∧ (∀ cc, Padded t'.bitsInLast (t'.comp cc)) ∧
      128 * t'.len + t'.bitsInLast = 128 * t.len + t.bitsInLast + (gs.map (·.K)).sum ∧
      ∀ cc, readBits t'.bitsInLast (t'.comp cc) =
        readBits t.bitsInLast (t.comp cc) ++ (layout t.bitsInLast (gs.map (·.K))).map (gateBit gs cc) := by
  induction gs generalizing t with
  | nil => exact ⟨t, rfl, h, hp, by simp, fun cc => by simp [layout]⟩
  | cons g gs ih =>
    obtain ⟨hg1, hg2⟩ := hK g (by simp)
    obtain ⟨t1, e1, w1, b1, hne, hc1⟩ := addT_ok h g hg1 hg2
    have step := fun cc => addComp_bits (bits := t.bitsInLast) (g.comp cc) (l := t.comp cc) h.pos h.le hg1 hg2
      (fun hn => h.nil (by rw [← List.length_eq_zero_iff, ← comp_length h cc, hn]; rfl)) (hp cc)
    obtain ⟨t2, e2, w2, p2, l2, r2⟩ := ih w1 (fun cc => by rw [b1, hc1]; exact (step cc).2.1)
      (fun g hg => hK g (by simp [hg]))
    refine ⟨t2, ?_, w2, p2, ?_, fun cc => ?_⟩
    · show (do let t ← t.addT g.a g.b g.c; Triples.addGates t gs) = _
      rw [e1]; exact e2
    · have := (step (0, false)).2.2
      rw [← hc1, ← b1, comp_length h, comp_length w1] at this
      rw [l2, List.map_cons, List.sum_cons]
      simp only [Triples.len] at *
      omega
    · rw [r2, b1, hc1, (step cc).1, List.map_cons, layout, List.map_append, List.map_map, List.map_map,
        List.append_assoc]
      congr 2

end Verif
