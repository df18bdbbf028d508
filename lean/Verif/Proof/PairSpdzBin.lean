import Verif.Proof.PairWorld

namespace Verif

variable {K : Nat}

/-- The buffers hold shares of triples with the errors `e`, `u` bits in all. -/
def BufSh (u bits : Nat) (e : List (BitVec 128)) (t : Party → Triples) : Prop :=
  ∃ words xs ys zs, xs.length = words ∧ ys.length = words ∧ zs.length = words ∧
    Rels BinSharesOf xs (fun i => (t i).a) ∧ Rels BinSharesOf ys (fun i => (t i).b) ∧
    Rels BinSharesOf zs (fun i => (t i).c) ∧ errorsOf xs ys zs = e ∧
    (∀ i, (t i).bitsInLast = bits) ∧ 1 ≤ bits ∧ bits ≤ 128 ∧ 128 * words + bits = u + 128

theorem errorsOf_snoc {xs ys zs : List (BitVec 128)} (h : xs.length = ys.length) (h' : xs.length = zs.length)
    (x y z : BitVec 128) : errorsOf (xs ++ [x]) (ys ++ [y]) (zs ++ [z]) = errorsOf xs ys zs ++ [z ^^^ (x &&& y)] := by
  unfold errorsOf
  rw [zipWith_snoc _ h, zipWith_snoc _ (by simp [h, ← h'])]

theorem BitPick.err {F : BitVec K → BitVec 128 → BitVec 128} (h : BitPick F) (x y z : BitVec K) (u v w : BitVec 128) :
    F z w ^^^ (F x u &&& F y v) = F (z ^^^ (x &&& y)) (w ^^^ (u &&& v)) := by
  rw [h.xor, h.and]

theorem BitPick.err1 {F : BitVec K → BitVec 128} (h : BitPick (fun x _ => F x)) (x y z : BitVec K) :
    F z ^^^ (F x &&& F y) = F (z ^^^ (x &&& y)) := h.err x y z 0 0 0

theorem BufSh.addT {u bits : Nat} {e : List (BitVec 128)} {t : Party → Triples} (h : BufSh u bits e t) (hK1 : 1 ≤ K)
    (hK : K ≤ 128) {x y z : BitVec K} {a b c : Party → AShare K} (ha : BinSharesOf x a) (hb : BinSharesOf y b)
    (hc : BinSharesOf z c) :
    ∃ t' : Party → Triples, (∀ i, (t i).addT (a i) (b i) (c i) = .ok (t' i)) ∧
      BufSh (u + K) (nextBits bits K) (addComp bits (z ^^^ (x &&& y)) e) t' := by
  obtain ⟨words, xs, ys, zs, hlx, hly, hlz, hxs, hys, hzs, he, hbits, hb1, hb2, hu⟩ := h
  by_cases h0 : 128 - bits = 0
  · refine ⟨_, fun i => by rw [Triples.addT, hbits i]; exact if_pos h0, words + 1,
      xs ++ [Triples.upgrade x], ys ++ [Triples.upgrade y], zs ++ [Triples.upgrade z], by simp [hlx], by simp [hly],
      by simp [hlz], ?_, ?_, ?_, ?_, fun _ => by simp [nextBits, h0], by simp [nextBits, h0, hK1], by simp [nextBits, h0, hK],
      by simp only [nextBits, h0, if_true]; omega⟩
    · exact hxs.append (Rels.singleton ((upgrade_pick hK).shares1 ha))
    · exact hys.append (Rels.singleton ((upgrade_pick hK).shares1 hb))
    · exact hzs.append (Rels.singleton ((upgrade_pick hK).shares1 hc))
    · rw [errorsOf_snoc (by omega) (by omega), he, (upgrade_pick hK).err1, addComp, if_pos h0]
  · have hw : ∃ w, words = w + 1 := by
      cases words with
      | zero => omega
      | succ w => exact ⟨w, rfl⟩
    obtain ⟨w, rfl⟩ := hw
    obtain ⟨xs, xl, rfl, hlx'⟩ := eq_snoc_of_length hlx
    obtain ⟨ys, yl, rfl, hly'⟩ := eq_snoc_of_length hly
    obtain ⟨zs, zl, rfl, hlz'⟩ := eq_snoc_of_length hlz
    obtain ⟨ams, al, hams, hal, ea⟩ := hxs.unsnoc
    obtain ⟨bms, bl, hbms, hbl, eb⟩ := hys.unsnoc
    obtain ⟨cms, cl, hcms, hcl, ec⟩ := hzs.unsnoc
    rw [errorsOf_snoc (by omega) (by omega)] at he
    have ea := congrFun ea
    have eb := congrFun eb
    have ec := congrFun ec
    by_cases h1 : K ≤ 128 - bits
    · have hK' : K < 128 := by omega
      refine ⟨fun i => ⟨ams i ++ [⟨Triples.addAllWord (a i).a (al i).a, Triples.addAllWord (a i).b (al i).b⟩],
        bms i ++ [⟨Triples.addAllWord (b i).a (bl i).a, Triples.addAllWord (b i).b (bl i).b⟩],
        cms i ++ [⟨Triples.addAllWord (c i).a (cl i).a, Triples.addAllWord (c i).b (cl i).b⟩], bits + K⟩, fun i => by
        rw [Triples.addT, hbits i]
        simp only [if_neg h0, ge_iff_le, if_pos h1, ea, eb, ec, Triples.addAllT, modifyLast_ok]
        rfl, w + 1, xs ++ [Triples.addAllWord x xl], ys ++ [Triples.addAllWord y yl], zs ++ [Triples.addAllWord z zl],
          by simp [hlx'], by simp [hly'], by simp [hlz'], ?_, ?_, ?_, ?_, fun _ => by simp [nextBits, h0, h1],
          by simp only [nextBits, h0, h1, if_true, if_false]; omega, by simp only [nextBits, h0, h1, if_true, if_false]; omega,
          by simp only [nextBits, h0, h1, if_true, if_false]; omega⟩
      · exact hams.append (Rels.singleton ((addAllWord_pick hK').shares ha hal))
      · exact hbms.append (Rels.singleton ((addAllWord_pick hK').shares hb hbl))
      · exact hcms.append (Rels.singleton ((addAllWord_pick hK').shares hc hcl))
      · rw [errorsOf_snoc (by omega) (by omega), (addAllWord_pick hK').err, ← he, addComp, if_neg h0, if_pos h1,
          List.dropLast_concat, List.getLastD_concat]
    · have hn : 128 - bits < 128 := by omega
      refine ⟨fun i => ⟨(ams i ++ [⟨Triples.splitLow (128 - bits) (a i).a (al i).a, Triples.splitLow (128 - bits) (a i).b (al i).b⟩]) ++
          [⟨Triples.splitHigh (128 - bits) (a i).a, Triples.splitHigh (128 - bits) (a i).b⟩],
        (bms i ++ [⟨Triples.splitLow (128 - bits) (b i).a (bl i).a, Triples.splitLow (128 - bits) (b i).b (bl i).b⟩]) ++
          [⟨Triples.splitHigh (128 - bits) (b i).a, Triples.splitHigh (128 - bits) (b i).b⟩],
        (cms i ++ [⟨Triples.splitLow (128 - bits) (c i).a (cl i).a, Triples.splitLow (128 - bits) (c i).b (cl i).b⟩]) ++
          [⟨Triples.splitHigh (128 - bits) (c i).a, Triples.splitHigh (128 - bits) (c i).b⟩],
        K - (128 - bits)⟩, fun i => by
        rw [Triples.addT, hbits i]
        simp only [if_neg h0, ge_iff_le, if_neg h1, ea, eb, ec, Triples.splitAndAddT, modifyLast_ok]
        rfl, w + 1 + 1,
        (xs ++ [Triples.splitLow (128 - bits) x xl]) ++ [Triples.splitHigh (128 - bits) x],
          (ys ++ [Triples.splitLow (128 - bits) y yl]) ++ [Triples.splitHigh (128 - bits) y],
          (zs ++ [Triples.splitLow (128 - bits) z zl]) ++ [Triples.splitHigh (128 - bits) z], by simp [hlx'],
          by simp [hly'], by simp [hlz'], ?_, ?_, ?_, ?_, fun _ => by simp [nextBits, h0, h1],
          by simp only [nextBits, h0, h1, if_false]; omega, by simp only [nextBits, h0, h1, if_false]; omega,
          by simp only [nextBits, h0, h1, if_false]; omega⟩
      · exact (hams.append (Rels.singleton ((splitLow_pick hK hn).shares ha hal))).append
          (Rels.singleton ((splitHigh_pick hK hn).shares1 ha))
      · exact (hbms.append (Rels.singleton ((splitLow_pick hK hn).shares hb hbl))).append
          (Rels.singleton ((splitHigh_pick hK hn).shares1 hb))
      · exact (hcms.append (Rels.singleton ((splitLow_pick hK hn).shares hc hcl))).append
          (Rels.singleton ((splitHigh_pick hK hn).shares1 hc))
      · rw [errorsOf_snoc (by simp; omega) (by simp; omega), errorsOf_snoc (by omega) (by omega), (splitLow_pick hK hn).err,
          (splitHigh_pick hK hn).err1, ← he, addComp, if_neg h0, if_neg h1, List.dropLast_concat, List.getLastD_concat]

/-- No error bit. -/
def NoErr (bits : Nat) (e : List (BitVec 128)) : Prop := ∀ b ∈ readBits bits e, b = false

theorem noErr_of_zero {bits : Nat} {e : List (BitVec 128)} (h : ∀ x ∈ e, x = 0) : NoErr bits e := by
  intro b hb
  induction e with
  | nil => simp [readBits] at hb
  | cons x e ih =>
    obtain rfl := h x (by simp)
    cases e with
    | nil =>
      simp only [readBits, lowBits, List.mem_map] at hb
      obtain ⟨k, -, rfl⟩ := hb
      simp
    | cons y e =>
      simp only [readBits, List.mem_append] at hb
      rcases hb with hb | hb
      · simp only [lowBits, List.mem_map] at hb
        obtain ⟨k, -, rfl⟩ := hb
        simp
      · exact ih (fun x hx => h x (by simp [hx])) hb

/-- One gate: the old gates have no errors and the new one neither. -/
theorem NoErr.addComp {bits : Nat} {x : BitVec K} {l : List (BitVec 128)} (hb : 1 ≤ bits) (hb' : bits ≤ 128)
    (hK1 : 1 ≤ K) (hK : K ≤ 128) (hl : l = [] → bits = 128) (hp : Padded bits l)
    (h : NoErr (nextBits bits K) (addComp bits x l)) : NoErr bits l ∧ x = 0 := by
  unfold NoErr at h ⊢
  rw [(addComp_bits x hb hb' hK1 hK hl hp).1] at h
  refine ⟨fun b hb => h b (List.mem_append_left _ hb), BitVec.eq_of_getLsbD_eq fun k hk => ?_⟩
  have : x.getLsbD k = false := h _ (List.mem_append_right _ (List.mem_map_of_mem ((gateOrder_perm bits K).mem_iff.2 (List.mem_range.2 hk))))
  simp [this]

/-- The buffers are consistent, and if they contain no error then `w`. -/
def BufW (w : Prop) (u : Nat) (t : Party → Triples) : Prop :=
  ∃ bits e, BufSh u bits e t ∧ Padded bits e ∧ (NoErr bits e → w)

theorem BufW.mono {w w' : Prop} {u : Nat} {t : Party → Triples} (h : BufW w u t) (hw : w → w') : BufW w' u t := by
  obtain ⟨bits, e, h1, h2, h3⟩ := h
  exact ⟨bits, e, h1, h2, fun h => hw (h3 h)⟩

theorem BufW.addT {w : Prop} {u : Nat} {t : Party → Triples} (h : BufW w u t) (hK1 : 1 ≤ K)
    (hK : K ≤ 128) {x y z : BitVec K} {a b c : Party → AShare K} (ha : BinSharesOf x a) (hb : BinSharesOf y b)
    (hc : BinSharesOf z c) :
    ∃ t' : Party → Triples, (∀ i, (t i).addT (a i) (b i) (c i) = .ok (t' i)) ∧
      BufW (w ∧ z = x &&& y) (u + K) t' := by
  obtain ⟨bits, e, h1, h2, h3⟩ := h
  obtain ⟨t', e1, h'⟩ := h1.addT hK1 hK ha hb hc
  obtain ⟨words, xs, ys, zs, hlx, hly, hlz, -, -, -, he, -, hb1, hb2, hu⟩ := h1
  have hl : e = [] → bits = 128 := by
    intro h
    have : words = 0 := by
      have := congrArg List.length he
      rw [h, errorsOf, List.length_zipWith, List.length_zipWith, List.length_nil] at this
      omega
    omega
  refine ⟨t', e1, _, _, h', (addComp_bits _ hb1 hb2 hK1 hK hl h2).2.1, fun hn => ?_⟩
  obtain ⟨n1, n2⟩ := hn.addComp hb1 hb2 hK1 hK hl h2
  refine ⟨h3 n1, ?_⟩
  have := congrArg (· ^^^ (x &&& y)) n2
  simpa [BitVec.xor_assoc] using this

theorem BufW.addMany {w : Prop} {u : Nat} {t : Party → Triples} (h : BufW w u t) (hK1 : 1 ≤ K) (hK : K ≤ 128)
    {xs ys zs : List (BitVec K)} {a b c : Party → List (AShare K)} (ha : Rels BinSharesOf xs a)
    (hb : Rels BinSharesOf ys b) (hc : Rels BinSharesOf zs c) (hl : xs.length = ys.length) (hl' : xs.length = zs.length) :
    ∃ t' : Party → Triples, (∀ i, (t i).addMany (a i) (b i) (c i) = .ok (t' i)) ∧
      BufW (w ∧ zs = List.zipWith (· &&& ·) xs ys) (u + K * xs.length) t' := by
  unfold Triples.addMany
  induction xs generalizing w ys zs a b c t u with
  | nil =>
    rw [ha.eq_nil]
    obtain rfl := List.eq_nil_of_length_eq_zero hl'.symm
    exact ⟨t, fun i => rfl, by simpa using h⟩
  | cons x xs ih =>
    match ys, zs, hl, hl' with
    | y :: ys, z :: zs, hl, hl' =>
      obtain ⟨a1, a', ha1, ha', rfl⟩ := ha.uncons
      obtain ⟨b1, b', hb1, hb', rfl⟩ := hb.uncons
      obtain ⟨c1, c', hc1, hc', rfl⟩ := hc.uncons
      obtain ⟨t1, ht1, h1⟩ := h.addT hK1 hK ha1 hb1 hc1
      obtain ⟨t2, ht2, h2⟩ := ih h1 ha' hb' hc' (by simpa using hl) (by simpa using hl')
      refine ⟨t2, fun i => ?_, ?_⟩
      · show (do let t ← (t i).addT (a1 i) (b1 i) (c1 i); Triples.addLoop t (((a' i).zip (b' i)).zip (c' i))) = _
        rw [ht1 i]; exact ht2 i
      · rw [List.length_cons, Nat.mul_add, Nat.mul_one, Nat.add_comm (K * _) K, ← Nat.add_assoc]
        refine h2.mono ?_
        rintro ⟨⟨h3, rfl⟩, rfl⟩
        exact ⟨h3, rfl⟩


theorem PW.exchangeValue {i : Party} {E : List Bytes → Prop} {x : Party → BitVec K}
    {Q : List Bytes → (Party → BitVec K) → Prop} (h : ∀ z : BitVec K, Q [toBytes z] (fun k => if k = i then z else x k.prev)) :
    PW i (fun k => sendAndReceiveValue k (x k)) E Q := by
  refine PW.ring (M := fun k => toBytes (x k)) (k := fun _ m => Prog.ofExcept (fromBytes K m)) fun m => PW.ofExcept ?_
  intro a h1 h2
  have n1 := Party.next_ne i
  simp only [if_true, n1, if_false, Party.prev_next] at h1 h2
  rw [fromBytes_toBytes] at h2
  injection h2 with h2
  refine ⟨fun k => if k = i then a i else x k.prev, by simp, by simp [n1, h2], ?_⟩
  have := h (a i)
  rwa [toBytes_of_fromBytes h1] at this

theorem Rels.xorReshared {xs : List (BitVec K)} {cs : Party → List (BitVec K)} (h : Rels XorsTo xs cs)
    (i : Party) {z : List (BitVec K)} (hz : z.length = xs.length) :
    ∃ s : Party → List (AShare K),
      Rels BinSharesOf (List.zipWith (· ^^^ ·) xs (List.zipWith (· ^^^ ·) z (cs i.prev))) s ∧
      s i = List.zipWith AShare.mk (cs i) z ∧ s i.next = List.zipWith AShare.mk (cs i.next) (cs i) := by
  induction xs generalizing cs z with
  | nil =>
    obtain rfl := List.eq_nil_of_length_eq_zero hz
    rw [h.eq_nil]
    exact ⟨_, Rels.nil, rfl, rfl⟩
  | cons x xs ih =>
    cases z with
    | nil => simp at hz
    | cons w z =>
      obtain ⟨c, cs', hc, h', rfl⟩ := h.uncons
      obtain ⟨s, hs, e1, e2⟩ := ih h' (by simpa using hz)
      obtain ⟨s0, hs0, f1, f2⟩ := XorsTo.resharedPair hc i w
      exact ⟨fun l => s0 l :: s l, Rels.cons hs0 hs, by simp [f1, e1], by simp [f2, e2]⟩

namespace Spdz

open Jmp

variable {G : Prg} {V : Nat} {i : Party} {st0 st : Party → SpdzSt G V}

/-- Consistent shares, of `x` if `w`. -/
def RelW (w : Prop) (K : Nat) (x : BitVec K) (a : Party → AShare K) : Prop := ∃ x', BinSharesOf x' a ∧ (w → x' = x)

/-- The state reached from `st0` by AND gates: `u` bits are recorded, and if there is no error among them then `w`. -/
def InvW (st0 : Party → SpdzSt G V) (w : Prop) (u : Nat) (st : Party → SpdzSt G V) : Prop :=
  ∃ (P : Party → Prf G) (t : Party → Triples),
    st = (fun k => { st0 k with jmp := { (st0 k).jmp with prf := P k }, buffer := t k }) ∧ PrfOk P ∧ BufW w u t

theorem RelW.rels {w : Prop} {xs : List (BitVec K)} {a : Party → List (AShare K)} (h : Rels (RelW w K) xs a) :
    ∃ xs', Rels BinSharesOf xs' a ∧ xs'.length = xs.length ∧ (w → xs' = xs) := by
  induction xs generalizing a with
  | nil => rw [h.eq_nil]; exact ⟨[], Rels.nil, rfl, fun _ => rfl⟩
  | cons x xs ih =>
    obtain ⟨b, ls, ⟨x', hb, hx⟩, h', rfl⟩ := h.uncons
    obtain ⟨xs', h1, h2, h3⟩ := ih h'
    exact ⟨x' :: xs', Rels.cons hb h1, by simp [h2], fun hw => by rw [hx hw, h3 hw]⟩

theorem RelW.of_rels {w : Prop} {xs xs' : List (BitVec K)} {a : Party → List (AShare K)} (h : Rels BinSharesOf xs' a)
    (hl : xs'.length = xs.length) (hw : w → xs' = xs) : Rels (RelW w K) xs a := by
  induction xs generalizing a xs' with
  | nil =>
    obtain rfl := List.eq_nil_of_length_eq_zero hl
    rw [h.eq_nil]; exact Rels.nil
  | cons x xs ih =>
    match xs', hl with
    | x' :: xs', hl =>
      obtain ⟨b, ls, hb, h', rfl⟩ := h.uncons
      exact Rels.cons ⟨x', hb, fun h => (List.cons_eq_cons.1 (hw h)).1⟩
        (ih h' (by simpa using hl) fun h => (List.cons_eq_cons.1 (hw h)).2)

theorem locW (w : Prop) : FamLawful (fam G V) (RelW w) (fun _ _ => False) where
  bin K _ _ :=
    { xor := fun ⟨x, h, e⟩ ⟨y, h', e'⟩ => ⟨x ^^^ y, h.xor h', fun hw => by rw [e hw, e' hw]⟩
      shl := fun n ⟨x, h, e⟩ => ⟨ringShl x n, h.shl n, fun hw => by rw [e hw]⟩
      and := fun h => h.elim
      andMany := fun h => h.elim }
  zero K := ⟨0, BinSharesOf.zero, fun _ => rfl⟩
  mapLists := by
    intro K L n f xs a hf hn h
    obtain ⟨xs', h1, h2, h3⟩ := RelW.rels h
    exact RelW.of_rels (BinSharesOf.mapLists hf (by omega) h1) (hf.len _ _ (by omega) hn) fun hw => by rw [h3 hw]

theorem and_pk {w : Prop} {u : Nat} (hK1 : 1 ≤ K) (hK : K ≤ 128) {x y : BitVec K} {a b : Party → AShare K}
    (hI : InvW st0 w u st) (ha : RelW w K x a) (hb : RelW w K y b) :
    PK i w (fun j => Spdz.and j (a j) (b j)) st
      (fun w' c st' => RelW w' K (x &&& y) c ∧ InvW st0 w' (u + K) st') := by
  obtain ⟨P, t, rfl, hP, hB⟩ := hI
  obtain ⟨x', ha, hx⟩ := ha
  obtain ⟨y', hb, hy⟩ := hb
  have n1 := Party.next_ne i
  unfold Spdz.and
  refine PWS.bind (viaAby_pw ?_)
  unfold Aby3.and
  obtain ⟨h1, h2⟩ := PrfOk.genBinZero K hP
  refine PWS.bind (PWS.step ?_)
  have hc := Aby3.xor_zero_sum (ha.andLocal hb) h2
  refine PWS.bind (PWS.net (PW.exchangeValue ?_))
  intro z
  refine PWS.pure ?_
  obtain ⟨c, hcs, ci, cj⟩ := hc.resharedPair i z
  obtain ⟨t', ht, hB'⟩ := hB.addT hK1 hK ha hb hcs
  refine PWS.agree (q := fun k => do
    let s ← MonadState.get
    let buffer ← Proto.lift (s.buffer.addT (a k) (b k) (c k))
    Proto.step fun s : SpdzSt G V => (c k, { s with buffer := buffer }))
    (st' := fun k => { st0 k with jmp := { (st0 k).jmp with prf := (Prf.genBinaryZeroShare K (P k)).2 }, buffer := t k }) ?_ ?_ ?_
  rotate_left 2
  · refine PWS.bind (PWS.get ?_)
    refine PWS.bind (PWS.lift_ok (a := t') ht ?_)
    refine PWS.step ?_
    refine ⟨_, fun h => ?_, ⟨_, hcs, ?_⟩, _, t', rfl, h1, hB'⟩
    · exact h.1
    · rintro ⟨hw, h⟩
      rw [h, hx hw, hy hw]
  · simp only [if_true, ci]
  · simp only [n1, if_false, Party.prev_next, cj]

theorem andMany_pk {w : Prop} {u : Nat} (hK1 : 1 ≤ K) (hK : K ≤ 128) {xs ys : List (BitVec K)}
    {a b : Party → List (AShare K)} (hI : InvW st0 w u st) (ha : Rels (RelW w K) xs a) (hb : Rels (RelW w K) ys b)
    (hl : xs.length = ys.length) :
    PK i w (fun j => Spdz.andMany j (a j) (b j)) st
      (fun w' c st' => Rels (RelW w' K) (List.zipWith (· &&& ·) xs ys) c ∧ InvW st0 w' (u + K * xs.length) st') := by
  obtain ⟨P, t, rfl, hP, hB⟩ := hI
  obtain ⟨xs', ha, lx, hx⟩ := RelW.rels ha
  obtain ⟨ys', hb, ly, hy⟩ := RelW.rels hb
  have n1 := Party.next_ne i
  unfold Spdz.andMany
  refine PWS.bind (viaAby_pw ?_)
  unfold Aby3.andMany
  refine PWS.ite_neg (fun k => by rw [ha.length, hb.length]; simp; omega) ?_
  refine PWS.bind (PWS.mono (PWS.of_wps (fun k => netFree_andLoop _)
    (Aby3.andLoop_wp (u := 0) (v := 0) (by exact hP) ha hb (by omega))) ?_)
  rintro m cs st1 ⟨rfl, hcs, hP1⟩
  have lcs : ∀ k, (cs k).length = xs.length := fun k => by rw [hcs.length]; simp; omega
  refine PWS.bind (PWS.net (PW.exchangeIter (by rw [lcs, lcs]) ?_))
  intro z hz
  refine PWS.pure ?_
  rw [lcs] at hz
  obtain ⟨c, hc, ci, cj⟩ := hcs.xorReshared i (z := z) (by rw [hz]; simp; omega)
  obtain ⟨t', ht, hB'⟩ := hB.addMany hK1 hK ha hb hc (by omega) (by simp [lcs]; omega)
  refine PWS.agree (q := fun k => do
    let s ← MonadState.get
    let buffer ← Proto.lift (s.buffer.addMany (a k) (b k) (c k))
    Proto.step fun s : SpdzSt G V => (c k, { s with buffer := buffer }))
    (st' := fun k => { st0 k with jmp := { (st0 k).jmp with prf := (st1 k).prf }, buffer := t k }) ?_ ?_ ?_
  rotate_left 2
  · refine PWS.bind (PWS.get ?_)
    refine PWS.bind (PWS.lift_ok (a := t') ht ?_)
    refine PWS.step ?_
    rw [lx] at hB'
    refine ⟨_, fun h => ?_, RelW.of_rels hc (by simp [lcs]; omega) ?_, _, t', rfl, hP1, hB'⟩
    · exact h.1
    · rintro ⟨hw, h⟩
      rw [h, hx hw, hy hw]
  · simp only [if_true, ci]
  · simp only [n1, if_false, Party.prev_next, cj]

theorem lawfulW (st0 : Party → SpdzSt G V) : WorldLawful i (fam G V) RelW (InvW st0) where
  loc := locW
  mono h := fun ⟨x, hx, e⟩ => ⟨x, hx, fun hw => e (h hw)⟩
  and h1 h2 hI ha hb := and_pk h1 h2 hI ha hb
  andMany h1 h2 hI ha hb hl := andMany_pk h1 h2 hI ha hb hl

end Spdz

end Verif
