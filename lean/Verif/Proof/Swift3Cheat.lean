import Verif.Spec.Swift3Cheat
import Verif.Proof.Swift3Frame
import Verif.Proof.Swift3Verify
import Verif.Proof.Swift3Full

/-! # A party that computes AND gates wrongly without being caught -/

namespace Verif

open Swift3

/-! ## Errors that cancel -/

/-- More than 64 weights in the field of `2^64` elements are linearly dependent over the bits. -/
theorem dependency (l : Nat) (hl : 64 < l) (th : Nat → F64) :
    ∃ ε : Nat → Bool, (∃ j < l, ε j = true) ∧ ((List.range l).map fun j => th j * bitF (ε j)).sum = 0 := by
  have : Finite F64 := Nat.finite_of_card_ne_zero (by rw [GF2p64.natCard_F64]; norm_num)
  have : Fintype F64 := Fintype.ofFinite _
  let φ : (Fin l → Bool) → F64 := fun ε => ∑ j : Fin l, th j * bitF (ε j)
  obtain ⟨ε1, ε2, hne, heq⟩ := Fintype.exists_ne_map_eq_of_card_lt φ (by
    rw [← Nat.card_eq_fintype_card, GF2p64.natCard_F64, Fintype.card_fun, Fintype.card_bool, Fintype.card_fin]
    exact Nat.pow_lt_pow_right (by norm_num) hl)
  refine ⟨fun j => if h : j < l then ε1 ⟨j, h⟩ ^^ ε2 ⟨j, h⟩ else false, ?_, ?_⟩
  · obtain ⟨j, hj⟩ := Function.ne_iff.1 hne
    refine ⟨j, j.2, ?_⟩
    simp only [j.2, dif_pos]
    revert hj
    cases ε1 j <;> cases ε2 j <;> simp
  · rw [show ∀ f : Nat → F64, ((List.range l).map f).sum = ∑ j : Fin l, f j from fun f => by
      rw [← List.sum_ofFn, List.ofFn_eq_map, ← List.map_coe_finRange_eq_range, List.map_map]; rfl]
    have h : φ ε1 + φ ε2 = 0 := by rw [heq, ← two_mul, two_F64, zero_mul]
    rw [← h]
    simp only [φ]
    rw [← Finset.sum_add_distrib]
    refine Finset.sum_congr rfl fun j _ => ?_
    simp only [j.2, dif_pos, bitF_xor, Fin.eta, mul_add]

/-- The error vector: the first gate of row `j` is wrong iff `ε j`. -/
def errVec (n m : Nat) (ε : Nat → Bool) : List (BitVec 1) :=
  (List.range n).map fun q => if q % m = 0 then BitVec.ofBool (ε (q / m)) else 0

theorem rows_fit {n : Nat} (hn : n ≠ 0) : (ceilSqrt n - 1) * ceilDiv n (ceilSqrt n) < n := by
  obtain ⟨hc1, hc2⟩ := ceilSqrt_spec n
  have hl : 0 < ceilSqrt n := by
    rcases Nat.eq_zero_or_pos (ceilSqrt n) with h | h
    · rw [h] at hc1; omega
    · exact h
  obtain ⟨hd1, hd2⟩ := ceilDiv_spec n (ceilSqrt n) hl
  have h1 : (ceilSqrt n - 1) * (ceilSqrt n - 1) < n := by
    by_contra h
    have := hc2 (ceilSqrt n - 1) (by omega)
    omega
  have h2 : ceilDiv n (ceilSqrt n) ≤ ceilSqrt n := hd2 _ hc1
  rcases Nat.lt_or_ge (ceilDiv n (ceilSqrt n)) (ceilSqrt n) with h | h
  · exact lt_of_le_of_lt (Nat.mul_le_mul_left _ (by omega)) h1
  · have e : ceilDiv n (ceilSqrt n) = ceilSqrt n := le_antisymm h2 h
    rw [e]
    by_contra hc
    have := hd2 (ceilSqrt n - 1) (by rw [Nat.mul_comm]; omega)
    omega

theorem many_rows {n : Nat} (hn : 4096 < n) : 64 < ceilSqrt n := by
  obtain ⟨hc1, -⟩ := ceilSqrt_spec n
  by_contra h
  have := Nat.mul_le_mul (show ceilSqrt n ≤ 64 by omega) (show ceilSqrt n ≤ 64 by omega)
  omega

/-! ## Registration -/

/-- The error of a gate at party `i`. -/
def gateErr (g : Party → ((AShare 1 × AShare 1) × AShare 1) × AShare 1) (i : Party) : Bool :=
  ((((g i).1.1.1.andLocal (g i).1.1.2).a ^^^ ((g i).2.a ^^^ (g i).2.b)) ^^^ (g i).1.2.a).getLsbD 0

theorem registerAnds_split {z : Party → ZProof Bool}
    {gs : List (Party → ((AShare 1 × AShare 1) × AShare 1) × AShare 1)}
    (hg : ∀ g ∈ gs, Repl (fun i => (g i).1.1.1) ∧ Repl (fun i => (g i).1.1.2) ∧ Repl (fun i => (g i).1.2) ∧
      Repl (fun i => (g i).2))
    (hz : ∀ i, Gates AndSplit (z i).proof (z i.next).verifyPrev (z i.prev).verifyNext) (i : Party) :
    Gates AndSplit (registerAnds (z i) (gs.map fun g => g i)).proof
      (registerAnds (z i.next) (gs.map fun g => g i.next)).verifyPrev
      (registerAnds (z i.prev) (gs.map fun g => g i.prev)).verifyNext ∧
      (registerAnds (z i) (gs.map fun g => g i)).proof.map ZInput.err =
        (z i).proof.map ZInput.err ++ gs.map fun g => gateErr g i := by
  induction gs generalizing z with
  | nil => exact ⟨hz i, by simp [registerAnds]⟩
  | cons g gs ih =>
    obtain ⟨ha, hb, hs, hr⟩ := hg g (by simp)
    have := ih (z := fun i => (z i).registerAnd (g i).1.1.1 (g i).1.1.2 (g i).2 (g i).1.2)
      (fun g' h' => hg g' (by simp [h'])) (fun i => ?_)
    · simp only [registerAnds, List.map_cons, List.foldl_cons] at this ⊢
      refine ⟨this.1, this.2.trans ?_⟩
      simp only [ZProof.registerAnd, ZProof.registerAndLoop, ZProof.registerBit, ZProof.push, List.map_append,
        List.map_cons, List.map_nil, List.append_assoc, List.cons_append, List.nil_append]
      congr 2
      simp only [ZInput.err, gateErr, lowBit_eq Nat.one_pos, AShare.andLocal, BitVec.getLsbD_xor, BitVec.getLsbD_and]
    · have ha' := ha.next i; have hb' := hb.next i; have hr' := hr.next i; have hs' := hs.next i
      have ha2 := ha i; have hb2 := hb i; have hr2 := hr i
      simp only [ZProof.registerAnd, ZProof.registerAndLoop, ZProof.registerBit, ZProof.push]
      dsimp only at ha' hb' hr' hs' ha2 hb2 hr2
      rw [ha', hb', hr', hs', ← ha2, ← hb2, ← hr2]
      exact (hz i).snoc (by simp [AndSplit, ZInput.xor])

/-! ## The AND gates -/

variable {G : Prg} {K : Nat} {st : Party → S3St G K}

/-- No gate is registered yet. -/
abbrev S3New (st : Party → S3St G K) : Prop := S3Ok 0 0 ⟨0, 0⟩ st

theorem andPostLocal_off {L u v : Nat} {w : DotCount} {x y e : BitVec L} {a b : Party → S3Share L} {de : Party → AShare L}
    (hI : S3Ok u v w st) (ha : S3BinSharesOf x a) (hb : S3BinSharesOf y b)
    (hde : BinSharesOf (((a 0).a ^^^ (a 1).a ^^^ (a 2).a) &&& ((b 0).a ^^^ (b 1).a ^^^ (b 2).a) ^^^ e) de) :
    WPS (fun i => andPostLocal (a i) (b i) (de i)) st
      (fun p st' => PostBinary ((x &&& y) ^^^ e) p ∧ S3Ok u v w st') := by
  -- the honest computation with the component of party 0 corrected
  unfold andPostLocal
  refine gen12_wp (k := fun i r1 r2 => pure (Post.mk
    (((a i).a &&& (b i).c) ^^^ ((b i).a &&& (a i).c) ^^^ (de i).a ^^^ r1)
    (((a i).b &&& (b i).c) ^^^ ((b i).b &&& (a i).c) ^^^ (de i).b ^^^ r2) ((a i).c &&& (b i).c) r1 r2)) hI ?_
  intro r1 r2 st' hr hI'
  refine WPS.pure ⟨⟨⟨fun i => ?_, fun i => hr i, fun i => ?_⟩, ?_⟩, hI'⟩
  · simp only [ha.1 i, ha.1 i.prev, hb.1 i, hb.1 i.prev, ha.2 i, hb.2 i, hde.2 i, hr i]
  · simp only [ha.1 i, ha.1 0, hb.1 i, hb.1 0]
  · simp only [ha.1 0, hb.1 0, ha.1 1, ha.1 2, hb.1 1, hb.1 2]
    rw [and_post_collect, hde.1]
    have : x ^^^ (a 0).a ^^^ (a 1).a ^^^ (a 2).a = x ^^^ ((a 0).a ^^^ (a 1).a ^^^ (a 2).a) := by
      simp only [BitVec.xor_assoc]
    rw [this]
    have : y ^^^ (b 0).a ^^^ (b 1).a ^^^ (b 2).a = y ^^^ ((b 0).a ^^^ (b 1).a ^^^ (b 2).a) := by
      simp only [BitVec.xor_assoc]
    rw [this]
    generalize (a 0).a ^^^ (a 1).a ^^^ (a 2).a = A
    generalize (b 0).a ^^^ (b 1).a ^^^ (b 2).a = B
    bitwise

/-- Conjunctions with errors. -/
def offAnds {L : Nat} : List (BitVec L) → List (BitVec L) → List (BitVec L) → List (BitVec L)
  | x :: xs, y :: ys, e :: es => ((x &&& y) ^^^ e) :: offAnds xs ys es
  | _, _, _ => []

theorem andPostLoop_off {L u v : Nat} {w : DotCount} {ps qs : List (BitVec L × BitVec L)} {es : List (BitVec L)}
    {a b : Party → List (S3Share L)}
    {de : Party → List (AShare L)} (hI : S3Ok u v w st) (ha : Rels FullB ps a) (hb : Rels FullB qs b)
    (hl : ps.length = qs.length) (he : es.length = ps.length)
    (hde : Rels BinSharesOf (offAnds (ps.map (·.2)) (qs.map (·.2)) es) de) :
    WPS (fun i => andPostLoop ((de i).zip ((a i).zip (b i)))) st
      (fun p st' => Rels PostBinary (offAnds (ps.map (·.1)) (qs.map (·.1)) es) p ∧ S3Ok u v w st') := by
  induction ps generalizing qs es a b de st with
  | nil =>
    have := List.eq_nil_of_length_eq_zero hl.symm
    subst this
    rw [ha.eq_nil]
    simp only [List.zip_nil_left, List.zip_nil_right]
    exact WPS.pure (a := fun _ => []) ⟨Rels.nil, hI⟩
  | cons x ps ih =>
    cases qs with
    | nil => simp at hl
    | cons y qs =>
      cases es with
      | nil => simp at he
      | cons e es =>
      obtain ⟨a1, a2, h1, h2, rfl⟩ := ha.uncons
      obtain ⟨b1, b2, k1, k2, rfl⟩ := hb.uncons
      obtain ⟨d1, d2, m1, m2, rfl⟩ := Rels.uncons hde
      simp only [List.zip_cons_cons, andPostLoop]
      refine WPS.bind ((andPostLocal_off hI h1.1 k1.1 (by rw [h1.2, k1.2]; exact m1)).mono ?_)
      rintro p st' ⟨hp, hI'⟩
      refine WPS.bind ((ih hI' h2 k2 (by simpa using hl) (by simpa using he) m2).mono ?_)
      rintro cs st'' ⟨hcs, hI''⟩
      exact WPS.pure ⟨Rels.cons hp hcs, hI''⟩

/-- A gate with the random values and the errors of the three parties. -/
abbrev OffGate := (Party → AShare 1 × AShare 1) × (Party → AShare 1) × (Party → BitVec 1)

/-- The component of party `i`. -/
def OffGate.entry (g : OffGate) (i : Party) : BitVec 1 := g.2.2 i ^^^ andEntry g.1 g.2.1 i

theorem offEntries {ps : List (BitVec 1 × BitVec 1)} {qs : List (Party → AShare 1 × AShare 1)}
    {rs : List (Party → AShare 1)} {os : List (Party → BitVec 1)} (h : List.Forall₂ (PairRel BinSharesOf) ps qs)
    (hl : rs.length = qs.length) (ho : os.length = qs.length) (hr : ∀ r ∈ rs, Repl r) :
    List.Forall₂ (fun (x : BitVec 1) (g : OffGate) => XorsTo x g.entry)
      (offAnds (ps.map (·.1)) (ps.map (·.2)) (os.map fun o => o 0 ^^^ o 1 ^^^ o 2)) (qs.zip (rs.zip os)) := by
  induction h generalizing rs os with
  | nil => simp [offAnds]
  | @cons p q ps qs hp _ ih =>
    cases rs with
    | nil => simp at hl
    | cons r rs =>
      cases os with
      | nil => simp at ho
      | cons o os =>
        refine .cons ?_ (ih (by simpa using hl) (by simpa using ho) fun r' h' => hr r' (by simp [h']))
        have := Aby3.xor_zero_sum (hp.1.andLocal hp.2) (binZero (hr r (by simp)))
        simp only [XorsTo] at this ⊢
        simp only [OffGate.entry, andEntry]
        rw [← this]
        bitwise

/-- The gate as handed to the registration by party `i`. -/
def OffGate.reg (g : OffGate) (i : Party) : ((AShare 1 × AShare 1) × AShare 1) × AShare 1 :=
  ((g.1 i, ⟨g.entry i, g.entry i.prev⟩), g.2.1 i)

theorem entries_eq (es : List OffGate) (i : Party) :
    List.zipWith (fun o x => o i ^^^ x) (es.map (·.2.2)) (((es.map (·.1)).zip (es.map (·.2.1))).map fun p =>
      ((p.1 i).1.andLocal (p.1 i).2).a ^^^ ((p.2 i).a ^^^ (p.2 i).b)) = es.map fun g => g.entry i := by
  induction es with
  | nil => rfl
  | cons g es ih =>
    simp only [List.map_cons, List.zip_cons_cons, List.zipWith_cons_cons]
    rw [ih]; rfl

theorem rands_eq (es : List OffGate) (i : Party) :
    ((es.map (·.1)).zip (es.map (·.2.1))).map (fun p => p.2 i) = es.map fun g => g.2.1 i := by
  induction es with
  | nil => rfl
  | cons g es ih =>
    simp only [List.map_cons, List.zip_cons_cons]
    rw [ih]

theorem abyAndManyWith_wp {xs ys : List (BitVec 1)} {a b : Party → List (AShare 1)} {os : List (Party → BitVec 1)}
    {f : Party → List (BitVec 1) → List (BitVec 1)} (hI : S3New st)
    (ha : Rels BinSharesOf xs a) (hb : Rels BinSharesOf ys b) (hl : xs.length = ys.length) (ho : os.length = xs.length)
    (hf : ∀ i l, l.length = os.length → f i l = List.zipWith (fun o x => o i ^^^ x) os l) :
    WPS (fun i => abyAndManyWith (f i) i (a i) (b i)) st (fun c st' =>
      Rels BinSharesOf (offAnds xs ys (os.map fun o => o 0 ^^^ o 1 ^^^ o 2)) c ∧
      ∃ (st1 : Party → S3St G K) (z : Party → ZProof Bool), S3New st1 ∧ (st1 1).prf.pp = (st 1).prf.pp ∧ (st' = fun i => setAnd (st1 i) (z i)) ∧
        ∀ i, Gates AndSplit (z i).proof (z i.next).verifyPrev (z i.prev).verifyNext ∧
          (z i).proof.map ZInput.err = os.map fun o => (o i).getLsbD 0) := by
  obtain ⟨qs, hq, hz⟩ := Rels.zipWith (f := Prod.mk) (g := fun _ => Prod.mk) (R := BinSharesOf) (S := BinSharesOf)
    (T := PairRel BinSharesOf) (fun _ _ _ _ h h' => ⟨h, h'⟩) ha hb
  have hz : ∀ i, (a i).zip (b i) = qs.map fun q => q i := fun i => congrFun hz i
  have hqlen : qs.length = xs.length := by rw [← hq.length_eq]; simp [hl]
  unfold abyAndManyWith
  simp only [hz]
  refine WPS.bind (((abyAndLoop_wp hI hq).rets 1 (R := fun _ s => s.prf.pp = (st 1).prf.pp)
    (abyAndLoop_moves _ (st 1))).mono ?_)
  rintro cr st1 ⟨⟨hI, rs, h1, h2, h3⟩, hpp⟩
  let es : List OffGate := qs.zip (rs.zip os)
  have hes : es.length = xs.length := by simp [es, h1, hqlen, ho]
  have d1 : qs = es.map (·.1) := by
    exact (List.map_fst_zip (by simp [h1, hqlen, ho])).symm
  have d23 : rs.zip os = es.map (·.2) := by
    exact (List.map_snd_zip (by simp [h1, hqlen, ho])).symm
  have d2 : rs = es.map (·.2.1) := by
    rw [show es.map (·.2.1) = (es.map (·.2)).map (·.1) by simp, ← d23]; exact (List.map_fst_zip (by omega)).symm
  have d3 : os = es.map (·.2.2) := by
    rw [show es.map (·.2.2) = (es.map (·.2)).map (·.2) by simp, ← d23]; exact (List.map_snd_zip (by omega)).symm
  have hx : List.Forall₂ (fun (x : BitVec 1) (g : OffGate) => XorsTo x g.entry)
      (offAnds xs ys (os.map fun o => o 0 ^^^ o 1 ^^^ o 2)) es := by
    have := offEntries (os := os) hq h1 (by omega) h2
    have e1 : (List.zipWith Prod.mk xs ys).map (·.1) = xs := by
      have := List.map_fst_zip (l₁ := xs) (l₂ := ys) (by omega)
      simpa [List.zip] using this
    have e2 : (List.zipWith Prod.mk xs ys).map (·.2) = ys := by
      have := List.map_snd_zip (l₁ := xs) (l₂ := ys) (by omega)
      simpa [List.zip] using this
    rw [e1, e2] at this
    exact this
  have hrepl : ∀ g ∈ es, Repl (fun i => (g.1 i).1) ∧ Repl (fun i => (g.1 i).2) ∧ Repl g.2.1 := by
    intro g hg
    have hr : Repl g.2.1 := h2 _ (List.of_mem_zip (List.of_mem_zip hg).2).1
    obtain ⟨p, hp⟩ := forall₂_mem_right hq (List.of_mem_zip hg).1
    exact ⟨hp.1.2, hp.2.2, hr⟩
  have c1 : ∀ i, f i ((cr i).map (·.1)) = es.map fun g => g.entry i := fun i => by
    rw [h3 i, zipWith_map_zip, hf i _ (by simp [h1, hqlen, ho])]
    conv_lhs => rw [d1, d2, d3]
    exact entries_eq es i
  have c2 : ∀ i, (cr i).map (·.2) = es.map fun e => e.2.1 i := fun i => by
    rw [h3 i, zipWith_map_zip]
    conv_lhs => rw [d1, d2]
    exact rands_eq es i
  have c3 : ∀ i, (qs.map fun q => q i) = es.map fun e => e.1 i := fun i => by
    conv_lhs => rw [d1]
    simp
  simp only [c1, c2, c3]
  refine WPS.bind (WPS.net (WP.exchangeVec (by intro i; simp) (WPS.step ⟨?_, ?_⟩)))
  · have hrel : Rels XorsTo (offAnds xs ys (os.map fun o => o 0 ^^^ o 1 ^^^ o 2)) (fun i => es.map fun e => e.entry i) := by
      refine ⟨es.map fun e => e.entry, ?_, by funext i; simp⟩
      rw [List.forall₂_map_right_iff]
      exact hx
    exact Rels.reshare (mk := AShare.mk) (S := BinSharesOf) (fun _ _ h => h.shares) hrel
  · have hreg : ∀ i : Party, ((es.map fun e => e.1 i).zip (List.zipWith AShare.mk (es.map fun e => e.entry i)
          (es.map fun e => e.entry i.prev))).zip (es.map fun e => e.2.1 i) =
        (es.map OffGate.reg).map fun g => g i := by
      intro i
      generalize es = es
      induction es with
      | nil => rfl
      | cons e es ih => simp only [List.map_cons, List.zipWith_cons_cons, List.zip_cons_cons, ih]; rfl
    refine ⟨st1, fun i => registerAnds (st1 i).andProof ((es.map OffGate.reg).map fun g => g i), hI, hpp, ?_, ?_⟩
    · funext i
      simp only [hreg]
      rfl
    · have hnil : ∀ i, (st1 i).andProof.proof = [] := fun i => List.eq_nil_of_length_eq_zero (hI.ands i).2
      intro i
      have := registerAnds_split (z := fun i => (st1 i).andProof) (gs := es.map OffGate.reg) (fun g hg => ?_)
        (fun i => ?_) i
      · refine ⟨this.1, this.2.trans ?_⟩
        simp only [hnil, List.map_nil, List.nil_append]
        rw [d3]
        simp only [List.map_map]
        refine List.map_congr_left fun g _ => ?_
        simp only [Function.comp, gateErr, OffGate.reg, OffGate.entry, andEntry]
        congr 1
        bitwise
      · obtain ⟨e, he, rfl⟩ := List.mem_map.1 hg
        obtain ⟨k1, k2, k3⟩ := hrepl e he
        exact ⟨k1, k2, fun _ => rfl, k3⟩
      · obtain ⟨gs, hg, e⟩ := (hI.ands i).1
        exact ⟨gs, fun g hm => (hg g hm).1, e⟩

/-- `and_many` with errors. -/
theorem andManyWith_wp {xs ys : List (BitVec 1)} {a b : Party → List (S3Share 1)} {os : List (Party → BitVec 1)}
    {f : Party → List (BitVec 1) → List (BitVec 1)} (hI : S3New st)
    (ha : Rels S3BinSharesOf xs a) (hb : Rels S3BinSharesOf ys b) (hl : xs.length = ys.length) (ho : os.length = xs.length)
    (hf : ∀ i l, l.length = os.length → f i l = List.zipWith (fun o x => o i ^^^ x) os l) :
    WPS (fun i => andManyWith (f i) i (a i) (b i)) st (fun c st' =>
      Rels S3BinSharesOf (offAnds xs ys (os.map fun o => o 0 ^^^ o 1 ^^^ o 2)) c ∧
      ∃ (st1 : Party → S3St G K) (z : Party → ZProof Bool), S3New st1 ∧ (st1 1).prf.pp = drawn G 1 xs.length (st 1).prf.pp ∧ (st' = fun i => setAnd (st1 i) (z i)) ∧
        ∀ i, Gates AndSplit (z i).proof (z i.next).verifyPrev (z i.prev).verifyNext ∧
          (z i).proof.map ZInput.err = os.map fun o => (o i).getLsbD 0) := by
  have hal := ha.length
  obtain ⟨ps, rfl, ha'⟩ := ha.aug fun s => (s 0).a ^^^ (s 1).a ^^^ (s 2).a
  obtain ⟨qs, rfl, hb'⟩ := hb.aug fun s => (s 0).a ^^^ (s 1).a ^^^ (s 2).a
  unfold andManyWith
  refine WPS.ite_neg (fun i => by simpa [ha.length, hb.length] using hl) ?_
  have ta : Rels BinSharesOf (ps.map (·.2)) (fun i => (a i).map S3Share.toAby) :=
    Rels.map (g := fun _ => S3Share.toAby) (fun p s h => by rw [← h.2]; exact h.1.toAby) ha'
  have tb : Rels BinSharesOf (qs.map (·.2)) (fun i => (b i).map S3Share.toAby) :=
    Rels.map (g := fun _ => S3Share.toAby) (fun p s h => by rw [← h.2]; exact h.1.toAby) hb'
  simp only [List.length_map] at hl ho hal
  refine WPS.bind ((abyAndManyWith_wp hI ta tb (by simpa using hl) (by simpa using ho) hf).mono ?_)
  rintro de st' ⟨hde, st1, z, hI1, hpp1, rfl, hz⟩
  unfold andPostMany
  refine WPS.bind ((WPS.frame ((andPostLoop_off hI1 ha' hb' hl (by simpa using ho) hde).rets 1
    (R := fun _ s => s.prf.pp = (st 1).prf.pp) (by rw [← hpp1]; exact andPostLoop_moves _ (st1 1)))
    (fun i => andPostLoop_frames _) z).mono ?_)
  rintro p st' ⟨st2, ⟨⟨hp, hI2⟩, hpp2⟩, rfl⟩
  have e : (fun i => postManyWith (G := G) (K := K) (· ^^^ ·) (· ^^^ ·) mixXor S3Share.xor i (p i) (a i).length) =
      fun i => postManyWith (· ^^^ ·) (· ^^^ ·) mixXor S3Share.xor i (p i) ps.length := by
    funext i; rw [hal i]
  rw [e]
  have hlen : ∀ (xs ys es : List (BitVec 1)), xs.length = ys.length → es.length = xs.length →
      (offAnds xs ys es).length = xs.length := by
    intro xs
    induction xs with
    | nil => intro ys es _ _; simp [offAnds]
    | cons x xs ih =>
      intro ys es h1 h2
      cases ys with
      | nil => simp at h1
      | cons y ys => cases es with
        | nil => simp at h2
        | cons e es => simp [offAnds, ih ys es (by simpa using h1) (by simpa using h2)]
  refine (WPS.frame ((postBinaryMany_wp hp (by rw [hlen] <;> simp [hl, ho]) hI2).rets 1
    (R := fun _ s => s.prf.pp = drawn G 1 ps.length (st 1).prf.pp)
    (by rw [← hpp2]; exact postManyWith_moves _ _ _ _ _ _ (st2 1))) (fun i => postManyWith_frames _ _ _ _ _ _ _) z).mono ?_
  rintro c st' ⟨st3, ⟨⟨hc, hI3⟩, hpp3⟩, rfl⟩
  exact ⟨hc, st3, z, hI3, by rw [List.length_map]; exact hpp3, rfl, hz⟩

theorem offAnds_eq {L : Nat} (xs ys es : List (BitVec L)) :
    offAnds xs ys es = List.zipWith (· ^^^ ·) (List.zipWith (· &&& ·) xs ys) es := by
  induction xs generalizing ys es with
  | nil => simp [offAnds]
  | cons x xs ih =>
    cases ys with
    | nil => simp [offAnds]
    | cons y ys => cases es with
      | nil => simp [offAnds]
      | cons e es => simp [offAnds, ih]

theorem afterSeed_ok {u v : Nat} {w : DotCount} (hI : S3Ok u v w st) : S3Ok u v w (fun i => afterSeed (st i)) := by
  refine ⟨⟨hI.prf.1, fun i j => ?_⟩, hI.queues, hI.ands, hI.muls, hI.dots, hI.sizes⟩
  simp only [afterSeed]
  rw [hI.prf.2 i j]

/-- `verify` with only AND gates registered, whose errors cancel. -/
theorem verify_and_cols {H : Hash} (hG : G.Lively K) {n : Nat} (hn : n ≠ 0) (h : n ≤ 2 ^ 44) {pp : G.S}
    {z : Party → ZProof Bool} (hI : S3New st) (hpp : (st 1).prf.pp = pp)
    (hz : ∀ i, Gates AndSplit (z i).proof (z i.next).verifyPrev (z i.prev).verifyNext ∧ (z i).proof.length = n)
    (hcol : ∀ i, ColsVanish (ceilSqrt n) (ceilDiv n (ceilSqrt n))
      (((andEnv G).rands3 (ceilSqrt n) (G.ofSeed (G.genSeed pp).1)).1 i) (z i).proof) (r1 r2 r3 : Party → G.S) :
    WPS (fun i => verify H i (r1 i) (r2 i) (r3 i)) (fun i => setAnd (st i) (z i))
      (fun _ st' => ∃ z' : Party → ZProof Bool, st' = fun i => setAnd (afterSeed (st i)) (z' i)) := by
  simp only [verify_parts]
  refine WPS.bind ?_
  unfold mulPart
  refine WPS.bind (WPS.get ?_)
  refine WPS.ite_neg (fun i => ?_) (WPS.pure (a := fun _ => ()) ?_)
  · simp [ZProof.getMuls, setAnd, (hI.muls i).2]
  refine WPS.bind ?_
  unfold andPart
  refine WPS.bind (WPS.get ?_)
  refine WPS.ite_pos (fun i => ?_) ?_
  · simp [ZProof.getMuls, setAnd, (hz i).2, hn]
  refine (andVerify_cols hG (st := fun i => setAnd (st i) (z i)) (fun i => (hI.prf.2 i 1).trans hpp) hz hn h r2 hcol).mono ?_
  rintro _ st' rfl
  unfold dotPart
  refine WPS.bind (WPS.get ?_)
  refine WPS.ite_neg (fun i => ?_) (WPS.pure (a := fun _ => ()) ⟨_, rfl⟩)
  have := (hI.dots i).2
  simp only [DProof.getMuls, setAnd, afterAnd, afterSeed]
  simpa using this

theorem errVec_get (n m : Nat) (ε : Nat → Bool) (q : Nat) (hq : q < n) :
    (errVec n m ε)[q]? = some (if q % m = 0 then BitVec.ofBool (ε (q / m)) else 0) := by
  simp [errVec, hq]

theorem getD_err (p : List (ZInput Bool)) (q : Nat) :
    (p.getD q ⟨false, false, false, false, false, false⟩).err = (p.map ZInput.err).getD q false := by
  rw [List.getD_eq_getElem?_getD, List.getD_eq_getElem?_getD, List.getElem?_map]
  cases p[q]? <;> rfl

theorem xor_none (e l : List (BitVec 1)) (h : l.length = e.length) : l = List.zipWith (fun _ x => 0 ^^^ x) e l := by
  induction e generalizing l with
  | nil => rw [List.eq_nil_of_length_eq_zero h]; rfl
  | cons x e ih =>
    cases l with
    | nil => simp at h
    | cons y l =>
      rw [List.zipWith_cons_cons, ← ih l (by simpa using h)]
      simp

/-- The attack. -/
theorem and_cheat {H : Hash} (hG : G.Lively K) {n : Nat} (h1 : 4096 < n) (h2 : n ≤ 2 ^ 44) (pp : G.S) (p : Party) :
    ∃ e : List (BitVec 1), e.length = n ∧ 1 ∈ e ∧ ∀ st : Party → S3St G K, S3New st → (∀ i, (st i).prf.pp = pp) →
      ∀ (xs ys : List (BitVec 1)) (a b : Party → List (S3Share 1)), xs.length = n → ys.length = n →
      Rels S3BinSharesOf xs a → Rels S3BinSharesOf ys b → ∀ r1 r2 r3 : Party → G.S,
      WPS (fun i => do
        let c ← if i = p then andManyWith (List.zipWith (· ^^^ ·) e) i (a i) (b i) else andMany i (a i) (b i)
        verify H i (r1 i) (r2 i) (r3 i)
        openBitMany H i c) st
        (fun r _ => ∀ i, r i = (List.zipWith (· ^^^ ·) (List.zipWith (· &&& ·) xs ys) e).map bitVal) := by
  have hn0 : n ≠ 0 := by omega
  have hl64 := many_rows h1
  have hfit := rows_fit hn0
  obtain ⟨hlm, -, -⟩ := and_params hn0 h2
  have hmpos : 0 < ceilDiv n (ceilSqrt n) := by
    rcases Nat.eq_zero_or_pos (ceilDiv n (ceilSqrt n)) with h | h
    · rw [h] at hlm; omega
    · exact h
  let pp1 := drawn G 1 n pp
  let th : Party → List GF2p64 := ((andEnv G).rands3 (ceilSqrt n) (G.ofSeed (G.genSeed pp1).1)).1
  obtain ⟨ε, ⟨j0, hj0, hε0⟩, hsum⟩ := dependency (ceilSqrt n) hl64 fun j => ((th p).getD j PolyT.zero).sem
  let e := errVec n (ceilDiv n (ceilSqrt n)) ε
  have hbound : ∀ j < ceilSqrt n, j * ceilDiv n (ceilSqrt n) < n := fun j hj =>
    lt_of_le_of_lt (Nat.mul_le_mul_right _ (by omega)) hfit
  have helen : e.length = n := by simp [e, errVec]
  refine ⟨e, helen, ?_, ?_⟩
  · apply List.mem_of_getElem? (i := j0 * ceilDiv n (ceilSqrt n))
    rw [errVec_get _ _ _ _ (hbound j0 hj0), if_pos (Nat.mul_mod_left _ _), Nat.mul_div_cancel _ hmpos, hε0]
    rfl
  intro st hI hpp xs ys a b hxs hys ha hb r1 r2 r3
  let os : List (Party → BitVec 1) := e.map fun x i => if i = p then x else 0
  have hos : (os.map fun o => o 0 ^^^ o 1 ^^^ o 2) = e := by
    simp only [os, List.map_map]
    conv_rhs => rw [← List.map_id e]
    refine List.map_congr_left fun x _ => ?_
    fin_cases p <;> simp
  have hf : ∀ i (l : List (BitVec 1)), l.length = os.length →
      (if i = p then List.zipWith (· ^^^ ·) e else id) l = List.zipWith (fun o x => o i ^^^ x) os l := by
    intro i l hl
    simp only [os, List.zipWith_map_left]
    by_cases h : i = p
    · simp only [if_pos h]
    · simp only [if_neg h, id]
      exact xor_none e l (by simpa [os] using hl)
  refine WPS.congr (q := fun i => andManyWith (if i = p then List.zipWith (· ^^^ ·) e else id) i (a i) (b i) >>= fun c =>
    verify H i (r1 i) (r2 i) (r3 i) >>= fun _ => openBitMany H i c) (fun i => ?_) ?_
  · by_cases h : i = p
    · simp only [if_pos h]
    · simp only [if_neg h]; rfl
  refine WPS.bind ((andManyWith_wp hI ha hb (by omega) (by simp [os, helen, hxs]) hf).mono ?_)
  rintro c st' ⟨hc, st1, z, hI1, hpp1, rfl, hz⟩
  rw [hos] at hc
  rw [hpp 1, hxs] at hpp1
  have hzl : ∀ i, (z i).proof.length = n := fun i => by
    have := congrArg List.length (hz i).2
    simpa [os, helen] using this
  refine WPS.bind ((verify_and_cols hG hn0 h2 hI1 hpp1 (fun i => ⟨(hz i).1, hzl i⟩) (fun i => ?_) r1 r2 r3).mono ?_)
  · intro k hk
    simp only [getD_err, (hz i).2]
    have hget : ∀ q, (os.map fun o => (o i).getLsbD 0).getD q false =
        if q < n ∧ i = p ∧ q % ceilDiv n (ceilSqrt n) = 0 then ε (q / ceilDiv n (ceilSqrt n)) else false := by
      intro q
      rw [List.getD_eq_getElem?_getD]
      simp only [os, List.map_map, List.getElem?_map]
      rcases Nat.lt_or_ge q n with hq | hq
      · rw [errVec_get _ _ _ _ hq]
        by_cases hip : i = p
        · by_cases hm : q % ceilDiv n (ceilSqrt n) = 0
          · simp [hip, hm, hq]
          · simp [hip, hm]
        · simp [hip]
      · rw [List.getElem?_eq_none (by omega)]
        simp [Nat.not_lt.2 hq]
    simp only [hget]
    by_cases hip : i = p
    · subst hip
      by_cases hk0 : k = 0
      · subst hk0
        rw [← hsum]
        congr 1
        refine List.map_congr_left fun j hj => ?_
        rw [if_pos ⟨hbound j (List.mem_range.1 hj), rfl, Nat.mul_mod_left _ _⟩]
        simp only [Nat.add_zero, Nat.mul_div_cancel _ hmpos]
        rfl
      · apply List.sum_eq_zero
        intro x hx
        obtain ⟨j, -, rfl⟩ := List.mem_map.1 hx
        rw [if_neg]
        · simp [bitF]
        · rintro ⟨-, -, h⟩
          rw [Nat.mul_comm, Nat.mul_add_mod, Nat.mod_eq_of_lt hk] at h
          exact hk0 h
    · apply List.sum_eq_zero
      intro x hx
      obtain ⟨j, -, rfl⟩ := List.mem_map.1 hx
      simp [hip, bitF]
  · rintro _ st' ⟨z', rfl⟩
    refine (WPS.frame (openBitMany_wp hc (afterSeed_ok hI1)) (fun i => openBitMany_frames _ _ _) z').mono ?_
    rintro r st' ⟨st2, ⟨hr, -⟩, -⟩ i
    rw [hr i, offAnds_eq]

end Verif
