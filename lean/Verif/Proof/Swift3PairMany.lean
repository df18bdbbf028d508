import Verif.Proof.Swift3PairOps

/-! # Swift3: many gates at once with a corrupt party -/

namespace Verif

namespace Swift3

variable {G : Prg} {H : Hash} {K L : Nat} {i : Party}

/-! ## Registering -/

/-- The component of an AND gate received from the corrupt party is right. -/
def AndGood (g g' : ((AShare L × AShare L) × AShare L) × AShare L) : Prop :=
  g.1.2.b = AndComp g.1.1.1 g'.1.1.1 g.1.1.2 g'.1.1.2 g.2 g'.2

theorem registerAnds_pair (hL : 0 < L) {gs gs' : List (((AShare L × AShare L) × AShare L) × AShare L)}
    (hl : gs.length = gs'.length) {n : Nat} {z z' : ZProof Bool} (hz : ZPair n z z') :
    (∃ m, ZPair m (registerAnds z gs) (registerAnds z' gs')) ∧
    ((∀ q, ¬ WrongAnd (registerAnds z gs).verifyPrev (registerAnds z' gs').verifyNext q) →
      (∀ q, ¬ WrongAnd z.verifyPrev z'.verifyNext q) ∧ List.Forall₂ AndGood gs gs') := by
  unfold registerAnds
  induction gs generalizing gs' z z' n with
  | nil =>
    obtain rfl : gs' = [] := List.eq_nil_of_length_eq_zero (by simpa using hl.symm)
    exact ⟨⟨n, hz⟩, fun h => ⟨h, .nil⟩⟩
  | cons g gs ih =>
    cases gs' with
    | nil => simp at hl
    | cons g' gs' =>
      obtain ⟨h1, h2⟩ := registerAnd_pair hL hz g.1.1.1 g.1.1.2 g.2 g.1.2 g'.1.1.1 g'.1.1.2 g'.2 g'.1.2
      obtain ⟨h3, h4⟩ := ih (by simpa using hl) h1
      refine ⟨h3, fun h => ?_⟩
      obtain ⟨k1, k2⟩ := h4 h
      obtain ⟨k3, k4⟩ := h2 k1
      exact ⟨k3, .cons k4 k2⟩

/-- The component of a dot product received from the corrupt party is right. -/
def DotGood (g g' : (List (AShare K × AShare K) × AShare K) × AShare K) : Prop := g.1.2.b = DotComp g.1.1 g'.1.1 g.2 g'.2

theorem registerDots_pair {gs gs' : List ((List (AShare K × AShare K) × AShare K) × AShare K)}
    (hl : List.Forall₂ (fun g g' : (List (AShare K × AShare K) × AShare K) × AShare K => g'.1.1.length = g.1.1.length) gs gs')
    {n : Nat} {z z' : DProof K} (hz : DPair n z z') :
    (∃ m, DPair m (registerDots z gs) (registerDots z' gs')) ∧
    ((∀ q, ¬ WrongDot (registerDots z gs).verifyPrev (registerDots z' gs').verifyNext q) →
      (∀ q, ¬ WrongDot z.verifyPrev z'.verifyNext q) ∧ List.Forall₂ DotGood gs gs') := by
  unfold registerDots
  induction hl generalizing z z' n with
  | nil => exact ⟨⟨n, hz⟩, fun h => ⟨h, .nil⟩⟩
  | @cons g g' gs gs' hg _ ih =>
    obtain ⟨h1, h2⟩ := registerDot_pair hz g.1.1 g'.1.1 hg g.2 g.1.2 g'.2 g'.1.2
    obtain ⟨h3, h4⟩ := ih h1
    refine ⟨h3, fun h => ?_⟩
    obtain ⟨k1, k2⟩ := h4 h
    obtain ⟨k3, k4⟩ := h2 k1
    exact ⟨k3, .cons k4 k2⟩

theorem PairOk.ands' {s s' : S3St G K} (h : PairOk s s') (hL : 0 < L) {p p' : S3Prf G} (hp : PairPrf p p')
    {gs gs' : List (((AShare L × AShare L) × AShare L) × AShare L)} (hl : gs.length = gs'.length) :
    PairOk { s with prf := p, andProof := registerAnds s.andProof gs }
      { s' with prf := p', andProof := registerAnds s'.andProof gs' } ∧
    (Clean { s with prf := p, andProof := registerAnds s.andProof gs }
      { s' with prf := p', andProof := registerAnds s'.andProof gs' } → Clean s s' ∧ List.Forall₂ AndGood gs gs') := by
  obtain ⟨n, hn⟩ := h.ands
  obtain ⟨h1, h2⟩ := registerAnds_pair hL hl hn
  refine ⟨⟨hp, h.rcv, h1, h.muls, h.dots⟩, fun hc => ?_⟩
  obtain ⟨k1, k2⟩ := h2 fun q hq => hc.2 (.inl ⟨q, hq⟩)
  refine ⟨⟨hc.1, ?_⟩, k2⟩
  rintro (⟨q, hq⟩ | hq)
  · exact k1 q hq
  · exact hc.2 (.inr hq)

theorem PairOk.dots' {s s' : S3St G K} (h : PairOk s s') {p p' : S3Prf G} (hp : PairPrf p p')
    {gs gs' : List ((List (AShare K × AShare K) × AShare K) × AShare K)}
    (hl : List.Forall₂ (fun g g' : (List (AShare K × AShare K) × AShare K) × AShare K => g'.1.1.length = g.1.1.length) gs gs') :
    PairOk { s with prf := p, dotProof := registerDots s.dotProof gs }
      { s' with prf := p', dotProof := registerDots s'.dotProof gs' } ∧
    (Clean { s with prf := p, dotProof := registerDots s.dotProof gs }
      { s' with prf := p', dotProof := registerDots s'.dotProof gs' } → Clean s s' ∧ List.Forall₂ DotGood gs gs') := by
  obtain ⟨n, hn⟩ := h.dots
  obtain ⟨h1, h2⟩ := registerDots_pair hl hn
  refine ⟨⟨hp, h.rcv, h.ands, h.muls, h1⟩, fun hc => ?_⟩
  obtain ⟨k1, k2⟩ := h2 fun q hq => hc.2 (.inr (.inr ⟨q, hq⟩))
  refine ⟨⟨hc.1, ?_⟩, k2⟩
  rintro (hq | hq | ⟨q, hq⟩)
  · exact hc.2 (.inl hq)
  · exact hc.2 (.inr (.inl hq))
  · exact k1 q hq

/-! ## The products of the masks -/

/-- What a party computes for the products of the masks. -/
def andCr (A : List (AShare L × AShare L)) (ds : List (BitVec L × BitVec L)) : List (BitVec L × AShare L) :=
  List.zipWith (fun (q : AShare L × AShare L) (d : BitVec L × BitVec L) =>
      ((q.1.andLocal q.2).a ^^^ (d.1 ^^^ d.2), (⟨d.1, d.2⟩ : AShare L))) A ds

/-- The masks of the inputs of the gates multiply to `t`. -/
def AndIn (t : BitVec L) (e e' : AShare L × AShare L) : Prop :=
  e'.1.b = e.1.a ∧ e'.2.b = e.2.a ∧ t = (e.1.a ^^^ e.1.b ^^^ e'.1.a) &&& (e.2.a ^^^ e.2.b ^^^ e'.2.a)

theorem ands_rep {ts : List (BitVec L)} {A A' : List (AShare L × AShare L)} (h : Pairs AndIn ts A A')
    {ds ds' : List (BitVec L × BitVec L)} {z : List (BitVec L)} (h1 : ds.length = ts.length) (h2 : ds'.length = ts.length)
    (h3 : z.length = ts.length) (he : ds.map (·.1) = ds'.map (·.2))
    (hg : List.Forall₂ AndGood ((A.zip (List.zipWith AShare.mk ((andCr A ds).map (·.1)) z)).zip ((andCr A ds).map (·.2)))
      ((A'.zip (List.zipWith AShare.mk ((andCr A' ds').map (·.1)) ((andCr A ds).map (·.1)))).zip ((andCr A' ds').map (·.2)))) :
    Pairs AndRep ts (List.zipWith AShare.mk ((andCr A ds).map (·.1)) z)
      (List.zipWith AShare.mk ((andCr A' ds').map (·.1)) ((andCr A ds).map (·.1))) := by
  unfold andCr at hg ⊢
  induction ts generalizing A A' ds ds' z with
  | nil =>
    obtain ⟨rfl, rfl⟩ := h.nil_left
    exact Pairs.nil
  | cons t ts ih =>
    obtain ⟨e, e', u, u', rfl, rfl, k, ks⟩ := h.uncons
    cases ds with
    | nil => simp at h1
    | cons d ds => cases ds' with
      | nil => simp at h2
      | cons d' ds' => cases z with
        | nil => simp at h3
        | cons y z =>
          simp only [List.map_cons, List.cons.injEq] at he
          simp only [List.zipWith_cons_cons, List.map_cons, List.zip_cons_cons, List.forall₂_cons] at hg ⊢
          refine Pairs.cons ⟨rfl, ?_⟩ (ih ks (by simpa using h1) (by simpa using h2) (by simpa using h3) he.2 hg.2)
          obtain ⟨k1, k2, rfl⟩ := k
          have := hg.1
          simp only [AndGood, AndComp] at this
          simp only [this, AShare.andLocal, k1, k2, he.1]
          xor_ring

theorem abyAndMany_pws (hL : 0 < L) {st : Party → S3St G K} (hI : PairOk (st i) (st i.next)) (a b : Party → List (AShare L))
    {n : Nat} (ha : ∀ k, (a k).length = n) (hb : ∀ k, (b k).length = n) {E : List Bytes → Prop} :
    PWS i (fun k => abyAndMany k (a k) (b k)) st E fun _ d s => (d i).length = n ∧ (d i.next).length = n ∧
      PairOk (s i) (s i.next) ∧ (Clean (s i) (s i.next) → Clean (st i) (st i.next) ∧
        ∀ ts, Pairs AndIn ts ((a i).zip (b i)) ((a i.next).zip (b i.next)) → Pairs AndRep ts (d i) (d i.next)) := by
  have hz : ∀ k, ((a k).zip (b k)).length = n := fun k => by simp [ha, hb]
  unfold abyAndMany
  refine PWS.bind_eq (fun l => abyAndLoop_eq ((a l).zip (b l)) (st l)) ?_
  refine PWS.bind (PWS.net (PW.exchangeVec ?_ fun z hzl => ?_))
  · simp [hz, draws_length]
  refine PWS.step ?_
  dsimp only
  simp only [if_true, Party.next_ne, if_false, Party.prev_next, hz]
  rw [List.length_map, List.length_zipWith, hz, draws_length, min_self] at hzl
  have hI' := hI.ands' hL (draws_pair (L := L) n hI.prf).2
    (gs := (((a i).zip (b i)).zip (List.zipWith AShare.mk ((andCr ((a i).zip (b i)) (draws L n (st i).prf).1).map (·.1)) z)).zip
      ((andCr ((a i).zip (b i)) (draws L n (st i).prf).1).map (·.2)))
    (gs' := (((a i.next).zip (b i.next)).zip (List.zipWith AShare.mk ((andCr ((a i.next).zip (b i.next)) (draws L n (st i.next).prf).1).map (·.1))
      ((andCr ((a i).zip (b i)) (draws L n (st i).prf).1).map (·.1)))).zip ((andCr ((a i.next).zip (b i.next)) (draws L n (st i.next).prf).1).map (·.2)))
    (by simp [andCr, draws_length, hz, hzl])
  refine ⟨by simp [hz, draws_length, hzl], by simp [hz, draws_length], hI'.1, fun hc => ?_⟩
  obtain ⟨k1, k2⟩ := hI'.2 hc
  refine ⟨k1, fun ts hts => ?_⟩
  have hn : ts.length = n := by rw [← hts.length.1, hz]
  exact ands_rep hts (by rw [draws_length, hn]) (by rw [draws_length, hn]) (by rw [hzl, hn]) (draws_pair n hI.prf).1 k2

/-- What a party computes for the dot products of the masks. -/
def dotCr (A : List (List (AShare K × AShare K))) (ds : List (BitVec K × BitVec K)) : List (BitVec K × AShare K) :=
  List.zipWith (fun (q : List (AShare K × AShare K)) (d : BitVec K × BitVec K) =>
      (Aby3.dotAcc (d.1 - d.2) q, (⟨d.1, d.2⟩ : AShare K))) A ds

/-- The masks of the inputs have the dot product `t`. -/
def DotIn (t : BitVec K) (e e' : List (AShare K × AShare K)) : Prop := RepPairs e e' ∧ t = maskDot e e'

theorem dots_rep {ts : List (BitVec K)} {A A' : List (List (AShare K × AShare K))} (h : Pairs DotIn ts A A')
    {ds ds' : List (BitVec K × BitVec K)} {z : List (BitVec K)} (h1 : ds.length = ts.length) (h2 : ds'.length = ts.length)
    (h3 : z.length = ts.length) (he : ds.map (·.1) = ds'.map (·.2))
    (hg : List.Forall₂ DotGood ((A.zip (List.zipWith AShare.mk ((dotCr A ds).map (·.1)) z)).zip ((dotCr A ds).map (·.2)))
      ((A'.zip (List.zipWith AShare.mk ((dotCr A' ds').map (·.1)) ((dotCr A ds).map (·.1)))).zip ((dotCr A' ds').map (·.2)))) :
    Pairs MulRep ts (List.zipWith AShare.mk ((dotCr A ds).map (·.1)) z)
      (List.zipWith AShare.mk ((dotCr A' ds').map (·.1)) ((dotCr A ds).map (·.1))) := by
  unfold dotCr at hg ⊢
  induction ts generalizing A A' ds ds' z with
  | nil =>
    obtain ⟨rfl, rfl⟩ := h.nil_left
    exact Pairs.nil
  | cons t ts ih =>
    obtain ⟨e, e', u, u', rfl, rfl, k, ks⟩ := h.uncons
    cases ds with
    | nil => simp at h1
    | cons d ds => cases ds' with
      | nil => simp at h2
      | cons d' ds' => cases z with
        | nil => simp at h3
        | cons y z =>
          simp only [List.map_cons, List.cons.injEq] at he
          simp only [List.zipWith_cons_cons, List.map_cons, List.zip_cons_cons, List.forall₂_cons] at hg ⊢
          obtain ⟨k1, rfl⟩ := k
          exact Pairs.cons (dot_rep k1 (r := ⟨d.1, d.2⟩) (r' := ⟨d'.1, d'.2⟩) he.1.symm hg.1)
            (ih ks (by simpa using h1) (by simpa using h2) (by simpa using h3) he.2 hg.2)

theorem dotLoop_cr (a b : List (List (AShare K))) (ds : List (BitVec K × BitVec K)) :
    List.zipWith (fun (q : List (AShare K) × List (AShare K)) (d : BitVec K × BitVec K) =>
      (Aby3.dotAcc (d.1 - d.2) (q.1.zip q.2), (⟨d.1, d.2⟩ : AShare K))) (a.zip b) ds =
    dotCr ((a.zip b).map fun p => p.1.zip p.2) ds := by
  unfold dotCr
  rw [List.zipWith_map_left]

theorem dot_lengths {A A' : List (List (AShare K × AShare K))} (h : A.map List.length = A'.map List.length)
    {u u' v v' : List (AShare K)} (h1 : u.length = A.length) (h2 : u'.length = A.length) (h3 : v.length = A.length)
    (h4 : v'.length = A.length) :
    List.Forall₂ (fun g g' : (List (AShare K × AShare K) × AShare K) × AShare K => g'.1.1.length = g.1.1.length)
      ((A.zip u).zip v) ((A'.zip u').zip v') := by
  induction A generalizing A' u u' v v' with
  | nil =>
    obtain rfl : A' = [] := by simpa using h.symm
    simp
  | cons e A ih =>
    cases A' with
    | nil => simp at h
    | cons e' A' =>
      obtain ⟨x, u, rfl⟩ := List.exists_cons_of_length_eq_add_one h1
      obtain ⟨x', u', rfl⟩ := List.exists_cons_of_length_eq_add_one h2
      obtain ⟨y, v, rfl⟩ := List.exists_cons_of_length_eq_add_one h3
      obtain ⟨y', v', rfl⟩ := List.exists_cons_of_length_eq_add_one h4
      simp only [List.map_cons, List.cons.injEq] at h
      exact .cons h.1.symm (ih h.2 (by simpa using h1) (by simpa using h2) (by simpa using h3) (by simpa using h4))

theorem abyDotMany_pws {st : Party → S3St G K} (hI : PairOk (st i) (st i.next)) (a b : Party → List (List (AShare K)))
    {ns : List Nat} (hab : ∀ k, (((a k).zip (b k)).map fun p => p.1.zip p.2).map List.length = ns) {E : List Bytes → Prop} :
    PWS i (fun k => abyDotMany k (a k) (b k)) st E fun _ d s => (d i).length = ns.length ∧ (d i.next).length = ns.length ∧
      PairOk (s i) (s i.next) ∧ (Clean (s i) (s i.next) → Clean (st i) (st i.next) ∧
        ∀ ts, Pairs DotIn ts (((a i).zip (b i)).map fun p => p.1.zip p.2) (((a i.next).zip (b i.next)).map fun p => p.1.zip p.2) →
          Pairs MulRep ts (d i) (d i.next)) := by
  have hz : ∀ k, ((a k).zip (b k)).length = ns.length := fun k => by rw [← hab k]; simp
  generalize hn : ns.length = n at *
  unfold abyDotMany
  refine PWS.bind_eq (fun l => abyDotLoop_eq ((a l).zip (b l)) (st l)) ?_
  refine PWS.bind (PWS.net (PW.exchangeVec ?_ fun z hzl => ?_))
  · simp [hz, draws_length]
  refine PWS.step ?_
  dsimp only
  rw [List.length_map, List.length_zipWith, hz, draws_length, min_self] at hzl
  simp only [if_true, Party.next_ne, if_false, Party.prev_next, hz, dotLoop_cr]
  obtain ⟨A, hAe⟩ : ∃ A : Party → List (List (AShare K × AShare K)), ∀ k, ((a k).zip (b k)).map (fun p => p.1.zip p.2) = A k :=
    ⟨_, fun _ => rfl⟩
  simp only [hAe] at hab ⊢
  have hA : ∀ k, (A k).length = n := fun k => by rw [← hAe, List.length_map, hz]
  have hI' := hI.dots' (draws_pair (L := K) n hI.prf).2
    (gs := ((A i).zip (List.zipWith AShare.mk ((dotCr (A i) (draws K n (st i).prf).1).map (·.1)) z)).zip
      ((dotCr (A i) (draws K n (st i).prf).1).map (·.2)))
    (gs' := ((A i.next).zip (List.zipWith AShare.mk ((dotCr (A i.next) (draws K n (st i.next).prf).1).map (·.1))
      ((dotCr (A i) (draws K n (st i).prf).1).map (·.1)))).zip ((dotCr (A i.next) (draws K n (st i.next).prf).1).map (·.2)))
    (dot_lengths ((hab i).trans (hab i.next).symm) (by simp [dotCr, draws_length, hA, hzl]) (by simp [dotCr, draws_length, hA])
      (by simp [dotCr, draws_length, hA]) (by simp [dotCr, draws_length, hA]))
  refine ⟨by simp [dotCr, hA, draws_length, hzl], by simp [dotCr, hA, draws_length], hI'.1, fun hc => ?_⟩
  obtain ⟨k1, k2⟩ := hI'.2 hc
  refine ⟨k1, fun ts hts => ?_⟩
  have hn : ts.length = n := by rw [← hts.length.1, hA]
  exact dots_rep hts (by rw [draws_length, hn]) (by rw [draws_length, hn]) (by rw [hzl, hn]) (draws_pair n hI.prf).1 k2

/-! ## The operations -/

section Many

variable {mix comb : BitVec L → BitVec L → BitVec L} {jmix : BitVec L → BitVec L → BitVec L → BitVec L}
    {out : S3Share L → S3Share L → S3Share L} {val : Post L → Post L → BitVec L} {R : BitVec L → S3Share L → S3Share L → Prop}

theorem postMany_pws (hA : PostAlg (fun p y => comb (mix (mix p.ya p.zc) p.yb) y) (fun p y => comb (mix (mix p.yb p.zc) p.ya) y)
      jmix out val R) {st : Party → S3St G K} (hI : PairOk (st i) (st i.next)) (ps : Party → List (Post L)) (len : Party → Nat)
    {n : Nat} (hn : ∀ k, len k = n) (hl : ∀ k, (ps k).length = n) {E : List Bytes → Prop} :
    PWS i (fun k => postManyWith mix comb jmix out k (ps k) (len k)) st E fun _ c s =>
      (c i).length = n ∧ (c i.next).length = n ∧ PairOk (s i) (s i.next) ∧ (Clean (s i) (s i.next) → Clean (st i) (st i.next) ∧
        ∀ vs, Pairs (PostRel val) vs (ps i) (ps i.next) → Pairs R vs (c i) (c i.next)) := by
  obtain rfl : len = fun _ => n := funext hn
  refine PW.of_p2 ((postManyWith_p2 hA i hI.prf ps (hl i) (hl i.next)).mono ?_)
  rintro r r' a b ⟨hf, l1, l2, h⟩
  refine ⟨fun k => if k = i then a else b, by simp, by simp [Party.next_ne], ?_⟩
  simp only [if_true, Party.next_ne, if_false]
  exact ⟨l1, l2, hf.ok hI, fun hc => ⟨hf.clean (fun k => (h k).1) hc, (h hc.1).2⟩⟩

end Many

theorem andIn_pairs {xs ys : List (BitVec L)} {a a' b b' : List (S3Share L)} (ha : Pairs S3BinPairOf xs a a')
    (hb : Pairs S3BinPairOf ys b b') (hxy : xs.length = ys.length) :
    ∃ ts, Pairs AndIn ts ((a.map S3Share.toAby).zip (b.map S3Share.toAby)) ((a'.map S3Share.toAby).zip (b'.map S3Share.toAby)) ∧
      ∀ {de de' : List (AShare L)}, Pairs AndRep ts de de' → ∀ {ds ds' : List (BitVec L × BitVec L)}, ds.length = xs.length →
        ds'.length = xs.length → ds.map (·.1) = ds'.map (·.2) →
        Pairs (PostRel valXor) (List.zipWith (· &&& ·) xs ys)
          (List.zipWith (fun (q : AShare L × (S3Share L × S3Share L)) d => andPostVal q.2.1 q.2.2 q.1 d) (de.zip (a.zip b)) ds)
          (List.zipWith (fun (q : AShare L × (S3Share L × S3Share L)) d => andPostVal q.2.1 q.2.2 q.1 d) (de'.zip (a'.zip b')) ds') := by
  induction xs generalizing ys a a' b b' with
  | nil =>
    obtain ⟨rfl, rfl⟩ := ha.nil_left
    refine ⟨[], Pairs.nil, ?_⟩
    intro de de' hd ds ds' _ _ _
    simpa using Pairs.nil
  | cons x xs ih =>
    cases ys with
    | nil => simp at hxy
    | cons y ys =>
      obtain ⟨s, s', t, t', rfl, rfl, h, hs⟩ := ha.uncons
      obtain ⟨r, r', u, u', rfl, rfl, k, ks⟩ := hb.uncons
      obtain ⟨ts, h1, h2⟩ := ih hs ks (by simpa using hxy)
      refine ⟨_ :: ts, Pairs.cons ⟨h.2.2, k.2.2, rfl⟩ h1, ?_⟩
      intro de de' hd ds ds' l1 l2 he
      obtain ⟨e, e', de, de', rfl, rfl, g, gs⟩ := hd.uncons
      obtain ⟨d, ds, rfl⟩ := List.exists_cons_of_length_eq_add_one l1
      obtain ⟨d', ds', rfl⟩ := List.exists_cons_of_length_eq_add_one l2
      simp only [List.map_cons, List.cons.injEq] at he
      exact Pairs.cons (andPostVal_rel h k g he.1) (h2 gs (by simpa using l1) (by simpa using l2) he.2)

theorem andMany_pws (hL : 0 < L) {st : Party → S3St G K} (hI : PairOk (st i) (st i.next)) (a b : Party → List (S3Share L))
    {n : Nat} (ha : ∀ k, (a k).length = n) (hb : ∀ k, (b k).length = n) {E : List Bytes → Prop} :
    PWS i (fun k => Swift3.andMany k (a k) (b k)) st E fun _ c s => (c i).length = n ∧ (c i.next).length = n ∧
      PairOk (s i) (s i.next) ∧ (Clean (s i) (s i.next) → Clean (st i) (st i.next) ∧
        ∀ xs ys, S3BinPairsOf xs (a i) (a i.next) → S3BinPairsOf ys (b i) (b i.next) →
          S3BinPairsOf (List.zipWith (· &&& ·) xs ys) (c i) (c i.next)) := by
  unfold Swift3.andMany
  refine PWS.ite_neg (fun k => by simp [ha, hb]) ?_
  refine PWS.bind ((abyAndMany_pws hL hI (fun k => (a k).map S3Share.toAby) (fun k => (b k).map S3Share.toAby) (n := n)
    (by simp [ha]) (by simp [hb])).ghost ?_)
  rintro m de s ⟨l1, l2, hI1, h1⟩
  refine ⟨fun k => if k = i.next then de i.next else de i, s, by simp [(Party.next_ne i).symm], by simp, rfl, rfl, ?_⟩
  have hde : ∀ k, (if k = i.next then de i.next else de i).length = n := fun k => by split <;> assumption
  unfold andPostMany
  refine PWS.bind_eq (fun l => andPostLoop_eq _ (s l)) ?_
  have hl : ∀ l, ((if l = i.next then de i.next else de i).zip ((a l).zip (b l))).length = n := fun l => by
    rw [List.length_zip, hde, List.length_zip, ha, hb]; simp
  simp only [hl]
  refine PWS.mono (postMany_pws (algXor (fun p y => by xor_ring) fun p y => by xor_ring) (st := fun l => _) (n := n)
    (hI1.draw (draws_pair n hI1.prf).2) _ (fun k => (a k).length) ha (fun k => by simp [ha, hb, hde, draws_length])) ?_
  rintro m' c s' ⟨e1, e2, hI2, h2⟩
  refine ⟨e1, e2, hI2, fun hc => ?_⟩
  obtain ⟨hc1, k2⟩ := h2 hc
  obtain ⟨hc0, k1⟩ := h1 hc1
  refine ⟨hc0, fun xs ys hx hy => k2 _ ?_⟩
  have hxn : xs.length = n := by rw [← (Pairs.length hx).1, ha]
  obtain ⟨ts, g1, g2⟩ := andIn_pairs hx hy (by rw [hxn, ← (Pairs.length hy).1, hb])
  simp only [(Party.next_ne i).symm, if_false, if_true]
  exact g2 (k1 ts g1) (by rw [draws_length, hxn]) (by rw [draws_length, hxn]) (draws_pair n hI1.prf).1

theorem dotIn_pairs {xss yss : List (List (BitVec K))} {a a' b b' : List (List (S3Share K))} (ha : Pairs S3PairsOf xss a a')
    (hb : Pairs S3PairsOf yss b b') (hxy : xss.length = yss.length) :
    ∃ ts, Pairs DotIn ts ((a.zip b).map fun p => abyPairs p.1 p.2) ((a'.zip b').map fun p => abyPairs p.1 p.2) ∧
      ∀ {de de' : List (AShare K)}, Pairs MulRep ts de de' → ∀ {ds ds' : List (BitVec K × BitVec K)}, ds.length = xss.length →
        ds'.length = xss.length → ds.map (·.1) = ds'.map (·.2) →
        Pairs (PostRel valAdd) (List.zipWith innerProd xss yss)
          (List.zipWith (fun (q : AShare K × (List (S3Share K) × List (S3Share K))) d => dotPostVal q.2.1 q.2.2 q.1 d) (de.zip (a.zip b)) ds)
          (List.zipWith (fun (q : AShare K × (List (S3Share K) × List (S3Share K))) d => dotPostVal q.2.1 q.2.2 q.1 d) (de'.zip (a'.zip b')) ds') := by
  induction xss generalizing yss a a' b b' with
  | nil =>
    obtain ⟨rfl, rfl⟩ := ha.nil_left
    refine ⟨[], Pairs.nil, ?_⟩
    intro de de' hd ds ds' _ _ _
    simpa using Pairs.nil
  | cons x xs ih =>
    cases yss with
    | nil => simp at hxy
    | cons y ys =>
      obtain ⟨s, s', t, t', rfl, rfl, h, hs⟩ := ha.uncons
      obtain ⟨r, r', u, u', rfl, rfl, k, ks⟩ := hb.uncons
      obtain ⟨ts, h1, h2⟩ := ih hs ks (by simpa using hxy)
      refine ⟨_ :: ts, Pairs.cons ⟨(pairs_sums h k).1, rfl⟩ h1, ?_⟩
      intro de de' hd ds ds' l1 l2 he
      obtain ⟨e, e', de, de', rfl, rfl, g, gs⟩ := hd.uncons
      obtain ⟨d, ds, rfl⟩ := List.exists_cons_of_length_eq_add_one l1
      obtain ⟨d', ds', rfl⟩ := List.exists_cons_of_length_eq_add_one l2
      simp only [List.map_cons, List.cons.injEq] at he
      exact Pairs.cons (dotPostVal_rel h k g he.1) (h2 gs (by simpa using l1) (by simpa using l2) he.2)

theorem dotMany_zips (a b : List (List (S3Share K))) :
    ((((a.zip b).map fun p => (p.1.zip p.2).map fun q => q.1.toAby).zip
      ((a.zip b).map fun p => (p.1.zip p.2).map fun q => q.2.toAby)).map fun p => p.1.zip p.2) =
    (a.zip b).map fun p => abyPairs p.1 p.2 := by
  rw [List.zip_map', List.map_map]
  refine List.map_congr_left fun p _ => ?_
  simp only [Function.comp_def, List.zip_map', abyPairs]

theorem dotMany_pws {st : Party → S3St G K} (hI : PairOk (st i) (st i.next)) (a b : Party → List (List (S3Share K)))
    {ns ms : List Nat} (ha : ∀ k, (a k).map List.length = ns) (hb : ∀ k, (b k).map List.length = ms)
    (hl : ns.length = ms.length) {E : List Bytes → Prop} :
    PWS i (fun k => Swift3.dotMany k (a k) (b k)) st E fun _ c s => (c i).length = ns.length ∧ (c i.next).length = ns.length ∧
      PairOk (s i) (s i.next) ∧ (Clean (s i) (s i.next) → Clean (st i) (st i.next) ∧
        ∀ xss yss, Pairs S3PairsOf xss (a i) (a i.next) → Pairs S3PairsOf yss (b i) (b i.next) →
          S3PairsOf (List.zipWith innerProd xss yss) (c i) (c i.next)) := by
  have ha' : ∀ k, (a k).length = ns.length := fun k => by rw [← ha k, List.length_map]
  have hb' : ∀ k, (b k).length = ns.length := fun k => by rw [hl, ← hb k, List.length_map]
  have hz : ∀ k, ((a k).zip (b k)).map (fun p => (abyPairs p.1 p.2).length) = List.zipWith min ns ms := by
    intro k
    rw [← ha k, ← hb k, List.zipWith_map, List.zip, List.map_zipWith]
    simp only [abyPairs, List.length_map, List.length_zip]
  have hzl : (List.zipWith min ns ms).length = ns.length := by simp [hl]
  unfold Swift3.dotMany
  refine PWS.ite_neg (fun k => by simp [ha', hb']) ?_
  dsimp only
  refine PWS.bind ((abyDotMany_pws hI _ _ (ns := List.zipWith min ns ms) (fun k => by
    rw [dotMany_zips, List.map_map]; exact hz k)).ghost ?_)
  rintro m de s ⟨l1, l2, hI1, h1⟩
  rw [hzl] at l1 l2
  generalize hn : ns.length = n at *
  refine ⟨fun k => if k = i.next then de i.next else de i, s, by simp [(Party.next_ne i).symm], by simp, rfl, rfl, ?_⟩
  have hde : ∀ k, (if k = i.next then de i.next else de i).length = n := fun k => by split <;> assumption
  unfold dotPostMany
  refine PWS.bind_eq (fun l => dotPostLoop_eq _ (s l)) ?_
  have hl : ∀ l, ((if l = i.next then de i.next else de i).zip ((a l).zip (b l))).length = n := fun l => by
    rw [List.length_zip, hde, List.length_zip, ha', hb']; simp
  simp only [hl]
  refine PWS.mono (postMany_pws (algAdd (fun p y => by ring) fun p y => by ring) (st := fun l => _) (n := n)
    (hI1.draw (draws_pair n hI1.prf).2) _ (fun k => (a k).length) ha' (fun k => by simp [ha', hb', hde, draws_length])) ?_
  rintro m' c s' ⟨e1, e2, hI2, h2⟩
  refine ⟨e1, e2, hI2, fun hc => ?_⟩
  obtain ⟨hc1, k2⟩ := h2 hc
  obtain ⟨hc0, k1⟩ := h1 hc1
  refine ⟨hc0, fun xs ys hx hy => k2 _ ?_⟩
  have hxn : xs.length = n := by rw [← (Pairs.length hx).1, ha']
  obtain ⟨ts, g1, g2⟩ := dotIn_pairs hx hy (by rw [hxn, ← (Pairs.length hy).1, hb'])
  simp only [(Party.next_ne i).symm, if_false, if_true]
  simp only [dotMany_zips] at k1
  exact g2 (k1 ts g1) (by rw [draws_length, hxn]) (by rw [draws_length, hxn]) (draws_pair n hI1.prf).1

end Swift3

end Verif
