import Verif.Proof.Swift3PairReg
import Verif.Proof.PairSpdzBin
import Mathlib.Data.ZMod.Basic
import Mathlib.Tactic.ReduceModChar
import Mathlib.Algebra.CharP.Two

/-! # Swift3 operations with a corrupt party -/

namespace Verif

/-- A bit as a number modulo two. -/
def bz (b : Bool) : ZMod 2 := if b then 1 else 0

theorem bz_inj {x y : Bool} (h : bz x = bz y) : x = y := by revert x y; decide

theorem bz_xor : ∀ x y : Bool, bz (x ^^ y) = bz x + bz y := by decide

theorem bz_and : ∀ x y : Bool, bz (x && y) = bz x * bz y := by decide

theorem bz_zero {L : Nat} (j : Nat) : bz ((0 : BitVec L).getLsbD j) = 0 := by simp [bz]

/-- Equations of exclusive or and conjunction, as equations of polynomials modulo two. -/
macro "xor_ring" : tactic =>
  `(tactic| (apply BitVec.eq_of_getLsbD_eq; intro j _; apply bz_inj
             simp only [BitVec.getLsbD_xor, BitVec.getLsbD_and, bz_xor, bz_and, bz_zero]; ring_nf; try reduce_mod_char))

namespace Swift3

variable {G : Prg} {H : Hash} {K L : Nat} {i : Party}

theorem PostFrame.ok {s s' t t' : S3St G K} (h : PostFrame s s' t t') (hI : PairOk s s') : PairOk t t' where
  prf := h.prf hI.prf
  rcv := h.qlen hI.rcv
  ands := by rw [h.ands.1, h.ands.2]; exact hI.ands
  muls := by rw [h.muls.1, h.muls.2]; exact hI.muls
  dots := by rw [h.dots.1, h.dots.2]; exact hI.dots

theorem PostFrame.clean {s s' t t' : S3St G K} (h : PostFrame s s' t t') (hA : Agree t t' → Agree s s') (hc : Clean t t') :
    Clean s s' := by
  refine ⟨hA hc.1, ?_⟩
  have := hc.2
  unfold WrongGate at this ⊢
  rwa [h.ands.1, h.ands.2, h.muls.1, h.muls.2, h.dots.1, h.dots.2] at this

/-- The parts of a replicated sharing held by the honest parties. -/
def Rep2 (s s' : AShare K) : Prop := s'.b = s.a

/-- New random values, and more gates. -/
theorem PairOk.and {s s' : S3St G K} (h : PairOk s s') (hK : 0 < L) {p p' : S3Prf G} (hp : PairPrf p p')
    (a b r t a' b' r' t' : AShare L) :
    PairOk { s with prf := p, andProof := s.andProof.registerAnd a b r t }
      { s' with prf := p', andProof := s'.andProof.registerAnd a' b' r' t' } ∧
    (Clean { s with prf := p, andProof := s.andProof.registerAnd a b r t }
      { s' with prf := p', andProof := s'.andProof.registerAnd a' b' r' t' } → Clean s s' ∧ t.b = AndComp a a' b b' r r') := by
  obtain ⟨n, hn⟩ := h.ands
  obtain ⟨h1, h2⟩ := registerAnd_pair hK hn a b r t a' b' r' t'
  refine ⟨⟨hp, h.rcv, ⟨_, h1⟩, h.muls, h.dots⟩, fun hc => ?_⟩
  obtain ⟨k1, k2⟩ := h2 fun q hq => hc.2 (.inl ⟨q, hq⟩)
  refine ⟨⟨hc.1, ?_⟩, k2⟩
  rintro (⟨q, hq⟩ | hq)
  · exact k1 q hq
  · exact hc.2 (.inr hq)

theorem PairOk.mul {s s' : S3St G K} (h : PairOk s s') {p p' : S3Prf G} (hp : PairPrf p p')
    (a b r t a' b' r' t' : AShare K) :
    PairOk { s with prf := p, mulProof := s.mulProof.registerMul a b r t }
      { s' with prf := p', mulProof := s'.mulProof.registerMul a' b' r' t' } ∧
    (Clean { s with prf := p, mulProof := s.mulProof.registerMul a b r t }
      { s' with prf := p', mulProof := s'.mulProof.registerMul a' b' r' t' } → Clean s s' ∧ t.b = MulComp a a' b b' r r') := by
  obtain ⟨n, hn⟩ := h.muls
  obtain ⟨h1, h2⟩ := registerMul_pair hn a b r t a' b' r' t'
  refine ⟨⟨hp, h.rcv, h.ands, ⟨_, h1⟩, h.dots⟩, fun hc => ?_⟩
  obtain ⟨k1, k2⟩ := h2 fun q hq => hc.2 (.inr (.inl ⟨q, hq⟩))
  refine ⟨⟨hc.1, ?_⟩, k2⟩
  rintro (hq | ⟨q, hq⟩ | hq)
  · exact hc.2 (.inl hq)
  · exact k1 q hq
  · exact hc.2 (.inr (.inr hq))

theorem PairOk.dot {s s' : S3St G K} (h : PairOk s s') {p p' : S3Prf G} (hp : PairPrf p p')
    {ps ps' : List (AShare K × AShare K)} (hl : ps'.length = ps.length) (r t r' t' : AShare K) :
    PairOk { s with prf := p, dotProof := s.dotProof.registerDot ps r t }
      { s' with prf := p', dotProof := s'.dotProof.registerDot ps' r' t' } ∧
    (Clean { s with prf := p, dotProof := s.dotProof.registerDot ps r t }
      { s' with prf := p', dotProof := s'.dotProof.registerDot ps' r' t' } → Clean s s' ∧ t.b = DotComp ps ps' r r') := by
  obtain ⟨n, hn⟩ := h.dots
  obtain ⟨h1, h2⟩ := registerDot_pair hn ps ps' hl r t r' t'
  refine ⟨⟨hp, h.rcv, h.ands, h.muls, ⟨_, h1⟩⟩, fun hc => ?_⟩
  obtain ⟨k1, k2⟩ := h2 fun q hq => hc.2 (.inr (.inr ⟨q, hq⟩))
  refine ⟨⟨hc.1, ?_⟩, k2⟩
  rintro (hq | hq | ⟨q, hq⟩)
  · exact hc.2 (.inl hq)
  · exact hc.2 (.inr (.inl hq))
  · exact k1 q hq

/-- Only the generators have changed. -/
theorem PairOk.draw {s s' : S3St G K} (h : PairOk s s') {p p' : S3Prf G} (hp : PairPrf p p') :
    PairOk { s with prf := p } { s' with prf := p' } := ⟨hp, h.rcv, h.ands, h.muls, h.dots⟩

/-- The shares of the product of the masks. -/
def AndRep (t : BitVec L) (d d' : AShare L) : Prop := d'.b = d.a ∧ d.a ^^^ d.b ^^^ d'.a = t
def MulRep (t : BitVec L) (d d' : AShare L) : Prop := d'.b = d.a ∧ d.a + d.b + d'.a = t

theorem PairPrf.gen12 {p p' : S3Prf G} (h : PairPrf p p') (L : Nat) :
    PairPrf { p with p1 := (G.gen L p.p1).2, p2 := (G.gen L p.p2).2 } { p' with p1 := (G.gen L p'.p1).2, p2 := (G.gen L p'.p2).2 } :=
  ⟨by simp only [h.1], h.2⟩

theorem abyAnd_pws (hL : 0 < L) {st : Party → S3St G K} (hI : PairOk (st i) (st i.next)) (a b : Party → AShare L)
    {E : List Bytes → Prop} :
    PWS i (fun k => abyAnd k (a k) (b k)) st E fun _ d s => PairOk (s i) (s i.next) ∧ (Clean (s i) (s i.next) →
      Clean (st i) (st i.next) ∧ ((a i.next).b = (a i).a → (b i.next).b = (b i).a →
        AndRep (((a i).a ^^^ (a i).b ^^^ (a i.next).a) &&& ((b i).a ^^^ (b i).b ^^^ (b i.next).a)) (d i) (d i.next))) := by
  unfold abyAnd
  refine PWS.bind_eq (fun l => genForZeroShare_eq (st l)) ?_
  refine PWS.bind (PWS.net (PW.exchangeValue fun z => ?_))
  refine PWS.step ?_
  dsimp only
  simp only [if_true, Party.next_ne, if_false, Party.prev_next]
  obtain ⟨h1, h2⟩ := hI.and hL (hI.prf.gen12 L) (a i) (b i) ⟨(G.gen L (st i).prf.p1).1, (G.gen L (st i).prf.p2).1⟩ ⟨_, z⟩
    (a i.next) (b i.next) ⟨(G.gen L (st i.next).prf.p1).1, (G.gen L (st i.next).prf.p2).1⟩ ⟨_, _⟩
  refine ⟨h1, fun hc => ?_⟩
  obtain ⟨h3, h4⟩ := h2 hc
  refine ⟨h3, fun ea eb => ⟨rfl, ?_⟩⟩
  simp only at h4 ⊢
  rw [h4]
  simp only [AndComp, AShare.andLocal, ea, eb, ← hI.prf.1]
  xor_ring

theorem abyMul_pws {st : Party → S3St G K} (hI : PairOk (st i) (st i.next)) (a b : Party → AShare K)
    {E : List Bytes → Prop} :
    PWS i (fun k => abyMul k (a k) (b k)) st E fun _ d s => PairOk (s i) (s i.next) ∧ (Clean (s i) (s i.next) →
      Clean (st i) (st i.next) ∧ ((a i.next).b = (a i).a → (b i.next).b = (b i).a →
        MulRep (((a i).a + (a i).b + (a i.next).a) * ((b i).a + (b i).b + (b i.next).a)) (d i) (d i.next))) := by
  unfold abyMul
  refine PWS.bind_eq (fun l => genForZeroShare_eq (st l)) ?_
  refine PWS.bind (PWS.net (PW.exchangeValue fun z => ?_))
  refine PWS.step ?_
  dsimp only
  simp only [if_true, Party.next_ne, if_false, Party.prev_next]
  obtain ⟨h1, h2⟩ := hI.mul (hI.prf.gen12 K) (a i) (b i) ⟨(G.gen K (st i).prf.p1).1, (G.gen K (st i).prf.p2).1⟩ ⟨_, z⟩
    (a i.next) (b i.next) ⟨(G.gen K (st i.next).prf.p1).1, (G.gen K (st i.next).prf.p2).1⟩ ⟨_, _⟩
  refine ⟨h1, fun hc => ?_⟩
  obtain ⟨h3, h4⟩ := h2 hc
  refine ⟨h3, fun ea eb => ⟨rfl, ?_⟩⟩
  simp only at h4 ⊢
  rw [h4]
  simp only [MulComp, AShare.mulLocal, ea, eb, ← hI.prf.1]
  ring

/-! ## The algebra of the exchanges -/

/-- The values of the two honest parties together. -/
def valAdd (p p' : Post L) : BitVec L := p.ya + p.yb + p'.ya + p.zc + p.r1 + p.r2 + p'.r1
def valXor (p p' : Post L) : BitVec L := p.ya ^^^ p.yb ^^^ p'.ya ^^^ p.zc ^^^ p.r1 ^^^ p.r2 ^^^ p'.r1

theorem algAdd {tot1 tot2 : Post L → BitVec L → BitVec L} (h1 : ∀ p y, tot1 p y = p.ya + p.yb + p.zc + y)
    (h2 : ∀ p y, tot2 p y = p.ya + p.yb + p.zc + y) : PostAlg tot1 tot2 mixAdd S3Share.sub valAdd S3PairOf where
  h01 v p p' α1 αp h := by
    obtain ⟨e1, e2, e3, rfl⟩ := h
    refine ⟨?_, rfl, ?_⟩
    · simp only [S3Share.sub, mixAdd, h1, valAdd, e1, e2]; ring
    · simp only [S3Share.sub, e3]
  h12 v p p' α1 αp h := by
    obtain ⟨e1, e2, e3, rfl⟩ := h
    refine ⟨?_, ?_, ?_⟩
    · simp only [S3Share.sub, mixAdd, h1, valAdd, e1, e2]; ring
    · simp only [S3Share.sub, mixAdd, h1, h2, e1, e2]; ring
    · simp only [S3Share.sub, e3]
  h20 v p p' α1 αp h := by
    obtain ⟨e1, e2, e3, rfl⟩ := h
    refine ⟨?_, rfl, ?_⟩
    · simp only [S3Share.sub, mixAdd, h2, valAdd, e1, e2]; ring
    · simp only [S3Share.sub, e3]

theorem algXor {tot1 tot2 : Post L → BitVec L → BitVec L} (h1 : ∀ p y, tot1 p y = p.ya ^^^ p.yb ^^^ p.zc ^^^ y)
    (h2 : ∀ p y, tot2 p y = p.ya ^^^ p.yb ^^^ p.zc ^^^ y) : PostAlg tot1 tot2 mixXor S3Share.xor valXor S3BinPairOf where
  h01 v p p' α1 αp h := by
    obtain ⟨e1, e2, e3, rfl⟩ := h
    refine ⟨?_, rfl, ?_⟩
    · simp only [S3Share.xor, mixXor, h1, valXor, e1, e2]; xor_ring
    · simp only [S3Share.xor, e3]
  h12 v p p' α1 αp h := by
    obtain ⟨e1, e2, e3, rfl⟩ := h
    refine ⟨?_, ?_, ?_⟩
    · simp only [S3Share.xor, mixXor, h1, valXor, e1, e2]; xor_ring
    · simp only [S3Share.xor, mixXor, h1, h2, e1, e2]; xor_ring
    · simp only [S3Share.xor, e3]
  h20 v p p' α1 αp h := by
    obtain ⟨e1, e2, e3, rfl⟩ := h
    refine ⟨?_, rfl, ?_⟩
    · simp only [S3Share.xor, mixXor, h2, valXor, e1, e2]; xor_ring
    · simp only [S3Share.xor, e3]

theorem andPostVal_rel {x y : BitVec L} {a a' b b' : S3Share L} (ha : S3BinPairOf x a a') (hb : S3BinPairOf y b b')
    {de de' : AShare L} (hd : AndRep ((a.a ^^^ a.b ^^^ a'.a) &&& (b.a ^^^ b.b ^^^ b'.a)) de de') {d d' : BitVec L × BitVec L}
    (he : d.1 = d'.2) : PostRel valXor (x &&& y) (andPostVal a b de d) (andPostVal a' b' de' d') := by
  obtain ⟨a1, a2, a3⟩ := ha
  obtain ⟨b1, b2, b3⟩ := hb
  obtain ⟨d1, d2⟩ := hd
  have ex : x = a.c ^^^ (a.a ^^^ a.b ^^^ a'.a) := by rw [a1]; xor_ring
  have ey : y = b.c ^^^ (b.a ^^^ b.b ^^^ b'.a) := by rw [b1]; xor_ring
  refine ⟨?_, ?_, he, ?_⟩
  · simp only [andPostVal, a2, b2, a3, b3, d1, he]
  · simp only [andPostVal, a2, b2]
  · have e : x &&& y = (a.c &&& b.c) ^^^ (a.c &&& (b.a ^^^ b.b ^^^ b'.a)) ^^^ (b.c &&& (a.a ^^^ a.b ^^^ a'.a)) ^^^
        (de.a ^^^ de.b ^^^ de'.a) := by
      rw [d2, ex, ey]; xor_ring
    rw [e]
    simp only [valXor, andPostVal, a2, b2]
    xor_ring

theorem mulPostVal_rel {x y : BitVec K} {a a' b b' : S3Share K} (ha : S3PairOf x a a') (hb : S3PairOf y b b')
    {de de' : AShare K} (hd : MulRep ((a.a + a.b + a'.a) * (b.a + b.b + b'.a)) de de') {d d' : BitVec K × BitVec K}
    (he : d.1 = d'.2) : PostRel valAdd (x * y) (mulPostVal a b de d) (mulPostVal a' b' de' d') := by
  obtain ⟨a1, a2, a3⟩ := ha
  obtain ⟨b1, b2, b3⟩ := hb
  obtain ⟨d1, d2⟩ := hd
  have ex : x = a.c - (a.a + a.b + a'.a) := by rw [a1]; ring
  have ey : y = b.c - (b.a + b.b + b'.a) := by rw [b1]; ring
  refine ⟨?_, ?_, he, ?_⟩
  · simp only [mulPostVal, a2, b2, a3, b3, d1, he]
  · simp only [mulPostVal, a2, b2]
  · simp only [valAdd, mulPostVal, a2, b2, ex, ey]
    linear_combination d2

/-! ## Dot products -/

/-- The sum of the products of the masks. -/
def maskDot (ps ps' : List (AShare K × AShare K)) : BitVec K :=
  (List.zipWith (fun p p' : AShare K × AShare K => (p.1.a + p.1.b + p'.1.a) * (p.2.a + p.2.b + p'.2.a)) ps ps').sum

/-- The two parties agree on the mask both know. -/
def RepPairs (ps ps' : List (AShare K × AShare K)) : Prop :=
  List.Forall₂ (fun p p' : AShare K × AShare K => p'.1.b = p.1.a ∧ p'.2.b = p.2.a) ps ps'

theorem maskDot_eq {ps ps' : List (AShare K × AShare K)} (h : RepPairs ps ps') :
    maskDot ps ps' = (ps.map fun p => (p.1.mulLocal p.2).a).sum + (ps'.map fun p => (p.1.mulLocal p.2).a).sum +
      (innerProd (ps.map (·.1.b)) (ps.map (·.2.b)) + innerProd (ps.map (·.1.b)) (ps'.map (·.2.a)) +
        innerProd (ps'.map (·.1.a)) (ps.map (·.2.b))) := by
  unfold maskDot innerProd
  induction h with
  | nil => simp
  | @cons p p' ps ps' h hs ih =>
    simp only [List.zipWith_cons_cons, List.map_cons, List.sum_cons, ih, AShare.mulLocal, h.1, h.2]
    ring

theorem dot_rep {ps ps' : List (AShare K × AShare K)} (h : RepPairs ps ps') {r r' : AShare K} (hr : r'.b = r.a)
    {z : BitVec K} (hz : z = DotComp ps ps' r r') :
    MulRep (maskDot ps ps') ⟨Aby3.dotAcc (r.a - r.b) ps, z⟩ ⟨Aby3.dotAcc (r'.a - r'.b) ps', Aby3.dotAcc (r.a - r.b) ps⟩ := by
  refine ⟨rfl, ?_⟩
  simp only [hz, DotComp, dotAcc_eq, maskDot_eq h, hr]
  ring

theorem abyDot_pws {st : Party → S3St G K} (hI : PairOk (st i) (st i.next)) (a b : Party → List (AShare K))
    (hl : ((a i.next).zip (b i.next)).length = ((a i).zip (b i)).length) {E : List Bytes → Prop} :
    PWS i (fun k => abyDot k (a k) (b k)) st E fun _ d s => PairOk (s i) (s i.next) ∧ (Clean (s i) (s i.next) →
      Clean (st i) (st i.next) ∧ (RepPairs ((a i).zip (b i)) ((a i.next).zip (b i.next)) →
        MulRep (maskDot ((a i).zip (b i)) ((a i.next).zip (b i.next))) (d i) (d i.next))) := by
  unfold abyDot
  refine PWS.bind_eq (fun l => genForZeroShare_eq (st l)) ?_
  refine PWS.bind (PWS.net (PW.exchangeValue fun z => ?_))
  refine PWS.step ?_
  dsimp only
  simp only [if_true, Party.next_ne, if_false, Party.prev_next]
  obtain ⟨h1, h2⟩ := hI.dot (hI.prf.gen12 K) hl ⟨(G.gen K (st i).prf.p1).1, (G.gen K (st i).prf.p2).1⟩ ⟨_, z⟩
    ⟨(G.gen K (st i.next).prf.p1).1, (G.gen K (st i.next).prf.p2).1⟩ ⟨_, _⟩
  refine ⟨h1, fun hc => ?_⟩
  obtain ⟨h3, h4⟩ := h2 hc
  exact ⟨h3, fun hr => dot_rep hr (by simp only [hI.prf.1]) h4⟩

theorem dotPostAcc_eq (acc : BitVec K × BitVec K × BitVec K) (l : List (S3Share K × S3Share K)) :
    dotPostAcc acc l = (acc.1 - (l.map fun p => p.1.a * p.2.c + p.2.a * p.1.c).sum,
      acc.2.1 - (l.map fun p => p.1.b * p.2.c + p.2.b * p.1.c).sum, acc.2.2 + (l.map fun p => p.1.c * p.2.c).sum) := by
  induction l generalizing acc with
  | nil => simp [dotPostAcc]
  | cons p l ih =>
    have := ih (acc.1 - (p.1.a * p.2.c + p.2.a * p.1.c), acc.2.1 - (p.1.b * p.2.c + p.2.b * p.1.c), acc.2.2 + p.1.c * p.2.c)
    simp only [dotPostAcc, List.foldl_cons, List.map_cons, List.sum_cons] at this ⊢
    rw [this]
    refine Prod.ext ?_ (Prod.ext ?_ ?_) <;> simp only <;> ring

/-- The masks of two shared vectors. -/
def abyPairs (a b : List (S3Share K)) : List (AShare K × AShare K) := (a.zip b).map fun p => (p.1.toAby, p.2.toAby)

theorem abyPairs_eq (a b : List (S3Share K)) : (a.map S3Share.toAby).zip (b.map S3Share.toAby) = abyPairs a b := by
  unfold abyPairs
  induction a generalizing b with
  | nil => rfl
  | cons x a ih => cases b with
    | nil => rfl
    | cons y b => simp [ih]

theorem pairs_sums {xs ys : List (BitVec K)} {a a' b b' : List (S3Share K)} (ha : Pairs S3PairOf xs a a')
    (hb : Pairs S3PairOf ys b b') :
    RepPairs (abyPairs a b) (abyPairs a' b') ∧
    ((a.zip b).map fun p => p.1.a * p.2.c + p.2.a * p.1.c).sum = ((a'.zip b').map fun p => p.1.b * p.2.c + p.2.b * p.1.c).sum ∧
    ((a.zip b).map fun p => p.1.c * p.2.c).sum = ((a'.zip b').map fun p => p.1.c * p.2.c).sum ∧
    innerProd xs ys = ((a.zip b).map fun p => p.1.c * p.2.c).sum
      - ((a.zip b).map fun p => p.1.a * p.2.c + p.2.a * p.1.c).sum - ((a.zip b).map fun p => p.1.b * p.2.c + p.2.b * p.1.c).sum
      - ((a'.zip b').map fun p => p.1.a * p.2.c + p.2.a * p.1.c).sum + maskDot (abyPairs a b) (abyPairs a' b') := by
  unfold innerProd maskDot abyPairs
  induction xs generalizing ys a a' b b' with
  | nil =>
    obtain ⟨rfl, rfl⟩ := ha.nil_left
    exact ⟨.nil, rfl, rfl, by simp⟩
  | cons x xs ih =>
    obtain ⟨s, s', t, t', rfl, rfl, h, hs⟩ := ha.uncons
    cases ys with
    | nil =>
      obtain ⟨rfl, rfl⟩ := hb.nil_left
      exact ⟨.nil, rfl, rfl, by simp⟩
    | cons y ys =>
      obtain ⟨r, r', u, u', rfl, rfl, k, ks⟩ := hb.uncons
      obtain ⟨i1, i2, i3, i4⟩ := ih hs ks
      obtain ⟨a1, a2, a3⟩ := h
      obtain ⟨b1, b2, b3⟩ := k
      refine ⟨.cons ⟨a3, b3⟩ i1, ?_, ?_, ?_⟩
      · simp only [List.zip_cons_cons, List.map_cons, List.sum_cons, i2, a2, b2, a3, b3]
      · simp only [List.zip_cons_cons, List.map_cons, List.sum_cons, i3, a2, b2]
      · have ex : x = s.c - (s.a + s.b + s'.a) := by rw [a1]; ring
        have ey : y = r.c - (r.a + r.b + r'.a) := by rw [b1]; ring
        simp only [List.zip_cons_cons, List.map_cons, List.sum_cons, List.zipWith_cons_cons, i4, a2, b2, ex, ey, S3Share.toAby]
        ring

theorem dotPostVal_rel {xs ys : List (BitVec K)} {a a' b b' : List (S3Share K)} (ha : Pairs S3PairOf xs a a')
    (hb : Pairs S3PairOf ys b b') {de de' : AShare K} (hd : MulRep (maskDot (abyPairs a b) (abyPairs a' b')) de de')
    {d d' : BitVec K × BitVec K} (he : d.1 = d'.2) :
    PostRel valAdd (innerProd xs ys) (dotPostVal a b de d) (dotPostVal a' b' de' d') := by
  obtain ⟨-, i2, i3, i4⟩ := pairs_sums ha hb
  obtain ⟨d1, d2⟩ := hd
  refine ⟨?_, ?_, he, ?_⟩
  · simp only [dotPostVal, dotPostAcc_eq, d1, he, i2]
  · simp only [dotPostVal, dotPostAcc_eq, i3]
  · simp only [valAdd, dotPostVal, dotPostAcc_eq, i4]
    linear_combination d2

/-! ## One gate -/

section One

variable {tot1 tot2 : Post L → BitVec L → BitVec L} {jmix : BitVec L → BitVec L → BitVec L → BitVec L}
    {out : S3Share L → S3Share L → S3Share L} {val : Post L → Post L → BitVec L} {R : BitVec L → S3Share L → S3Share L → Prop}

theorem post_pws (hA : PostAlg tot1 tot2 jmix out val R) {st : Party → S3St G K} (hI : PairOk (st i) (st i.next))
    (p : Party → Post L) {E : List Bytes → Prop} :
    PWS i (fun k => postWith tot1 tot2 jmix out k (p k)) st E fun _ c s => PairOk (s i) (s i.next) ∧
      (Clean (s i) (s i.next) → Clean (st i) (st i.next) ∧ ∀ v, PostRel val v (p i) (p i.next) → R v (c i) (c i.next)) := by
  refine PW.of_p2 ((postWith_p2 hA i hI.prf p).mono ?_)
  rintro r r' a b ⟨hf, h⟩
  refine ⟨fun k => if k = i then a else b, by simp, by simp [Party.next_ne], ?_⟩
  simp only [if_true, Party.next_ne, if_false]
  exact ⟨hf.ok hI, fun hc => ⟨hf.clean (fun k => (h k).1) hc, (h hc.1).2⟩⟩

end One

theorem postBinary_eq : (postBinary : Party → Post L → Proto (S3St G K) (S3Share L)) =
    postWith (fun p y3 => p.yb ^^^ p.ya ^^^ y3 ^^^ p.zc) (fun p y1 => y1 ^^^ p.yb ^^^ p.ya ^^^ p.zc) mixXor S3Share.xor := rfl

theorem postArith_eq : (postArith : Party → Post K → Proto (S3St G K) (S3Share K)) =
    postWith (fun p y3 => p.yb + p.ya + y3 + p.zc) (fun p y1 => y1 + p.yb + p.ya + p.zc) mixAdd S3Share.sub := rfl

theorem and_pws (hL : 0 < L) {st : Party → S3St G K} (hI : PairOk (st i) (st i.next)) (a b : Party → S3Share L)
    {E : List Bytes → Prop} :
    PWS i (fun k => Swift3.and k (a k) (b k)) st E fun _ c s => PairOk (s i) (s i.next) ∧ (Clean (s i) (s i.next) →
      Clean (st i) (st i.next) ∧ ∀ x y, S3BinPairOf x (a i) (a i.next) → S3BinPairOf y (b i) (b i.next) →
        S3BinPairOf (x &&& y) (c i) (c i.next)) := by
  unfold Swift3.and
  refine PWS.bind ((abyAnd_pws hL hI _ _).mono ?_)
  rintro m de s ⟨hI1, h1⟩
  unfold andPost
  refine PWS.bind_eq (fun l => andPostLocal_eq (a l) (b l) (de l) (s l)) ?_
  rw [postBinary_eq]
  refine PWS.mono (post_pws (algXor (fun p y => by xor_ring) fun p y => by xor_ring) (st := fun l => _)
    (hI1.draw (hI1.prf.gen12 L)) (fun l => andPostVal (a l) (b l) (de l) _)) ?_
  rintro m' c s' ⟨hI2, h2⟩
  refine ⟨hI2, fun hc => ?_⟩
  obtain ⟨hc1, k2⟩ := h2 hc
  obtain ⟨hc0, k1⟩ := h1 hc1
  exact ⟨hc0, fun x y hx hy => k2 _ (andPostVal_rel hx hy (k1 hx.2.2 hy.2.2) (by simp only [hI1.prf.1]))⟩

theorem mul_pws {st : Party → S3St G K} (hI : PairOk (st i) (st i.next)) (a b : Party → S3Share K)
    {E : List Bytes → Prop} :
    PWS i (fun k => Swift3.mul k (a k) (b k)) st E fun _ c s => PairOk (s i) (s i.next) ∧ (Clean (s i) (s i.next) →
      Clean (st i) (st i.next) ∧ ∀ x y, S3PairOf x (a i) (a i.next) → S3PairOf y (b i) (b i.next) →
        S3PairOf (x * y) (c i) (c i.next)) := by
  unfold Swift3.mul
  refine PWS.bind ((abyMul_pws hI _ _).mono ?_)
  rintro m de s ⟨hI1, h1⟩
  unfold mulPost
  refine PWS.bind_eq (fun l => mulPostLocal_eq (a l) (b l) (de l) (s l)) ?_
  rw [postArith_eq]
  refine PWS.mono (post_pws (algAdd (fun p y => by ring) fun p y => by ring) (st := fun l => _)
    (hI1.draw (hI1.prf.gen12 K)) (fun l => mulPostVal (a l) (b l) (de l) _)) ?_
  rintro m' c s' ⟨hI2, h2⟩
  refine ⟨hI2, fun hc => ?_⟩
  obtain ⟨hc1, k2⟩ := h2 hc
  obtain ⟨hc0, k1⟩ := h1 hc1
  exact ⟨hc0, fun x y hx hy => k2 _ (mulPostVal_rel hx hy (k1 hx.2.2 hy.2.2) (by simp only [hI1.prf.1]))⟩

theorem dot_pws {st : Party → S3St G K} (hI : PairOk (st i) (st i.next)) (a b : Party → List (S3Share K)) {n : Nat}
    (ha : ∀ k, (a k).length = n) (hb : ∀ k, (b k).length = n) {E : List Bytes → Prop} :
    PWS i (fun k => Swift3.dot k (a k) (b k)) st E fun _ c s => PairOk (s i) (s i.next) ∧ (Clean (s i) (s i.next) →
      Clean (st i) (st i.next) ∧ ∀ xs ys, S3PairsOf xs (a i) (a i.next) → S3PairsOf ys (b i) (b i.next) →
        S3PairOf (innerProd xs ys) (c i) (c i.next)) := by
  unfold Swift3.dot
  refine PWS.ite_neg (fun k => by simp [ha, hb]) ?_
  refine PWS.bind ((abyDot_pws hI (fun k => (a k).map S3Share.toAby) (fun k => (b k).map S3Share.toAby) (by simp [ha, hb])).mono ?_)
  rintro m de s ⟨hI1, h1⟩
  unfold dotPost
  refine PWS.bind_eq (fun l => dotPostLocal_eq (a l) (b l) (de l) (s l)) ?_
  rw [postArith_eq]
  refine PWS.mono (post_pws (algAdd (fun p y => by ring) fun p y => by ring) (st := fun l => _)
    (hI1.draw (hI1.prf.gen12 K)) (fun l => dotPostVal (a l) (b l) (de l) _)) ?_
  rintro m' c s' ⟨hI2, h2⟩
  refine ⟨hI2, fun hc => ?_⟩
  obtain ⟨hc1, k2⟩ := h2 hc
  obtain ⟨hc0, k1⟩ := h1 hc1
  simp only [abyPairs_eq] at k1
  exact ⟨hc0, fun xs ys hx hy => k2 _ (dotPostVal_rel hx hy (k1 (pairs_sums hx hy).1) (by simp only [hI1.prf.1]))⟩

end Swift3

end Verif
