import Verif.Proof.Swift3Net
import Mathlib.Tactic.LinearCombination

/-! # Swift3: from the products of the masks to shares of the product -/

namespace Verif

variable {G : Prg} {K L : Nat}

namespace Swift3

variable {st : Party → S3St G K} {u v : Nat} {w : DotCount}

/-- What joint sharing yields: the masks `α1`, `αp`, `αp`. -/
def JShared (mix : BitVec L → BitVec L → BitVec L → BitVec L) (x : BitVec L) (s : Party → S3Share L) : Prop :=
  ∃ a p, s 0 = ⟨p, p, mix a p x⟩ ∧ s 1 = ⟨a, p, mix a p x⟩ ∧ s 2 = ⟨p, a, mix a p x⟩

theorem JShared.add {x : BitVec L} {s : Party → S3Share L} (h : JShared mixAdd x s) : S3SharesOf x s := by
  obtain ⟨a, p, h0, h1, h2⟩ := h
  refine .mk' ?_ ?_ ?_ ?_ ?_ ?_ <;> simp only [h0, h1, h2, mixAdd] <;> ring

theorem JShared.xor {x : BitVec L} {s : Party → S3Share L} (h : JShared mixXor x s) : S3BinSharesOf x s := by
  obtain ⟨a, p, h0, h1, h2⟩ := h
  refine .mk' ?_ ?_ ?_ ?_ ?_ ?_ <;> simp only [h0, h1, h2, mixXor] <;> bitwise

theorem prfs (h : S3Ok u v w st) : (st 2).prf.p2 = (st 1).prf.p1 ∧ (st 1).prf.pp = (st 0).prf.pp ∧
    (st 2).prf.pp = (st 0).prf.pp := ⟨(h.prf.1 1).symm, h.prf.2 1 0, h.prf.2 2 0⟩

theorem queues (h : S3QueuesOk st) : (st 0).rcvQPrev = (st 2).sendQNext ∧ (st 1).rcvQPrev = (st 0).sendQNext ∧
    (st 2).rcvQPrev = (st 1).sendQNext ∧ (st 0).rcvQNext = (st 1).sendQPrev ∧ (st 1).rcvQNext = (st 2).sendQPrev ∧
    (st 2).rcvQNext = (st 0).sendQPrev := ⟨h.1 0, h.1 1, h.1 2, h.2 0, h.2 1, h.2 2⟩

theorem queues_mk (h0 : (st 0).rcvQPrev = (st 2).sendQNext) (h1 : (st 1).rcvQPrev = (st 0).sendQNext)
    (h2 : (st 2).rcvQPrev = (st 1).sendQNext) (h3 : (st 0).rcvQNext = (st 1).sendQPrev)
    (h4 : (st 1).rcvQNext = (st 2).sendQPrev) (h5 : (st 2).rcvQNext = (st 0).sendQPrev) : S3QueuesOk st :=
  ⟨forall_party.2 ⟨h0, h1, h2⟩, forall_party.2 ⟨h3, h4, h5⟩⟩

theorem prf_mk {p : Party → S3Prf G} (h0 : (p 0).p1 = (p 1).p2) (h1 : (p 1).p1 = (p 2).p2) (h2 : (p 2).p1 = (p 0).p2)
    (h3 : (p 1).pp = (p 0).pp) (h4 : (p 2).pp = (p 0).pp) : S3PrfOk p := by
  refine ⟨forall_party.2 ⟨h0, h1, h2⟩, ?_⟩
  have : ∀ i, (p i).pp = (p 0).pp := forall_party.2 ⟨rfl, h3, h4⟩
  intro i j; rw [this i, this j]

theorem jshareWith_wp (mix : BitVec L → BitVec L → BitVec L → BitVec L) {x : BitVec L} {inp : Party → Option (BitVec L)}
    (h1 : inp 1 = some x) (h2 : inp 2 = some x) (hI : S3Ok u v w st) :
    WPS (fun i => jshareWith mix i (inp i) 1 2 0) st (fun s st' => JShared mix x s ∧ S3Ok u v w st') := by
  obtain ⟨p1, p2, p3⟩ := prfs hI
  obtain ⟨q1, q2, q3, q4, q5, q6⟩ := queues hI.queues
  apply WPS.of3
  have e0 : ∀ (s : S3St G K) inp, jshareWith mix 0 inp 1 2 0 s = (do
      let alphaP ← genP L
      let beta ← jmpReceive L 0 1
      pure ⟨alphaP, alphaP, beta⟩ : Proto (S3St G K) (S3Share L)) s := fun s inp => rfl
  have e1 : ∀ (s : S3St G K), jshareWith mix 1 (some x) 1 2 0 s = (do
      let alphaP ← genP L
      let alpha1 ← gen1 L
      jmpSend 1 (mix alpha1 alphaP x) 0
      pure ⟨alpha1, alphaP, mix alpha1 alphaP x⟩ : Proto (S3St G K) (S3Share L)) s := fun s => rfl
  have e2 : ∀ (s : S3St G K), jshareWith mix 2 (some x) 1 2 0 s = (do
      let alphaP ← genP L
      let alpha1 ← gen2 L
      jmpQueue 2 (mix alpha1 alphaP x) 0
      pure ⟨alphaP, alpha1, mix alpha1 alphaP x⟩ : Proto (S3St G K) (S3Share L)) s := fun s => rfl
  simp only [e0, e1, e2, h1, h2]
  s3_norm [genP, gen1, gen2]
  run3
  s3_norm []
  refine R3.done fun r k0 k1 k2 => ⟨⟨(G.gen L (st 1).prf.p1).1, (G.gen L (st 0).prf.pp).1, ?_, ?_, ?_⟩,
    ok_update hI ?_ ?_ ?_ ?_ ?_⟩
  · simp only [k0, p2]
  · simp only [k1, p2]
  · simp only [k2, p3, p1]
  · exact prf_mk (by simp [k0, k1, hI.prf.1 0]) (by simp [k1, k2, hI.prf.1 1]) (by simp [k0, k2, hI.prf.1 2])
      (by simp [k0, k1, p2]) (by simp [k0, k2, p3])
  · exact queues_mk (by simp [k0, k2, q1, p1, p2, p3]) (by simp [k0, k1, q2]) (by simp [k1, k2, q3]) (by simp [k0, k1, q4])
      (by simp [k1, k2, q5]) (by simp [k0, k2, q6])
  all_goals exact forall_party.2 ⟨by simp [k0], by simp [k1], by simp [k2]⟩


/-- What the parties hold before the exchange: replicated `y`, replicated `r`, the same `z`. -/
def PostOk (p : Party → Post L) : Prop :=
  (∀ i, (p i).yb = (p (Party.prev i)).ya) ∧ (∀ i, (p i).r2 = (p (Party.prev i)).r1) ∧ ∀ i, (p i).zc = (p 0).zc

theorem PostOk.eqs {p : Party → Post L} (h : PostOk p) : ((p 0).yb = (p 2).ya ∧ (p 1).yb = (p 0).ya ∧ (p 2).yb = (p 1).ya) ∧
    ((p 0).r2 = (p 2).r1 ∧ (p 1).r2 = (p 0).r1 ∧ (p 2).r2 = (p 1).r1) ∧ (p 1).zc = (p 0).zc ∧ (p 2).zc = (p 0).zc :=
  ⟨forall_party.1 h.1, forall_party.1 h.2.1, h.2.2 1, h.2.2 2⟩

/-- The exchange of the missing `y`, followed by any joint continuation. -/
theorem exchangeY_wp {α : Type} {p : Party → Post L} {k0 : Proto (S3St G K) α} {k1 k2 : BitVec L → Proto (S3St G K) α}
    {Q : (Party → α) → (Party → S3St G K) → Prop} (hp : PostOk p) (hI : S3Ok u v w st)
    (h : ∀ st', S3Ok u v w st' → WPS (fun i => match i with
      | 0 => k0
      | 1 => k1 (p 0).yb
      | 2 => k2 (p 0).ya) st' Q) :
    WPS (fun i => match i with
      | 0 => do
          jmpSend 0 (p 0).ya 2
          jmpSend 0 (p 0).yb 1
          k0
      | 1 => do
          jmpQueue 1 (p 1).yb 2
          let y3 ← jmpReceive L 1 0
          k1 y3
      | 2 => do
          jmpQueue 2 (p 2).ya 1
          let y1 ← jmpReceive L 2 0
          k2 y1) st Q := by
  obtain ⟨⟨y0, y1, y2⟩, -, -⟩ := hp.eqs
  obtain ⟨q1, q2, q3, q4, q5, q6⟩ := queues hI.queues
  have hst : S3Ok u v w (fun i : Party => match i with
      | 0 => st 0
      | 1 => { st 1 with sendQNext := (st 1).sendQNext ++ toBytes (p 1).yb, rcvQNext := (st 1).rcvQNext ++ toBytes (p 0).yb }
      | 2 => { st 2 with sendQPrev := (st 2).sendQPrev ++ toBytes (p 2).ya, rcvQPrev := (st 2).rcvQPrev ++ toBytes (p 0).ya }) := by
    refine ok_update hI (prf_mk (hI.prf.1 0) (hI.prf.1 1) (hI.prf.1 2) (hI.prf.2 1 0) (hI.prf.2 2 0)) (queues_mk q1 q2 ?_ q4 ?_ q6) ?_ ?_ ?_
    · simp only [q3, y1]
    · simp only [q5, y0]
    all_goals exact forall_party.2 ⟨rfl, rfl, rfl⟩
  apply WPS.of3
  simp only
  s3_norm []
  run3
  s3_norm []
  exact R3.joint rfl rfl rfl (h _ hst)


theorem postArith_wp {p : Party → Post K} (hp : PostOk p) (hI : S3Ok u v w st) :
    WPS (fun i => postArith i (p i)) st (fun s st' => S3SharesOf ((p 0).zc + ((p 0).ya + (p 1).ya + (p 2).ya) +
      ((p 0).r1 + (p 1).r1 + (p 2).r1)) s ∧ S3Ok u v w st') := by
  obtain ⟨⟨y0, y1, y2⟩, ⟨r0, r1, r2⟩, z1, z2⟩ := hp.eqs
  unfold postArith
  refine WPS.congr (q := fun i => match i with
      | 0 => do
          jmpSend 0 (p 0).ya 2
          jmpSend 0 (p 0).yb 1
          let s ← jshare 0 none 1 2 0
          pure (s.sub ⟨(p 0).r1, (p 0).r2, 0⟩)
      | 1 => do
          jmpQueue 1 (p 1).yb 2
          let y3 ← jmpReceive K 1 0
          let s ← jshare 1 (some ((p 1).yb + (p 1).ya + y3 + (p 1).zc)) 1 2 0
          pure (s.sub ⟨(p 1).r1, (p 1).r2, 0⟩)
      | 2 => do
          jmpQueue 2 (p 2).ya 1
          let y1 ← jmpReceive K 2 0
          let s ← jshare 2 (some (y1 + (p 2).yb + (p 2).ya + (p 2).zc)) 1 2 0
          pure (s.sub ⟨(p 2).r1, (p 2).r2, 0⟩)) (forall_party.2 ⟨rfl, rfl, rfl⟩) ?_
  refine exchangeY_wp hp hI fun st' hI' => ?_
  refine WPS.congr (q := fun i => (do
    let s ← jshareWith mixAdd i (if i = 0 then none else
    some ((p 0).zc + ((p 0).ya + (p 1).ya + (p 2).ya))) 1 2 0
    pure (s.sub ⟨(p i).r1, (p i).r2, 0⟩))) (forall_party.2 ⟨rfl, ?_, ?_⟩) ?_
  · simp only [jshare]; congr 3; simp only [y1, y0, z1]; ring
  · simp only [jshare]; congr 3; simp only [y2, z2]; ring
  refine WPS.bind ((jshareWith_wp mixAdd (inp := fun i => if i = 0 then none else _) rfl rfl hI').mono ?_)
  rintro s st2 ⟨hs, hI2⟩
  refine WPS.pure ⟨?_, hI2⟩
  have hs := hs.add
  refine ⟨fun i => ?_, fun i => ?_⟩
  · simp only [S3Share.sub, hs.1 i]; ring
  · simp only [S3Share.sub, hs.2 i, hp.2.1 i]

theorem postBinary_wp {p : Party → Post L} (hp : PostOk p) (hI : S3Ok u v w st) :
    WPS (fun i => postBinary i (p i)) st (fun s st' => S3BinSharesOf ((p 0).zc ^^^ ((p 0).ya ^^^ (p 1).ya ^^^ (p 2).ya) ^^^
      ((p 0).r1 ^^^ (p 1).r1 ^^^ (p 2).r1)) s ∧ S3Ok u v w st') := by
  obtain ⟨⟨y0, y1, y2⟩, ⟨r0, r1, r2⟩, z1, z2⟩ := hp.eqs
  unfold postBinary
  refine WPS.congr (q := fun i => match i with
      | 0 => do
          jmpSend 0 (p 0).ya 2
          jmpSend 0 (p 0).yb 1
          let s ← jshareBinary 0 none 1 2 0
          pure (s.xor ⟨(p 0).r1, (p 0).r2, 0⟩)
      | 1 => do
          jmpQueue 1 (p 1).yb 2
          let y3 ← jmpReceive L 1 0
          let s ← jshareBinary 1 (some ((p 1).yb ^^^ (p 1).ya ^^^ y3 ^^^ (p 1).zc)) 1 2 0
          pure (s.xor ⟨(p 1).r1, (p 1).r2, 0⟩)
      | 2 => do
          jmpQueue 2 (p 2).ya 1
          let y1 ← jmpReceive L 2 0
          let s ← jshareBinary 2 (some (y1 ^^^ (p 2).yb ^^^ (p 2).ya ^^^ (p 2).zc)) 1 2 0
          pure (s.xor ⟨(p 2).r1, (p 2).r2, 0⟩)) (forall_party.2 ⟨rfl, rfl, rfl⟩) ?_
  refine exchangeY_wp hp hI fun st' hI' => ?_
  refine WPS.congr (q := fun i => (do
    let s ← jshareWith mixXor i (if i = 0 then none else
    some ((p 0).zc ^^^ ((p 0).ya ^^^ (p 1).ya ^^^ (p 2).ya))) 1 2 0
    pure (s.xor ⟨(p i).r1, (p i).r2, 0⟩))) (forall_party.2 ⟨rfl, ?_, ?_⟩) ?_
  · simp only [jshareBinary]; congr 3; simp only [y1, y0, z1]; bitwise
  · simp only [jshareBinary]; congr 3; simp only [y2, z2]; bitwise
  refine WPS.bind ((jshareWith_wp mixXor (inp := fun i => if i = 0 then none else _) rfl rfl hI').mono ?_)
  rintro s st2 ⟨hs, hI2⟩
  refine WPS.pure ⟨?_, hI2⟩
  have hs := hs.xor
  refine ⟨fun i => ?_, fun i => ?_⟩
  · simp only [S3Share.xor, hs.1 i]; bitwise
  · simp only [S3Share.xor, hs.2 i, hp.2.1 i]

/-! ## Single operations -/

/-- Shares of a product before the exchange: `z + Σ y + Σ r` is the product. -/
def PostArith (x : BitVec K) (p : Party → Post K) : Prop :=
  PostOk p ∧ (p 0).zc + ((p 0).ya + (p 1).ya + (p 2).ya) + ((p 0).r1 + (p 1).r1 + (p 2).r1) = x

/-- The same with exclusive or. -/
def PostBinary (x : BitVec L) (p : Party → Post L) : Prop :=
  PostOk p ∧ (p 0).zc ^^^ ((p 0).ya ^^^ (p 1).ya ^^^ (p 2).ya) ^^^ ((p 0).r1 ^^^ (p 1).r1 ^^^ (p 2).r1) = x

theorem mulPostLocal_wp {x y : BitVec K} {a b : Party → S3Share K} {de : Party → AShare K} (hI : S3Ok u v w st)
    (ha : S3SharesOf x a) (hb : S3SharesOf y b)
    (hde : SharesOf (((a 0).a + (a 1).a + (a 2).a) * ((b 0).a + (b 1).a + (b 2).a)) de) :
    WPS (fun i => mulPostLocal (a i) (b i) (de i)) st (fun p st' => PostArith (x * y) p ∧ S3Ok u v w st') := by
  unfold mulPostLocal
  refine gen12_wp (k := fun i r1 r2 => pure (Post.mk (-(a i).a * (b i).c - (b i).a * (a i).c + (de i).a - r1)
    (-(a i).b * (b i).c - (b i).b * (a i).c + (de i).b - r2) ((a i).c * (b i).c) r1 r2)) hI ?_
  intro r1 r2 st' hr hI'
  refine WPS.pure ⟨⟨⟨fun i => ?_, fun i => hr i, fun i => ?_⟩, ?_⟩, hI'⟩
  · simp only [ha.1 i, ha.1 i.prev, hb.1 i, hb.1 i.prev, ha.2 i, hb.2 i, hde.2 i, hr i]
  · simp only [ha.1 i, ha.1 0, hb.1 i, hb.1 0]
  · simp only [ha.1 0, hb.1 0, ha.1 1, ha.1 2, hb.1 1, hb.1 2]
    have := hde.1
    linear_combination this

theorem and_post_collect (c d a0 a1 a2 b0 b1 b2 d0 d1 d2 r0 r1 r2 : BitVec L) :
    (c &&& d) ^^^ (((a0 &&& d) ^^^ (b0 &&& c) ^^^ d0 ^^^ r0) ^^^ ((a1 &&& d) ^^^ (b1 &&& c) ^^^ d1 ^^^ r1) ^^^
      ((a2 &&& d) ^^^ (b2 &&& c) ^^^ d2 ^^^ r2)) ^^^ (r0 ^^^ r1 ^^^ r2) =
    (c &&& d) ^^^ ((a0 ^^^ a1 ^^^ a2) &&& d) ^^^ ((b0 ^^^ b1 ^^^ b2) &&& c) ^^^ (d0 ^^^ d1 ^^^ d2) := by
  apply BitVec.eq_of_getLsbD_eq; intro j _
  simp only [BitVec.getLsbD_xor, BitVec.getLsbD_and]
  generalize c.getLsbD j = c
  generalize d.getLsbD j = d
  cases c <;> cases d <;> simp only [Bool.and_true, Bool.and_false, Bool.xor_false, Bool.false_xor, Bool.and_self] <;>
    simp [Bool.xor_assoc, Bool.xor_left_comm, Bool.xor_comm]

theorem andPostLocal_wp {x y : BitVec L} {a b : Party → S3Share L} {de : Party → AShare L} (hI : S3Ok u v w st)
    (ha : S3BinSharesOf x a) (hb : S3BinSharesOf y b)
    (hde : BinSharesOf (((a 0).a ^^^ (a 1).a ^^^ (a 2).a) &&& ((b 0).a ^^^ (b 1).a ^^^ (b 2).a)) de) :
    WPS (fun i => andPostLocal (a i) (b i) (de i)) st (fun p st' => PostBinary (x &&& y) p ∧ S3Ok u v w st') := by
  unfold andPostLocal
  refine gen12_wp (k := fun i r1 r2 => pure (Post.mk
    (((a i).a &&& (b i).c) ^^^ ((b i).a &&& (a i).c) ^^^ (de i).a ^^^ r1)
    (((a i).b &&& (b i).c) ^^^ ((b i).b &&& (a i).c) ^^^ (de i).b ^^^ r2) ((a i).c &&& (b i).c) r1 r2)) hI ?_
  intro r1 r2 st' hr hI'
  refine WPS.pure ⟨⟨⟨fun i => ?_, fun i => hr i, fun i => ?_⟩, ?_⟩, hI'⟩
  · simp only [ha.1 i, ha.1 i.prev, hb.1 i, hb.1 i.prev, ha.2 i, hb.2 i, hde.2 i, hr i]
  · simp only [ha.1 i, ha.1 0, hb.1 i, hb.1 0]
  · simp only [ha.1 0, hb.1 0, ha.1 1, ha.1 2, hb.1 1, hb.1 2]
    rw [and_post_collect, hde.1]
    have : x ^^^ (a 0).a ^^^ (a 1).a ^^^ (a 2).a = x ^^^ ((a 0).a ^^^ (a 1).a ^^^ (a 2).a) := by
      simp only [BitVec.xor_assoc]
    rw [this]
    have : y ^^^ (b 0).a ^^^ (b 1).a ^^^ (b 2).a = y ^^^ ((b 0).a ^^^ (b 1).a ^^^ (b 2).a) := by
      simp only [BitVec.xor_assoc]
    rw [this]
    generalize (a 0).a ^^^ (a 1).a ^^^ (a 2).a = A
    generalize (b 0).a ^^^ (b 1).a ^^^ (b 2).a = B
    bitwise

theorem mul_wp {x y : BitVec K} {a b : Party → S3Share K} (hI : S3Ok u v w st) (ha : S3SharesOf x a)
    (hb : S3SharesOf y b) :
    WPS (fun i => Swift3.mul i (a i) (b i)) st (fun c st' => S3SharesOf (x * y) c ∧ S3Ok u (v + 1) w st') := by
  unfold Swift3.mul
  refine WPS.bind ((abyMul_wp hI ha.toAby hb.toAby).mono ?_)
  rintro de st1 ⟨hde, hI⟩
  unfold mulPost
  refine WPS.bind ((mulPostLocal_wp hI ha hb hde).mono ?_)
  rintro p st2 ⟨⟨hp, hx⟩, hI⟩
  rw [← hx]
  exact postArith_wp hp hI

theorem and_wp (hL : 0 < L) {x y : BitVec L} {a b : Party → S3Share L} (hI : S3Ok u v w st) (ha : S3BinSharesOf x a)
    (hb : S3BinSharesOf y b) :
    WPS (fun i => Swift3.and i (a i) (b i)) st (fun c st' => S3BinSharesOf (x &&& y) c ∧ S3Ok (u + L) v w st') := by
  unfold Swift3.and
  refine WPS.bind ((abyAnd_wp hL hI ha.toAby hb.toAby).mono ?_)
  rintro de st1 ⟨hde, hI⟩
  unfold andPost
  refine WPS.bind ((andPostLocal_wp hI ha hb hde).mono ?_)
  rintro p st2 ⟨⟨hp, hx⟩, hI⟩
  rw [← hx]
  exact postBinary_wp hp hI


/-! ## Dot products -/

/-- A sharing with the sum of its masks. -/
def Full (p : BitVec K × BitVec K) (s : Party → S3Share K) : Prop :=
  S3SharesOf p.1 s ∧ (s 0).a + (s 1).a + (s 2).a = p.2

theorem rels_full {xs : List (BitVec K)} {a : Party → List (S3Share K)} (h : Rels S3SharesOf xs a) :
    ∃ ps : List (BitVec K × BitVec K), ps.map (·.1) = xs ∧ Rels Full ps a := by
  induction xs generalizing a with
  | nil => rw [h.eq_nil]; exact ⟨[], rfl, Rels.nil⟩
  | cons x xs ih =>
    obtain ⟨a1, a2, h1, h2, rfl⟩ := h.uncons
    obtain ⟨ps, e, hp⟩ := ih h2
    exact ⟨(x, _) :: ps, by simp [e], Rels.cons ⟨h1, rfl⟩ hp⟩

theorem full_toAby {ps : List (BitVec K × BitVec K)} {a : Party → List (S3Share K)} (h : Rels Full ps a) :
    Rels SharesOf (ps.map (·.2)) (fun i => (a i).map S3Share.toAby) :=
  Rels.map (g := fun _ => S3Share.toAby) (fun p s h => by rw [← h.2]; exact h.1.toAby) h

theorem dotPostAcc_rel {ps qs : List (BitVec K × BitVec K)} {a b : Party → List (S3Share K)}
    {acc : Party → BitVec K × BitVec K × BitVec K} (ha : Rels Full ps a) (hb : Rels Full qs b)
    (hl : ps.length = qs.length) (h1 : ∀ i, (acc i).2.1 = (acc (Party.prev i)).1) (h2 : ∀ i, (acc i).2.2 = (acc 0).2.2)
    (res : Party → BitVec K × BitVec K × BitVec K) (hres : ∀ i, res i = dotPostAcc (acc i) ((a i).zip (b i))) :
    (∀ i, (res i).2.1 = (res (Party.prev i)).1) ∧ (∀ i, (res i).2.2 = (res 0).2.2) ∧
      (res 0).2.2 + ((res 0).1 + (res 1).1 + (res 2).1) + (List.zipWith (· * ·) (ps.map (·.2)) (qs.map (·.2))).sum =
      (acc 0).2.2 + ((acc 0).1 + (acc 1).1 + (acc 2).1) + (List.zipWith (· * ·) (ps.map (·.1)) (qs.map (·.1))).sum := by
  induction ps generalizing qs a b acc with
  | nil =>
    have := List.eq_nil_of_length_eq_zero hl.symm
    subst this
    have hres : ∀ i, res i = acc i := fun i => by rw [hres i, ha.eq_nil, hb.eq_nil]; rfl
    simp only [hres]
    exact ⟨h1, h2, rfl⟩
  | cons p ps ih =>
    cases qs with
    | nil => simp at hl
    | cons q qs =>
      obtain ⟨a1, a2, ⟨f1, g1⟩, k2, rfl⟩ := ha.uncons
      obtain ⟨b1, b2, ⟨f2, g2⟩, l2, rfl⟩ := hb.uncons
      obtain ⟨i1, i2, i3⟩ := ih (acc := fun i => ((acc i).1 - ((a1 i).a * (b1 i).c + (b1 i).a * (a1 i).c),
        (acc i).2.1 - ((a1 i).b * (b1 i).c + (b1 i).b * (a1 i).c), (acc i).2.2 + (a1 i).c * (b1 i).c)) k2 l2
        (by simpa using hl)
        (fun i => by simp only [h1 i, f1.2 i, f2.2 i, f1.1 i, f1.1 i.prev, f2.1 i, f2.1 i.prev])
        (fun i => by simp only [h2 i, f1.1 i, f1.1 0, f2.1 i, f2.1 0])
        (fun i => by rw [hres i]; rfl)
      refine ⟨i1, i2, ?_⟩
      simp only [List.map_cons, List.zipWith_cons_cons, List.sum_cons]
      simp only [f1.1 0, f1.1 1, f1.1 2, f2.1 0, f2.1 1, f2.1 2] at i3
      rw [← g1, ← g2]
      linear_combination i3

theorem dotPostLocal_wp {ps qs : List (BitVec K × BitVec K)} {a b : Party → List (S3Share K)} {de : Party → AShare K}
    (hI : S3Ok u v w st) (ha : Rels Full ps a) (hb : Rels Full qs b) (hl : ps.length = qs.length)
    (hde : SharesOf (List.zipWith (· * ·) (ps.map (·.2)) (qs.map (·.2))).sum de) :
    WPS (fun i => dotPostLocal (a i) (b i) (de i)) st (fun p st' =>
      PostArith (List.zipWith (· * ·) (ps.map (·.1)) (qs.map (·.1))).sum p ∧ S3Ok u v w st') := by
  unfold dotPostLocal
  refine gen12_wp (k := fun i r1 r2 => pure (Post.mk
    (dotPostAcc ((de i).a - r1, (de i).b - r2, 0) ((a i).zip (b i))).1
    (dotPostAcc ((de i).a - r1, (de i).b - r2, 0) ((a i).zip (b i))).2.1
    (dotPostAcc ((de i).a - r1, (de i).b - r2, 0) ((a i).zip (b i))).2.2 r1 r2)) hI ?_
  intro r1 r2 st' hr hI'
  obtain ⟨i1, i2, i3⟩ := dotPostAcc_rel ha hb hl (acc := fun i => ((de i).a - r1 i, (de i).b - r2 i, 0))
    (fun i => by simp only [hde.2 i, hr i]) (fun _ => rfl) _ (fun _ => rfl)
  refine WPS.pure ⟨⟨⟨i1, fun i => hr i, i2⟩, ?_⟩, hI'⟩
  have := hde.1
  simp only at i3 ⊢
  linear_combination i3 + this

theorem dot_wp {xs ys : List (BitVec K)} {a b : Party → List (S3Share K)} (hI : S3Ok u v w st)
    (ha : Rels S3SharesOf xs a) (hb : Rels S3SharesOf ys b) (hl : xs.length = ys.length) :
    WPS (fun i => dot i (a i) (b i)) st
      (fun c st' => S3SharesOf (List.zipWith (· * ·) xs ys).sum c ∧ S3Ok u v (w.add xs.length) st') := by
  obtain ⟨ps, rfl, ha'⟩ := rels_full ha
  obtain ⟨qs, rfl, hb'⟩ := rels_full hb
  unfold dot
  refine WPS.ite_neg (fun i => by simpa [ha.length, hb.length] using hl) ?_
  refine WPS.bind ((abyDot_wp hI (full_toAby ha') (full_toAby hb') (by simpa using hl)).mono ?_)
  rintro de st1 ⟨hde, hI⟩
  unfold dotPost
  refine WPS.bind ((dotPostLocal_wp hI ha' hb' (by simpa using hl) hde).mono ?_)
  rintro p st2 ⟨⟨hp, hx⟩, hI⟩
  rw [← hx]
  rw [List.length_map] at hI ⊢
  exact postArith_wp hp hI

/-! ## Many operations at once -/

theorem jshareLoops (mix : BitVec L → BitVec L → BitVec L → BitVec L) (l : List (BitVec L)) {s1 s2 : S3St G K}
    (h1 : s2.prf.p2 = s1.prf.p1) (h2 : s2.prf.pp = s1.prf.pp) :
    ∃ (ap : List (BitVec L × BitVec L)) (q1 qp : G.S), ap.length = l.length ∧
      jshareLoop1 mix l s1 = .ret (List.zipWith (fun e x => (e.1, e.2, mix e.1 e.2 x)) ap l,
        { s1 with prf := { s1.prf with p1 := q1, pp := qp } }) ∧
      jshareLoop2 mix l s2 = .ret (List.zipWith (fun e x => (e.1, e.2, mix e.1 e.2 x)) ap l,
        { s2 with prf := { s2.prf with p2 := q1, pp := qp } }) ∧
      ∀ (bs : List (BitVec L)) (s0 : S3St G K), s0.prf.pp = s1.prf.pp → bs.length = l.length →
        jshareLoopR bs s0 = .ret (List.zipWith (fun e b => ⟨e.2, e.2, b⟩) ap bs,
          { s0 with prf := { s0.prf with pp := qp } }) := by
  induction l generalizing s1 s2 with
  | nil =>
    refine ⟨[], s1.prf.p1, s1.prf.pp, rfl, rfl, ?_, ?_⟩
    · simp only [jshareLoop2, Proto.pure_apply, List.zipWith_nil_left]
      rw [← h1, ← h2]
    · intro bs s0 h0 hbs
      have := List.eq_nil_of_length_eq_zero hbs
      subst this
      simp only [jshareLoopR, Proto.pure_apply, List.zipWith_nil_left, ← h0]
  | cons x l ih =>
    obtain ⟨ap, q1, qp, e0, e1, e2, e3⟩ := ih
      (s1 := { s1 with prf := { s1.prf with pp := (G.gen L s1.prf.pp).2, p1 := (G.gen L s1.prf.p1).2 } })
      (s2 := { s2 with prf := { s2.prf with pp := (G.gen L s1.prf.pp).2, p2 := (G.gen L s1.prf.p1).2 } }) rfl rfl
    refine ⟨((G.gen L s1.prf.p1).1, (G.gen L s1.prf.pp).1) :: ap, q1, qp, by simp [e0], ?_, ?_, ?_⟩
    · simp only [jshareLoop1, Proto.bind_apply, genP, gen1, Proto.step_apply, Prog.ret_bind]
      rw [e1]; rfl
    · simp only [jshareLoop2, Proto.bind_apply, genP, gen2, Proto.step_apply, Prog.ret_bind, h2, h1]
      rw [e2]; rfl
    · intro bs s0 h0 hbs
      cases bs with
      | nil => simp at hbs
      | cons b bs =>
        simp only [jshareLoopR, Proto.bind_apply, genP, Proto.step_apply, Prog.ret_bind]
        rw [e3 bs _ (by simp [h0]) (by simpa using hbs), h0]; rfl

theorem jshared_rels (mix : BitVec L → BitVec L → BitVec L → BitVec L) {xs : List (BitVec L)}
    {ap : List (BitVec L × BitVec L)} (hap : ap.length = xs.length) {s : Party → List (S3Share L)}
    (h0 : s 0 = List.zipWith (fun e x => ⟨e.2, e.2, mix e.1 e.2 x⟩) ap xs)
    (h1 : s 1 = List.zipWith (fun e x => ⟨e.1, e.2, mix e.1 e.2 x⟩) ap xs)
    (h2 : s 2 = List.zipWith (fun e x => ⟨e.2, e.1, mix e.1 e.2 x⟩) ap xs) : Rels (JShared mix) xs s := by
  induction ap generalizing xs s with
  | nil =>
    have := List.eq_nil_of_length_eq_zero hap.symm
    subst this
    have : s = fun _ => [] := party_ext h0 h1 h2
    rw [this]; exact Rels.nil
  | cons e ap ih =>
    cases xs with
    | nil => simp at hap
    | cons x xs =>
      have : s = fun i => (match i with
          | 0 => ⟨e.2, e.2, mix e.1 e.2 x⟩
          | 1 => ⟨e.1, e.2, mix e.1 e.2 x⟩
          | 2 => ⟨e.2, e.1, mix e.1 e.2 x⟩ : S3Share L) :: (match i with
          | 0 => List.zipWith (fun e x => ⟨e.2, e.2, mix e.1 e.2 x⟩) ap xs
          | 1 => List.zipWith (fun e x => ⟨e.1, e.2, mix e.1 e.2 x⟩) ap xs
          | 2 => List.zipWith (fun e x => ⟨e.2, e.1, mix e.1 e.2 x⟩) ap xs : List (S3Share L)) :=
        party_ext h0 h1 h2
      rw [this]
      exact Rels.cons ⟨e.1, e.2, rfl, rfl, rfl⟩ (ih (by simpa using hap) rfl rfl rfl)

theorem jshareManyWith_wp (mix : BitVec L → BitVec L → BitVec L → BitVec L) {xs : List (BitVec L)}
    {inp : Party → Option (List (BitVec L))} {len : Nat} (h1 : inp 1 = some xs) (h2 : inp 2 = some xs)
    (hlen : xs.length = len) (hI : S3Ok u v w st) :
    WPS (fun i => jshareManyWith mix i (inp i) 1 2 0 len) st
      (fun s st' => Rels (JShared mix) xs s ∧ S3Ok u v w st') := by
  obtain ⟨p1, p2, p3⟩ := prfs hI
  obtain ⟨q1, q2, q3, q4, q5, q6⟩ := queues hI.queues
  have e0 : ∀ (s : S3St G K) inp, jshareManyWith mix 0 inp 1 2 0 len s = (do
      let betas ← jmpReceiveMany L 0 1 len
      jshareLoopR betas : Proto (S3St G K) (List (S3Share L))) s := fun s inp => rfl
  have e1 : ∀ (s : S3St G K), jshareManyWith mix 1 (some xs) 1 2 0 len s = (do
      let ts ← jshareLoop1 mix xs
      jmpSendMany 1 (ts.map (·.2.2)) 0
      pure (ts.map fun t => ⟨t.1, t.2.1, t.2.2⟩) : Proto (S3St G K) (List (S3Share L))) s := fun s => by
    refine congrFun (a := s) ?_
    show (if xs.length ≠ len then Proto.throw .invalidSize else _) = _
    rw [if_neg (by simp [hlen])]; rfl
  have e2 : ∀ (s : S3St G K), jshareManyWith mix 2 (some xs) 1 2 0 len s = (do
      let ts ← jshareLoop2 mix xs
      jmpQueueMany 2 (ts.map (·.2.2)) 0
      pure (ts.map fun t => ⟨t.2.1, t.1, t.2.2⟩) : Proto (S3St G K) (List (S3Share L))) s := fun s => by
    refine congrFun (a := s) ?_
    show (if xs.length ≠ len then Proto.throw .invalidSize else _) = _
    rw [if_neg (by simp [hlen])]; rfl
  obtain ⟨ap, r1, rp, hap, l1, l2, l0⟩ := jshareLoops mix xs (s1 := st 1) (s2 := st 2) p1 (p3.trans p2.symm)
  have hb : (List.zipWith (fun (e : BitVec L × BitVec L) x => (e.1, e.2, mix e.1 e.2 x)) ap xs).map (·.2.2) =
      List.zipWith (fun (e : BitVec L × BitVec L) x => mix e.1 e.2 x) ap xs := by
    rw [List.map_zipWith]
  have hbl : (List.zipWith (fun (e : BitVec L × BitVec L) x => mix e.1 e.2 x) ap xs).length = len := by simp [hap, hlen]
  have hrt := ringVecFromBytes_roundtrip (List.zipWith (fun (e : BitVec L × BitVec L) x => mix e.1 e.2 x) ap xs)
  rw [hbl] at hrt
  apply WPS.of3
  simp only [e0, e1, e2, h1, h2]
  s3_norm [l1, l2, hb]
  run3
  s3_norm [hrt]
  rw [l0 _ _ (by simp [p2]) (by simp [hbl, hlen])]
  refine R3.done fun r k0 k1 k2 => ⟨jshared_rels mix hap ?_ ?_ ?_, ok_update hI ?_ ?_ ?_ ?_ ?_⟩
  · simp only [k0]
    clear hb hbl hrt l0 l1 l2 k0 k1 k2 h1 h2 hlen e0 e1 e2
    induction ap generalizing xs with
    | nil => rfl
    | cons e ap ih => cases xs with
      | nil => rfl
      | cons x xs => simp [ih (xs := xs) (by simpa using hap)]
  · simp only [k1, List.map_zipWith]
  · simp only [k2, List.map_zipWith]
  · exact prf_mk (by simp [k0, k1, hI.prf.1 0]) (by simp [k1, k2]) (by simp [k0, k2, hI.prf.1 2])
      (by simp [k0, k1]) (by simp [k0, k2])
  · exact queues_mk (by simp [k0, k2, q1]) (by simp [k0, k1, q2]) (by simp [k1, k2, q3]) (by simp [k0, k1, q4])
      (by simp [k1, k2, q5]) (by simp [k0, k2, q6])
  all_goals exact forall_party.2 ⟨by simp [k0], by simp [k1], by simp [k2]⟩

end Swift3
end Verif
