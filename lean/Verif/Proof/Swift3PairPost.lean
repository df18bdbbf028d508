import Verif.Proof.Swift3PairGates

/-! # Swift3: the exchange after a multiplication, with a corrupt party -/

namespace Verif

namespace Swift3

variable {G : Prg} {H : Hash} {K L : Nat}

theorem toBytes_inj' (x y : BitVec L) (h : toBytes x = toBytes y) : x = y := by
  have := fromBytes_toBytes x
  rw [h, fromBytes_toBytes] at this
  exact (Except.ok.inj this).symm

/-- The lengths of the strings to be compared agree. -/
def QLen (s s' : S3St G K) : Prop :=
  s.rcvQNext.length = s'.sendQPrev.length ∧ s'.rcvQPrev.length = s.sendQNext.length

/-- What an exchange does to the states of the honest parties: from `s`, `s'` to `t`, `t'`. -/
structure PostFrame (s s' t t' : S3St G K) : Prop where
  ands : t.andProof = s.andProof ∧ t'.andProof = s'.andProof
  muls : t.mulProof = s.mulProof ∧ t'.mulProof = s'.mulProof
  dots : t.dotProof = s.dotProof ∧ t'.dotProof = s'.dotProof
  prf : PairPrf s.prf s'.prf → PairPrf t.prf t'.prf
  qlen : QLen s s' → QLen t t'

/-- The values before the exchange are consistent and belong to `v`. -/
def PostRel (val : Post L → Post L → BitVec L) (v : BitVec L) (p p' : Post L) : Prop :=
  p.ya = p'.yb ∧ p.zc = p'.zc ∧ p.r1 = p'.r2 ∧ val p p' = v

/-- The algebra of an exchange, for the three positions of the corrupt party. `tot1` and `tot2` are how party 1 and party 2
compute the value that is shared jointly. -/
structure PostAlg (tot1 tot2 : Post L → BitVec L → BitVec L) (jmix : BitVec L → BitVec L → BitVec L → BitVec L)
    (out : S3Share L → S3Share L → S3Share L) (val : Post L → Post L → BitVec L) (R : BitVec L → S3Share L → S3Share L → Prop) :
    Prop where
  h01 : ∀ v p p' α1 αp, PostRel val v p p' →
    R v (out ⟨αp, αp, jmix α1 αp (tot1 p' p.yb)⟩ ⟨p.r1, p.r2, 0⟩) (out ⟨α1, αp, jmix α1 αp (tot1 p' p.yb)⟩ ⟨p'.r1, p'.r2, 0⟩)
  h12 : ∀ v p p' α1 αp, PostRel val v p p' →
    R v (out ⟨α1, αp, jmix α1 αp (tot1 p p'.ya)⟩ ⟨p.r1, p.r2, 0⟩) (out ⟨αp, α1, jmix α1 αp (tot2 p' p.yb)⟩ ⟨p'.r1, p'.r2, 0⟩)
  h20 : ∀ v p p' α1 αp, PostRel val v p p' →
    R v (out ⟨αp, α1, jmix α1 αp (tot2 p p'.ya)⟩ ⟨p.r1, p.r2, 0⟩) (out ⟨αp, αp, jmix α1 αp (tot2 p p'.ya)⟩ ⟨p'.r1, p'.r2, 0⟩)

/-- `postArith` and `postBinary`. -/
def postWith (tot1 tot2 : Post L → BitVec L → BitVec L) (jmix : BitVec L → BitVec L → BitVec L → BitVec L)
    (out : S3Share L → S3Share L → S3Share L) (me : Party) (p : Post L) : Proto (S3St G K) (S3Share L) := do
  let share ← match me with
    | 0 => do
        jmpSend me p.ya 2
        jmpSend me p.yb 1
        jshareWith jmix me none 1 2 0
    | 1 => do
        jmpQueue me p.yb 2
        let y3 ← jmpReceive L me 0
        jshareWith jmix me (some (tot1 p y3)) 1 2 0
    | 2 => do
        jmpQueue me p.ya 1
        let y1 ← jmpReceive L me 0
        jshareWith jmix me (some (tot2 p y1)) 1 2 0
  pure (out share ⟨p.r1, p.r2, 0⟩)

theorem postWith_p2 {tot1 tot2 : Post L → BitVec L → BitVec L} {jmix : BitVec L → BitVec L → BitVec L → BitVec L}
    {out : S3Share L → S3Share L → S3Share L} {val : Post L → Post L → BitVec L} {R : BitVec L → S3Share L → S3Share L → Prop}
    (hA : PostAlg tot1 tot2 jmix out val R) (i : Party) {st : Party → S3St G K} (hP : PairPrf (st i).prf (st i.next).prf)
    (p : Party → Post L) :
    P2 i (postWith tot1 tot2 jmix out i (p i) (st i)) (postWith tot1 tot2 jmix out i.next (p i.next) (st i.next)) [] []
      fun _ _ a b => PostFrame (st i) (st i.next) a.2 b.2 ∧ (Agree a.2 b.2 → Agree (st i) (st i.next) ∧
        ∀ v, PostRel val v (p i) (p i.next) → R v a.1 b.1) := by
  have j0 : ∀ (s : S3St G K), jshareWith jmix 0 none 1 2 0 s = (do
      let alphaP ← genP L
      let beta ← jmpReceive L 0 1
      pure ⟨alphaP, alphaP, beta⟩ : Proto (S3St G K) (S3Share L)) s := fun s => rfl
  have j1 : ∀ (s : S3St G K) x, jshareWith jmix 1 (some x) 1 2 0 s = (do
      let alphaP ← genP L
      let alpha1 ← gen1 L
      jmpSend 1 (jmix alpha1 alphaP x) 0
      pure ⟨alpha1, alphaP, jmix alpha1 alphaP x⟩ : Proto (S3St G K) (S3Share L)) s := fun s x => rfl
  have j2 : ∀ (s : S3St G K) x, jshareWith jmix 2 (some x) 1 2 0 s = (do
      let alphaP ← genP L
      let alpha1 ← gen2 L
      jmpQueue 2 (jmix alpha1 alphaP x) 0
      pure ⟨alphaP, alpha1, jmix alpha1 alphaP x⟩ : Proto (S3St G K) (S3Share L)) s := fun s x => rfl
  unfold postWith
  rcases (by decide : ∀ i : Party, i = 0 ∨ i = 1 ∨ i = 2) i with rfl | rfl | rfl
  · simp only [Party.next_zero] at hP ⊢
    obtain ⟨h1, h2⟩ := hP
    s3_norm [j0, j1, j2, genP, gen1, gen2]
    run2
    rename_i y3 hy3 beta hbeta
    rw [fromBytes_toBytes] at hy3 hbeta
    injection hy3 with hy3
    injection hbeta with hbeta
    subst hy3 hbeta
    refine P2.done ⟨⟨⟨rfl, rfl⟩, ⟨rfl, rfl⟩, ⟨rfl, rfl⟩, ?_, ?_⟩, ?_⟩
    · exact fun _ => ⟨h1, by simp only [h2]⟩
    · exact fun h => h
    · intro h
      refine ⟨h, fun v hv => ?_⟩
      simp only
      rw [h2]
      exact hA.h01 v _ _ _ _ hv
  · simp only [Party.next_one] at hP ⊢
    obtain ⟨h1, h2⟩ := hP
    s3_norm [j0, j1, j2, genP, gen1, gen2]
    run2
    rename_i m1 m2 y3 hy3 y1 hy1
    have hy3 := toBytes_of_fromBytes hy3
    have hy1 := toBytes_of_fromBytes hy1
    refine P2.done ⟨⟨⟨rfl, rfl⟩, ⟨rfl, rfl⟩, ⟨rfl, rfl⟩, ?_, ?_⟩, ?_⟩
    · exact fun _ => ⟨by simp only [h1], by simp only [h2]⟩
    · intro h
      refine ⟨?_, ?_⟩
      · simp only [List.length_append, toBytes_length, h.1]
      · simp only [List.length_append, toBytes_length, h.2]
    · rintro ⟨e1, e2⟩
      obtain ⟨e1, f1⟩ := List.append_inj' e1 (by simp only [toBytes_length])
      obtain ⟨e2, f2⟩ := List.append_inj' e2 (by simp only [toBytes_length])
      refine ⟨⟨e1, e2⟩, fun v hv => ?_⟩
      rw [toBytes_inj' _ _ f1, toBytes_inj' _ _ f2]
      simp only
      rw [h2, h1]
      exact hA.h12 v _ _ _ _ hv
  · simp only [Party.next_two] at hP ⊢
    obtain ⟨h1, h2⟩ := hP
    s3_norm [j0, j1, j2, genP, gen1, gen2]
    run2
    rename_i m1 y1 hy1 beta hb
    rw [fromBytes_toBytes] at hy1
    injection hy1 with hy1
    subst hy1
    refine P2.done ⟨⟨⟨rfl, rfl⟩, ⟨rfl, rfl⟩, ⟨rfl, rfl⟩, ?_, ?_⟩, ?_⟩
    · exact fun _ => ⟨h1, by simp only [h2]⟩
    · intro h
      refine ⟨h.1, ?_⟩
      simp only [List.length_append, toBytes_length, h.2]
    · rintro ⟨e1, e2⟩
      obtain ⟨e2, f2⟩ := List.append_inj' e2 (by simp only [toBytes_length])
      refine ⟨⟨e1, e2⟩, fun v hv => ?_⟩
      rw [toBytes_inj' _ _ f2]
      simp only
      rw [h2]
      exact hA.h20 v _ _ _ _ hv

theorem proto_ite_apply {σ α : Type} {c : Prop} [Decidable c] (p q : Proto σ α) (s : σ) :
    (if c then p else q) s = if c then p s else q s := by split <;> rfl

theorem rvfb {xs : List (BitVec L)} {len : Nat} (h : xs.length = len) : ringVecFromBytes L (ringSliceToBytes xs) len = .ok xs := by
  rw [← h, ringVecFromBytes_roundtrip]

theorem rvfb_len {m : Bytes} {xs : List (BitVec L)} {len : Nat} (h : ringVecFromBytes L m len = .ok xs) : xs.length = len :=
  (ringVecFromBytes_ok h).1

section Many

variable {mix comb : BitVec L → BitVec L → BitVec L} {jmix : BitVec L → BitVec L → BitVec L → BitVec L}
    {out : S3Share L → S3Share L → S3Share L} {val : Post L → Post L → BitVec L} {R : BitVec L → S3Share L → S3Share L → Prop}

theorem post01 (hA : PostAlg (fun p y => comb (mix (mix p.ya p.zc) p.yb) y) (fun p y => comb (mix (mix p.yb p.zc) p.ya) y) jmix out val R)
    {vs : List (BitVec L)} {ps ps' : List (Post L)} (h : Pairs (PostRel val) vs ps ps') {ap : List (BitVec L × BitVec L)}
    (ha : ap.length = vs.length) :
    Pairs R vs
      (List.zipWith out (List.zipWith (fun e b => ⟨e.2, e.2, b⟩) ap (List.zipWith (fun e x => jmix e.1 e.2 x) ap
        (List.zipWith comb (ps'.map fun p => mix (mix p.ya p.zc) p.yb) (ps.map (·.yb))))) (ps.map fun p => ⟨p.r1, p.r2, 0⟩))
      (List.zipWith out (List.zipWith (fun e x => ⟨e.1, e.2, jmix e.1 e.2 x⟩) ap
        (List.zipWith comb (ps'.map fun p => mix (mix p.ya p.zc) p.yb) (ps.map (·.yb)))) (ps'.map fun p => ⟨p.r1, p.r2, 0⟩)) := by
  induction vs generalizing ps ps' ap with
  | nil =>
    obtain ⟨rfl, rfl⟩ := h.nil_left
    simpa using Pairs.nil
  | cons v vs ih =>
    obtain ⟨p, p', t, t', rfl, rfl, h, hs⟩ := h.uncons
    cases ap with
    | nil => simp at ha
    | cons e ap => exact Pairs.cons (hA.h01 v p p' e.1 e.2 h) (ih hs (by simpa using ha))

theorem post12 (hA : PostAlg (fun p y => comb (mix (mix p.ya p.zc) p.yb) y) (fun p y => comb (mix (mix p.yb p.zc) p.ya) y) jmix out val R)
    {vs : List (BitVec L)} {ps ps' : List (Post L)} (h : Pairs (PostRel val) vs ps ps') {ap : List (BitVec L × BitVec L)}
    (ha : ap.length = vs.length) :
    Pairs R vs
      (List.zipWith out (List.zipWith (fun e x => ⟨e.1, e.2, jmix e.1 e.2 x⟩) ap
        (List.zipWith comb (ps.map fun p => mix (mix p.ya p.zc) p.yb) (ps'.map (·.ya)))) (ps.map fun p => ⟨p.r1, p.r2, 0⟩))
      (List.zipWith out (List.zipWith (fun e x => ⟨e.2, e.1, jmix e.1 e.2 x⟩) ap
        (List.zipWith comb (ps'.map fun p => mix (mix p.yb p.zc) p.ya) (ps.map (·.yb)))) (ps'.map fun p => ⟨p.r1, p.r2, 0⟩)) := by
  induction vs generalizing ps ps' ap with
  | nil =>
    obtain ⟨rfl, rfl⟩ := h.nil_left
    simpa using Pairs.nil
  | cons v vs ih =>
    obtain ⟨p, p', t, t', rfl, rfl, h, hs⟩ := h.uncons
    cases ap with
    | nil => simp at ha
    | cons e ap => exact Pairs.cons (hA.h12 v p p' e.1 e.2 h) (ih hs (by simpa using ha))

theorem post20 (hA : PostAlg (fun p y => comb (mix (mix p.ya p.zc) p.yb) y) (fun p y => comb (mix (mix p.yb p.zc) p.ya) y) jmix out val R)
    {vs : List (BitVec L)} {ps ps' : List (Post L)} (h : Pairs (PostRel val) vs ps ps') {ap : List (BitVec L × BitVec L)}
    (ha : ap.length = vs.length) :
    Pairs R vs
      (List.zipWith out (List.zipWith (fun e x => ⟨e.2, e.1, jmix e.1 e.2 x⟩) ap
        (List.zipWith comb (ps.map fun p => mix (mix p.yb p.zc) p.ya) (ps'.map (·.ya)))) (ps.map fun p => ⟨p.r1, p.r2, 0⟩))
      (List.zipWith out (List.zipWith (fun e b => ⟨e.2, e.2, b⟩) ap (List.zipWith (fun e x => jmix e.1 e.2 x) ap
        (List.zipWith comb (ps.map fun p => mix (mix p.yb p.zc) p.ya) (ps'.map (·.ya))))) (ps'.map fun p => ⟨p.r1, p.r2, 0⟩)) := by
  induction vs generalizing ps ps' ap with
  | nil =>
    obtain ⟨rfl, rfl⟩ := h.nil_left
    simpa using Pairs.nil
  | cons v vs ih =>
    obtain ⟨p, p', t, t', rfl, rfl, h, hs⟩ := h.uncons
    cases ap with
    | nil => simp at ha
    | cons e ap => exact Pairs.cons (hA.h20 v p p' e.1 e.2 h) (ih hs (by simpa using ha))

theorem postManyWith_p2 (hA : PostAlg (fun p y => comb (mix (mix p.ya p.zc) p.yb) y) (fun p y => comb (mix (mix p.yb p.zc) p.ya) y) jmix out val R)
    (i : Party) {st : Party → S3St G K} (hP : PairPrf (st i).prf (st i.next).prf)
    (ps : Party → List (Post L)) {len : Nat} (hl : (ps i).length = len) (hl' : (ps i.next).length = len) :
    P2 i (postManyWith mix comb jmix out i (ps i) len (st i)) (postManyWith mix comb jmix out i.next (ps i.next) len (st i.next)) [] []
      fun _ _ a b => PostFrame (st i) (st i.next) a.2 b.2 ∧ a.1.length = len ∧ b.1.length = len ∧
        (Agree a.2 b.2 → Agree (st i) (st i.next) ∧ ∀ vs, Pairs (PostRel val) vs (ps i) (ps i.next) → Pairs R vs a.1 b.1) := by
  have e0 : ∀ (s : S3St G K), jshareManyWith jmix 0 none 1 2 0 len s = (do
      let betas ← jmpReceiveMany L 0 1 len
      jshareLoopR betas : Proto (S3St G K) (List (S3Share L))) s := fun s => rfl
  have e1 : ∀ (s : S3St G K) xs, jshareManyWith jmix 1 (some xs) 1 2 0 len s = if xs.length ≠ len then .fail .invalidSize else (do
      let ts ← jshareLoop1 jmix xs
      jmpSendMany 1 (ts.map (·.2.2)) 0
      pure (ts.map fun t => ⟨t.1, t.2.1, t.2.2⟩) : Proto (S3St G K) (List (S3Share L))) s := fun s xs => by
    show (if xs.length ≠ len then Proto.throw .invalidSize else _ : Proto (S3St G K) (List (S3Share L))) s = _
    rw [proto_ite_apply]; rfl
  have e2 : ∀ (s : S3St G K) xs, jshareManyWith jmix 2 (some xs) 1 2 0 len s = if xs.length ≠ len then .fail .invalidSize else (do
      let ts ← jshareLoop2 jmix xs
      jmpQueueMany 2 (ts.map (·.2.2)) 0
      pure (ts.map fun t => ⟨t.2.1, t.1, t.2.2⟩) : Proto (S3St G K) (List (S3Share L))) s := fun s xs => by
    show (if xs.length ≠ len then Proto.throw .invalidSize else _ : Proto (S3St G K) (List (S3Share L))) s = _
    rw [proto_ite_apply]; rfl
  unfold postManyWith
  rcases (by decide : ∀ i : Party, i = 0 ∨ i = 1 ∨ i = 2) i with rfl | rfl | rfl
  · simp only [Party.next_zero] at hP hl hl' ⊢
    obtain ⟨h1, h2⟩ := hP
    s3_norm [e0, e1, e2, jshareLoop1_eq, jshareLoop2_eq, jshareLoopR_eq _ (st 1).prf.p1, ite_bind, Jmp.foldl_toBytes]
    run2
    clear e0 e1 e2
    rename_i y3 hy3 c beta hb
    push Not at c
    rw [c, List.map_zipWith] at hb
    rw [rvfb (by simp [hl])] at hy3
    injection hy3 with hy3
    subst hy3
    rw [rvfb (by simp [jdraws_length, hl, hl'])] at hb
    injection hb with hb
    subst hb
    have hbl : (List.zipWith (fun (e : BitVec L × BitVec L) x => jmix e.1 e.2 x) (jdraws L len (st 1).prf.p1 (st 1).prf.pp).1
      (List.zipWith comb (List.map (fun p => mix (mix p.ya p.zc) p.yb) (ps 1)) (List.map (fun x => x.yb) (ps 0)))).length = len := by
      simp [jdraws_length, hl, hl']
    rw [h2, c, hbl, List.map_zipWith]
    refine P2.done ⟨⟨⟨rfl, rfl⟩, ⟨rfl, rfl⟩, ⟨rfl, rfl⟩, fun _ => ⟨h1, rfl⟩, fun h => h⟩, ?_, ?_, ?_⟩
    · simp [jdraws_length, hl, hl']
    · simp [jdraws_length, hl, hl']
    · exact fun h => ⟨h, fun vs hvs => post01 hA hvs (by rw [jdraws_length, ← hvs.length.1, hl])⟩
  · simp only [Party.next_one] at hP hl hl' ⊢
    obtain ⟨h1, h2⟩ := hP
    s3_norm [e0, e1, e2, jshareLoop1_eq, jshareLoop2_eq, jshareLoopR_eq _ (st 1).prf.p1, ite_bind, Jmp.foldl_toBytes]
    run2
    clear e0 e1 e2
    rename_i m1 m2 y3 hy3 y1 hy1 c c'
    push Not at c c'
    have l3 := (rvfb_len hy3)
    have l1 := (rvfb_len hy1)
    rw [c, c', List.map_zipWith, List.map_zipWith, List.map_zipWith]
    refine P2.done ⟨⟨⟨rfl, rfl⟩, ⟨rfl, rfl⟩, ⟨rfl, rfl⟩, fun _ => ⟨by simp only [h1, h2], by simp only [h1, h2]⟩, fun ⟨k1, k2⟩ => ⟨?_, ?_⟩⟩, ?_, ?_, ?_⟩
    · simp only [List.length_append, ringSliceToBytes_length, k1, List.length_map, l3, hl']
    · simp only [List.length_append, ringSliceToBytes_length, k2, List.length_map, l1, hl]
    · simp [jdraws_length, hl, l3]
    · simp [jdraws_length, hl', l1]
    · rintro ⟨e1, e2⟩
      obtain ⟨g1, f1⟩ := List.append_inj' e1 (by simp only [ringSliceToBytes_length, List.length_map, l3, hl'])
      obtain ⟨g2, f2⟩ := List.append_inj' e2 (by simp only [ringSliceToBytes_length, List.length_map, l1, hl])
      refine ⟨⟨g1, g2⟩, fun vs hvs => ?_⟩
      have f1 := ringSliceToBytes_inj' (by simp [l3, hl']) f1
      have f2 := ringSliceToBytes_inj' (by simp [l1, hl]) f2
      rw [f1, f2]
      simp only
      rw [h1, h2]
      exact post12 hA hvs (by rw [jdraws_length, ← hvs.length.1, hl])
  · simp only [Party.next_two] at hP hl hl' ⊢
    obtain ⟨h1, h2⟩ := hP
    s3_norm [e0, e1, e2, jshareLoop1_eq, jshareLoop2_eq, jshareLoopR_eq _ (st 2).prf.p2, ite_bind, Jmp.foldl_toBytes]
    run2
    clear e0 e1 e2
    rename_i m1 y1 hy1 beta hb c
    push Not at c
    have lb := (rvfb_len hb)
    rw [rvfb (by simp [hl'])] at hy1
    injection hy1 with hy1
    subst hy1
    rw [c, lb, List.map_zipWith, List.map_zipWith]
    refine P2.done ⟨⟨⟨rfl, rfl⟩, ⟨rfl, rfl⟩, ⟨rfl, rfl⟩, fun _ => ⟨h1, by simp only [h2]⟩, fun ⟨k1, k2⟩ => ⟨k1, ?_⟩⟩, ?_, ?_, ?_⟩
    · simp only [List.length_append, ringSliceToBytes_length, k2, List.length_map, List.length_zipWith, lb, hl, hl', jdraws_length, min_self]
    · simp [jdraws_length, hl, hl']
    · simp [jdraws_length, hl', lb]
    · rintro ⟨e1, e2⟩
      obtain ⟨g2, f2⟩ := List.append_inj' e2 (by
        simp only [ringSliceToBytes_length, List.length_map, List.length_zipWith, lb, hl, hl', jdraws_length, min_self])
      refine ⟨⟨e1, g2⟩, fun vs hvs => ?_⟩
      have f2 := ringSliceToBytes_inj' (by simp [lb, hl, hl', jdraws_length]) f2
      rw [f2]
      simp only
      rw [← h2]
      exact post20 hA hvs (by rw [jdraws_length, ← hvs.length.1, hl])
end Many

end Swift3

end Verif
