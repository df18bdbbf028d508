import Verif.Proof.Swift3Post

/-! # Swift3: many operations at once -/

namespace Verif

variable {G : Prg} {K L : Nat}

theorem Rels.aug {X B Y : Type} {R : X → (Party → B) → Prop} {xs : List X} {ls : Party → List B} (f : (Party → B) → Y)
    (h : Rels R xs ls) : ∃ zs : List (X × Y), zs.map (·.1) = xs ∧ Rels (fun z s => R z.1 s ∧ f s = z.2) zs ls := by
  induction xs generalizing ls with
  | nil => rw [h.eq_nil]; exact ⟨[], rfl, Rels.nil⟩
  | cons x xs ih =>
    obtain ⟨a1, a2, h1, h2, rfl⟩ := h.uncons
    obtain ⟨zs, e, hz⟩ := ih h2
    exact ⟨(x, f a1) :: zs, by simp [e], Rels.cons ⟨h1, rfl⟩ hz⟩

theorem Rels.map_eq {X B Y : Type} {R : X → (Party → B) → Prop} {xs : List X} {ls : Party → List B} (h : Rels R xs ls)
    {f g : B → Y} {i j : Party} (hf : ∀ x s, R x s → f (s i) = g (s j)) : (ls i).map f = (ls j).map g := by
  induction xs generalizing ls with
  | nil => rw [h.eq_nil]; rfl
  | cons x xs ih =>
    obtain ⟨a1, a2, h1, h2, rfl⟩ := h.uncons
    simp only [List.map_cons, hf x a1 h1, ih h2]

theorem Rels.zipWith_eq {X B Y Z W : Type} {R : X → (Party → B) → Prop} {xs : List X} {ls : Party → List B}
    (h : Rels R xs ls) {f : B → Y} {g : B → Z} {c : Y → Z → W} {q : X → W} {i j : Party}
    (hf : ∀ x s, R x s → c (f (s i)) (g (s j)) = q x) : List.zipWith c ((ls i).map f) ((ls j).map g) = xs.map q := by
  induction xs generalizing ls with
  | nil => rw [h.eq_nil]; rfl
  | cons x xs ih =>
    obtain ⟨a1, a2, h1, h2, rfl⟩ := h.uncons
    simp only [List.map_cons, List.zipWith_cons_cons, hf x a1 h1, ih h2]

namespace Swift3

variable {st : Party → S3St G K} {u v : Nat} {w : DotCount}

/-- The exchange of the missing `y`s, followed by any joint continuation. -/
theorem exchangeYMany_wp {α X : Type} {P : X → (Party → Post L) → Prop} (hP : ∀ x p, P x p → PostOk p) {xs : List X}
    {p : Party → List (Post L)} {len : Nat} {k0 : Proto (S3St G K) α} {k1 k2 : List (BitVec L) → Proto (S3St G K) α}
    {Q : (Party → α) → (Party → S3St G K) → Prop} (hp : Rels P xs p) (hlen : xs.length = len) (hI : S3Ok u v w st)
    (h : ∀ st', S3Ok u v w st' → WPS (fun i => match i with
      | 0 => k0
      | 1 => k1 ((p 0).map (·.yb))
      | 2 => k2 ((p 0).map (·.ya))) st' Q) :
    WPS (fun i => match i with
      | 0 => do
          jmpSendMany 0 ((p 0).map (·.ya)) 2
          jmpSendMany 0 ((p 0).map (·.yb)) 1
          k0
      | 1 => do
          jmpQueueMany 1 ((p 1).map (·.yb)) 2
          let y3 ← jmpReceiveMany L 1 0 len
          k1 y3
      | 2 => do
          jmpQueueMany 2 ((p 2).map (·.ya)) 1
          let y1 ← jmpReceiveMany L 2 0 len
          k2 y1) st Q := by
  have y1 : (p 1).map (·.yb) = (p 0).map (·.ya) := hp.map_eq fun x s h => ((hP x s h).eqs.1).2.1
  have y0 : (p 0).map (·.yb) = (p 2).map (·.ya) := hp.map_eq fun x s h => ((hP x s h).eqs.1).1
  obtain ⟨q1, q2, q3, q4, q5, q6⟩ := queues hI.queues
  have hst : S3Ok u v w (fun i : Party => match i with
      | 0 => st 0
      | 1 => { st 1 with
          sendQNext := ((p 1).map (·.yb)).foldl (fun q x => q ++ toBytes x) (st 1).sendQNext
          rcvQNext := ((p 0).map (·.yb)).foldl (fun q x => q ++ toBytes x) (st 1).rcvQNext }
      | 2 => { st 2 with
          sendQPrev := ((p 2).map (·.ya)).foldl (fun q x => q ++ toBytes x) (st 2).sendQPrev
          rcvQPrev := ((p 0).map (·.ya)).foldl (fun q x => q ++ toBytes x) (st 2).rcvQPrev }) := by
    refine ok_update hI (prf_mk (hI.prf.1 0) (hI.prf.1 1) (hI.prf.1 2) (hI.prf.2 1 0) (hI.prf.2 2 0)) (queues_mk q1 q2 ?_ q4 ?_ q6) ?_ ?_ ?_
    · simp only [q3, y1]
    · simp only [q5, y0]
    all_goals exact forall_party.2 ⟨rfl, rfl, rfl⟩
  have r1 := ringVecFromBytes_roundtrip ((p 0).map (·.yb))
  have r2 := ringVecFromBytes_roundtrip ((p 0).map (·.ya))
  rw [List.length_map, hp.length, hlen] at r1 r2
  apply WPS.of3
  simp only
  s3_norm []
  run3
  s3_norm [r1, r2]
  exact R3.joint rfl rfl rfl (h _ hst)

theorem postManyWith_wp {mix comb : BitVec L → BitVec L → BitVec L} {jmix : BitVec L → BitVec L → BitVec L → BitVec L}
    {out : S3Share L → S3Share L → S3Share L} {P : BitVec L → (Party → Post L) → Prop}
    {R : BitVec L → (Party → S3Share L) → Prop} (val : (Party → Post L) → BitVec L) (hP : ∀ x p, P x p → PostOk p)
    (h1 : ∀ p, PostOk p → comb (mix (mix (p 1).ya (p 1).zc) (p 1).yb) (p 0).yb = val p)
    (h2 : ∀ p, PostOk p → comb (mix (mix (p 2).yb (p 2).zc) (p 2).ya) (p 0).ya = val p)
    (h3 : ∀ x p s, P x p → JShared jmix (val p) s → R x (fun i => out (s i) ⟨(p i).r1, (p i).r2, 0⟩))
    {xs : List (BitVec L)} {p : Party → List (Post L)} {len : Nat} (hp : Rels P xs p) (hlen : xs.length = len)
    (hI : S3Ok u v w st) :
    WPS (fun i => postManyWith mix comb jmix out i (p i) len) st (fun s st' => Rels R xs s ∧ S3Ok u v w st') := by
  obtain ⟨zs, hz, hp'⟩ := hp.aug val
  subst hz
  unfold postManyWith
  refine WPS.congr (q := fun i => match i with
      | 0 => do
          jmpSendMany 0 ((p 0).map (·.ya)) 2
          jmpSendMany 0 ((p 0).map (·.yb)) 1
          let s ← jshareManyWith jmix 0 none 1 2 0 len
          pure (List.zipWith out s ((p 0).map fun p => ⟨p.r1, p.r2, 0⟩))
      | 1 => do
          jmpQueueMany 1 ((p 1).map (·.yb)) 2
          let y3 ← jmpReceiveMany L 1 0 len
          let s ← jshareManyWith jmix 1 (some (List.zipWith comb ((p 1).map fun p => mix (mix p.ya p.zc) p.yb) y3)) 1 2 0 len
          pure (List.zipWith out s ((p 1).map fun p => ⟨p.r1, p.r2, 0⟩))
      | 2 => do
          jmpQueueMany 2 ((p 2).map (·.ya)) 1
          let y1 ← jmpReceiveMany L 2 0 len
          let s ← jshareManyWith jmix 2 (some (List.zipWith comb ((p 2).map fun p => mix (mix p.yb p.zc) p.ya) y1)) 1 2 0 len
          pure (List.zipWith out s ((p 2).map fun p => ⟨p.r1, p.r2, 0⟩))) (forall_party.2 ⟨rfl, rfl, rfl⟩) ?_
  refine exchangeYMany_wp hP hp hlen hI fun st' hI' => ?_
  have e1 : List.zipWith comb ((p 1).map fun p => mix (mix p.ya p.zc) p.yb) ((p 0).map (·.yb)) = zs.map (·.2) :=
    hp'.zipWith_eq fun z s h => (h1 s (hP _ _ h.1)).trans h.2
  have e2 : List.zipWith comb ((p 2).map fun p => mix (mix p.yb p.zc) p.ya) ((p 0).map (·.ya)) = zs.map (·.2) :=
    hp'.zipWith_eq fun z s h => (h2 s (hP _ _ h.1)).trans h.2
  refine WPS.congr (q := fun i => (do
    let s ← jshareManyWith jmix i (if i = 0 then none else some (zs.map (·.2))) 1 2 0 len
    pure (List.zipWith out s ((p i).map fun p => ⟨p.r1, p.r2, 0⟩)))) (forall_party.2 ⟨rfl, ?_, ?_⟩) ?_
  · simp only [e1]; rfl
  · simp only [e2]; rfl
  refine WPS.bind ((jshareManyWith_wp jmix (inp := fun i => if i = 0 then none else _) rfl rfl (by simpa using hlen) hI').mono ?_)
  rintro s st2 ⟨hs, hI2⟩
  refine WPS.pure ⟨?_, hI2⟩
  clear e1 e2 hp hlen hI hI' hI2
  induction zs generalizing s p with
  | nil => rw [hs.eq_nil, hp'.eq_nil]; exact Rels.nil
  | cons z zs ih =>
    obtain ⟨s1, s2, k1, k2, rfl⟩ := Rels.uncons hs
    obtain ⟨p1, p2, l1, l2, rfl⟩ := hp'.uncons
    refine Rels.cons ?_ (ih l2 _ k2)
    refine h3 _ _ _ l1.1 ?_
    rw [l1.2]; exact k1

theorem postArithMany_wp {xs : List (BitVec K)} {p : Party → List (Post K)} {len : Nat} (hp : Rels PostArith xs p)
    (hlen : xs.length = len) (hI : S3Ok u v w st) :
    WPS (fun i => postManyWith (· + ·) (· + ·) mixAdd S3Share.sub i (p i) len) st
      (fun s st' => Rels S3SharesOf xs s ∧ S3Ok u v w st') := by
  refine postManyWith_wp (fun p => (p 0).zc + ((p 0).ya + (p 1).ya + (p 2).ya)) (fun _ _ h => h.1) ?_ ?_ ?_ hp hlen hI
  · intro p hp
    obtain ⟨⟨y0, y1, y2⟩, ⟨r0, r1, r2⟩, z1, z2⟩ := hp.eqs
    simp only [y1, y0, z1]; ring
  · intro p hp
    obtain ⟨⟨y0, y1, y2⟩, ⟨r0, r1, r2⟩, z1, z2⟩ := hp.eqs
    simp only [y2, z2]; ring
  · intro x p s hp hs
    have hs := hs.add
    refine ⟨fun i => ?_, fun i => ?_⟩
    · simp only [S3Share.sub, hs.1 i]; rw [← hp.2]; ring
    · simp only [S3Share.sub, hs.2 i, hp.1.2.1 i]

theorem postBinaryMany_wp {xs : List (BitVec L)} {p : Party → List (Post L)} {len : Nat} (hp : Rels PostBinary xs p)
    (hlen : xs.length = len) (hI : S3Ok u v w st) :
    WPS (fun i => postManyWith (· ^^^ ·) (· ^^^ ·) mixXor S3Share.xor i (p i) len) st
      (fun s st' => Rels S3BinSharesOf xs s ∧ S3Ok u v w st') := by
  refine postManyWith_wp (fun p => (p 0).zc ^^^ ((p 0).ya ^^^ (p 1).ya ^^^ (p 2).ya)) (fun _ _ h => h.1) ?_ ?_ ?_ hp hlen hI
  · intro p hp
    obtain ⟨⟨y0, y1, y2⟩, ⟨r0, r1, r2⟩, z1, z2⟩ := hp.eqs
    simp only [y1, y0, z1]; bitwise
  · intro p hp
    obtain ⟨⟨y0, y1, y2⟩, ⟨r0, r1, r2⟩, z1, z2⟩ := hp.eqs
    simp only [y2, z2]; bitwise
  · intro x p s hp hs
    have hs := hs.xor
    refine ⟨fun i => ?_, fun i => ?_⟩
    · simp only [S3Share.xor, hs.1 i]; rw [← hp.2]; bitwise
    · simp only [S3Share.xor, hs.2 i, hp.1.2.1 i]

/-! ## Many conjunctions -/

/-- A binary sharing with the sum of its masks. -/
def FullB (p : BitVec L × BitVec L) (s : Party → S3Share L) : Prop :=
  S3BinSharesOf p.1 s ∧ (s 0).a ^^^ (s 1).a ^^^ (s 2).a = p.2

theorem andPostLoop_wp {ps qs : List (BitVec L × BitVec L)} {a b : Party → List (S3Share L)}
    {de : Party → List (AShare L)} (hI : S3Ok u v w st) (ha : Rels FullB ps a) (hb : Rels FullB qs b)
    (hl : ps.length = qs.length)
    (hde : Rels BinSharesOf (List.zipWith (· &&& ·) (ps.map (·.2)) (qs.map (·.2))) de) :
    WPS (fun i => andPostLoop ((de i).zip ((a i).zip (b i)))) st
      (fun p st' => Rels PostBinary (List.zipWith (· &&& ·) (ps.map (·.1)) (qs.map (·.1))) p ∧ S3Ok u v w st') := by
  induction ps generalizing qs a b de st with
  | nil =>
    have := List.eq_nil_of_length_eq_zero hl.symm
    subst this
    rw [ha.eq_nil]
    simp only [List.zip_nil_left, List.zip_nil_right]
    exact WPS.pure (a := fun _ => []) ⟨Rels.nil, hI⟩
  | cons x ps ih =>
    cases qs with
    | nil => simp at hl
    | cons y qs =>
      obtain ⟨a1, a2, h1, h2, rfl⟩ := ha.uncons
      obtain ⟨b1, b2, k1, k2, rfl⟩ := hb.uncons
      obtain ⟨d1, d2, m1, m2, rfl⟩ := Rels.uncons hde
      simp only [List.zip_cons_cons, andPostLoop]
      refine WPS.bind ((andPostLocal_wp hI h1.1 k1.1 (by rw [h1.2, k1.2]; exact m1)).mono ?_)
      rintro p st' ⟨hp, hI'⟩
      refine WPS.bind ((ih hI' h2 k2 (by simpa using hl) m2).mono ?_)
      rintro cs st'' ⟨hcs, hI''⟩
      exact WPS.pure ⟨Rels.cons hp hcs, hI''⟩

theorem andMany_wp (hL : 0 < L) {xs ys : List (BitVec L)} {a b : Party → List (S3Share L)} (hI : S3Ok u v w st)
    (ha : Rels S3BinSharesOf xs a) (hb : Rels S3BinSharesOf ys b) (hl : xs.length = ys.length) :
    WPS (fun i => andMany i (a i) (b i)) st
      (fun c st' => Rels S3BinSharesOf (List.zipWith (· &&& ·) xs ys) c ∧ S3Ok (u + L * xs.length) v w st') := by
  have hal := ha.length
  obtain ⟨ps, rfl, ha'⟩ := ha.aug fun s => (s 0).a ^^^ (s 1).a ^^^ (s 2).a
  obtain ⟨qs, rfl, hb'⟩ := hb.aug fun s => (s 0).a ^^^ (s 1).a ^^^ (s 2).a
  unfold andMany
  refine WPS.ite_neg (fun i => by simpa [ha.length, hb.length] using hl) ?_
  have ta : Rels BinSharesOf (ps.map (·.2)) (fun i => (a i).map S3Share.toAby) :=
    Rels.map (g := fun _ => S3Share.toAby) (fun p s h => by rw [← h.2]; exact h.1.toAby) ha'
  have tb : Rels BinSharesOf (qs.map (·.2)) (fun i => (b i).map S3Share.toAby) :=
    Rels.map (g := fun _ => S3Share.toAby) (fun p s h => by rw [← h.2]; exact h.1.toAby) hb'
  refine WPS.bind ((abyAndMany_wp hL hI ta tb (by simpa using hl)).mono ?_)
  rintro de st1 ⟨hde, hI⟩
  unfold andPostMany
  refine WPS.bind ((andPostLoop_wp hI ha' hb' (by simpa using hl) hde).mono ?_)
  rintro p st2 ⟨hp, hI⟩
  have e : (fun i => postManyWith (G := G) (K := K) (· ^^^ ·) (· ^^^ ·) mixXor S3Share.xor i (p i) (a i).length) =
      fun i => postManyWith (· ^^^ ·) (· ^^^ ·) mixXor S3Share.xor i (p i) ps.length := by
    funext i; rw [hal i, List.length_map]
  rw [e]
  simp only [List.length_map] at hI hl ⊢
  exact postBinaryMany_wp hp (by simp [hl]) hI

/-! ## Many dot products -/

theorem rels_full2 {xss : List (List (BitVec K))} {a : Party → List (List (S3Share K))}
    (h : Rels (Rels S3SharesOf) xss a) :
    ∃ pss : List (List (BitVec K × BitVec K)), pss.map (fun ps => ps.map (·.1)) = xss ∧ Rels (Rels Full) pss a := by
  induction xss generalizing a with
  | nil => rw [h.eq_nil]; exact ⟨[], rfl, Rels.nil⟩
  | cons x xs ih =>
    obtain ⟨a1, a2, h1, h2, rfl⟩ := h.uncons
    obtain ⟨ps, e, hp⟩ := rels_full h1
    obtain ⟨pss, e', hp'⟩ := ih h2
    exact ⟨ps :: pss, by simp [e, e'], Rels.cons hp hp'⟩

/-- The dot products of lists of vectors. -/
def dots (xss yss : List (List (BitVec K))) : List (BitVec K) :=
  List.zipWith (fun xs ys => (List.zipWith (· * ·) xs ys).sum) xss yss

theorem dotPostLoop_wp {pss qss : List (List (BitVec K × BitVec K))} {a b : Party → List (List (S3Share K))}
    {de : Party → List (AShare K)} (hI : S3Ok u v w st) (ha : Rels (Rels Full) pss a) (hb : Rels (Rels Full) qss b)
    (hl : List.Forall₂ (fun xs ys => xs.length = ys.length) pss qss)
    (hde : Rels SharesOf (dots (pss.map fun ps => ps.map (·.2)) (qss.map fun ps => ps.map (·.2))) de) :
    WPS (fun i => dotPostLoop ((de i).zip ((a i).zip (b i)))) st
      (fun p st' => Rels PostArith (dots (pss.map fun ps => ps.map (·.1)) (qss.map fun ps => ps.map (·.1))) p ∧
        S3Ok u v w st') := by
  induction hl generalizing a b de st with
  | nil =>
    rw [ha.eq_nil]
    simp only [List.zip_nil_left, List.zip_nil_right]
    exact WPS.pure (a := fun _ => []) ⟨Rels.nil, hI⟩
  | cons hl _ ih =>
    obtain ⟨a1, a2, h1, h2, rfl⟩ := ha.uncons
    obtain ⟨b1, b2, k1, k2, rfl⟩ := hb.uncons
    obtain ⟨d1, d2, m1, m2, rfl⟩ := Rels.uncons hde
    simp only [List.zip_cons_cons, dotPostLoop]
    refine WPS.bind ((dotPostLocal_wp hI h1 k1 hl m1).mono ?_)
    rintro p st' ⟨hp, hI'⟩
    refine WPS.bind ((ih hI' h2 k2 m2).mono ?_)
    rintro cs st'' ⟨hcs, hI''⟩
    exact WPS.pure ⟨Rels.cons hp hcs, hI''⟩

theorem dotMany_eq_wp {xss yss : List (List (BitVec K))} {a b : Party → List (List (S3Share K))} (hI : S3Ok u v w st)
    (ha : Rels (Rels S3SharesOf) xss a) (hb : Rels (Rels S3SharesOf) yss b)
    (hl : List.Forall₂ (fun xs ys => xs.length = ys.length) xss yss) :
    WPS (fun i => dotMany i (a i) (b i)) st
      (fun c st' => Rels S3SharesOf (dots xss yss) c ∧ S3Ok u v (w.addMany (xss.map List.length)) st') := by
  have hal := ha.length
  have hlen := hl.length_eq
  obtain ⟨pss, rfl, ha'⟩ := rels_full2 ha
  obtain ⟨qss, rfl, hb'⟩ := rels_full2 hb
  have hl' : List.Forall₂ (fun xs ys => xs.length = ys.length) pss qss := by
    simpa [List.forall₂_map_left_iff, List.forall₂_map_right_iff] using hl
  unfold dotMany
  refine WPS.ite_neg (fun i => by simpa [ha.length, hb.length] using hlen) ?_
  have ed : ∀ (i : Party), ((a i).zip (b i)).map (fun p => (p.1.zip p.2).map fun q => q.1.toAby) =
      (a i).map fun l => l.map S3Share.toAby := by
    intro i
    clear hl hlen hal hI ha hb
    induction hl' generalizing a b with
    | nil => rw [ha'.eq_nil]; rfl
    | @cons x y xs ys h1 hl ih =>
      obtain ⟨a1, a2, h1, h2, rfl⟩ := ha'.uncons
      obtain ⟨b1, b2, k1, k2, rfl⟩ := hb'.uncons
      simp only [List.zip_cons_cons, List.map_cons, ih h2 k2]
      congr 1
      have : (a1 i).length ≤ (b1 i).length := by rw [h1.length, k1.length]; omega
      rw [← Function.comp_def, ← List.map_map, List.map_fst_zip this]
  have ee : ∀ (i : Party), ((a i).zip (b i)).map (fun p => (p.1.zip p.2).map fun q => q.2.toAby) =
      (b i).map fun l => l.map S3Share.toAby := by
    intro i
    clear hl hlen hal hI ha hb ed
    induction hl' generalizing a b with
    | nil => rw [ha'.eq_nil, hb'.eq_nil]; rfl
    | @cons x y xs ys h1 hl ih =>
      obtain ⟨a1, a2, h1, h2, rfl⟩ := ha'.uncons
      obtain ⟨b1, b2, k1, k2, rfl⟩ := hb'.uncons
      simp only [List.zip_cons_cons, List.map_cons, ih h2 k2]
      congr 1
      have : (b1 i).length ≤ (a1 i).length := by rw [h1.length, k1.length]; omega
      rw [← Function.comp_def, ← List.map_map, List.map_snd_zip this]
  simp only [ed, ee]
  have ta : Rels (Rels SharesOf) (pss.map fun ps => ps.map (·.2)) (fun i => (a i).map fun l => l.map S3Share.toAby) :=
    Rels.map (g := fun _ l => l.map S3Share.toAby) (fun p s h => full_toAby h) ha'
  have tb : Rels (Rels SharesOf) (qss.map fun ps => ps.map (·.2)) (fun i => (b i).map fun l => l.map S3Share.toAby) :=
    Rels.map (g := fun _ l => l.map S3Share.toAby) (fun p s h => full_toAby h) hb'
  refine WPS.bind ((abyDotMany_wp hI ta tb (by simpa [List.forall₂_map_left_iff, List.forall₂_map_right_iff] using hl')).mono ?_)
  rintro de st1 ⟨hde, hI⟩
  unfold dotPostMany
  refine WPS.bind ((dotPostLoop_wp hI ha' hb' hl' hde).mono ?_)
  rintro p st2 ⟨hp, hI⟩
  have e : (fun i => postManyWith (G := G) (K := K) (· + ·) (· + ·) mixAdd S3Share.sub i (p i) (a i).length) =
      fun i => postManyWith (· + ·) (· + ·) mixAdd S3Share.sub i (p i) pss.length := by
    funext i; rw [hal i, List.length_map]
  rw [e]
  simp only [List.map_map, Function.comp_def, List.length_map] at hI hlen ⊢
  exact postArithMany_wp hp (by simp [dots, hlen]) hI

/-- The shorter of the two lengths. -/
def trunc {A B : Type} (x : List A) (y : List B) : List A := x.take y.length

theorem zip_trunc {A B : Type} (x : List A) (y : List B) : (trunc x y).zip (trunc y x) = x.zip y := by
  unfold trunc
  induction x generalizing y with
  | nil => simp
  | cons a x ih => cases y with
    | nil => simp
    | cons b y => simp [ih]

theorem zip_zipWith_trunc {A B C : Type} (f : List (A × B) → C) (x : List (List A)) (y : List (List B)) :
    (List.zip (List.zipWith trunc x y) (List.zipWith (fun x y => trunc y x) x y)).map (fun p => f (p.1.zip p.2)) =
      (x.zip y).map fun p => f (p.1.zip p.2) := by
  induction x generalizing y with
  | nil => simp
  | cons a x ih => cases y with
    | nil => simp
    | cons b y => simp [ih, zip_trunc]

theorem dotPostLoop_zip (de : List (AShare K)) (a b : List (List (S3Share K))) :
    dotPostLoop (G := G) (de.zip ((List.zipWith trunc a b).zip (List.zipWith (fun x y => trunc y x) a b))) =
      dotPostLoop (de.zip (a.zip b)) := by
  induction de generalizing a b with
  | nil => rfl
  | cons d de ih =>
    cases a with
    | nil => rfl
    | cons x a => cases b with
      | nil => rfl
      | cons y b => simp only [List.zipWith_cons_cons, List.zip_cons_cons, dotPostLoop, ih, dotPostLocal, zip_trunc]

/-- Inner vectors of different lengths are silently cut to the shorter one. -/
theorem dotMany_trunc (me : Party) (a b : List (List (S3Share K))) (h : a.length = b.length) :
    dotMany (G := G) me a b = dotMany me (List.zipWith trunc a b) (List.zipWith (fun x y => trunc y x) a b) := by
  unfold dotMany
  rw [if_neg (by simp [h]), if_neg (by simp [h]), 
    zip_zipWith_trunc (fun l : List (S3Share K × S3Share K) => l.map fun q => q.1.toAby) a b,
    zip_zipWith_trunc (fun l : List (S3Share K × S3Share K) => l.map fun q => q.2.toAby) a b]
  unfold dotPostMany
  simp only [dotPostLoop_zip, List.length_zipWith, h, Nat.min_self]

theorem dotMany_wp {xss yss : List (List (BitVec K))} {a b : Party → List (List (S3Share K))} (hI : S3Ok u v w st)
    (ha : Rels (Rels S3SharesOf) xss a) (hb : Rels (Rels S3SharesOf) yss b) (hl : xss.length = yss.length) :
    WPS (fun i => dotMany i (a i) (b i)) st
      (fun c st' => Rels S3SharesOf (dots xss yss) c ∧ S3Ok u v (w.addMany (List.zipWith (fun xs ys => min xs.length ys.length) xss yss)) st') := by
  refine WPS.congr (q := fun i => dotMany i (List.zipWith trunc (a i) (b i)) (List.zipWith (fun x y => trunc y x) (a i) (b i)))
    (fun i => dotMany_trunc i _ _ (by rw [ha.length, hb.length, hl])) ?_
  have key : ∀ (xs ys : List (BitVec K)) (a b : Party → List (S3Share K)), Rels S3SharesOf xs a → Rels S3SharesOf ys b →
      Rels S3SharesOf (trunc xs ys) (fun i => trunc (a i) (b i)) := by
    intro xs ys a b ha hb
    unfold trunc
    have := ha.take ys.length
    simp only [hb.length]; exact this
  have ha' : Rels (Rels S3SharesOf) (List.zipWith trunc xss yss) (fun i => List.zipWith trunc (a i) (b i)) :=
    Rels.zipWith (f := trunc) (g := fun _ => trunc) (fun x y b c h h' => key x y b c h h') ha hb
  have hb' : Rels (Rels S3SharesOf) (List.zipWith (fun x y => trunc y x) xss yss)
      (fun i => List.zipWith (fun x y => trunc y x) (a i) (b i)) :=
    Rels.zipWith (f := fun x y => trunc y x) (g := fun _ x y => trunc y x) (fun x y b c h h' => key y x c b h' h) ha hb
  refine (dotMany_eq_wp hI ha' hb' ?_).mono ?_
  · clear ha hb ha' hb' hl
    induction xss generalizing yss with
    | nil => simp
    | cons x xs ih => cases yss with
      | nil => simp
      | cons y ys => simp only [List.zipWith_cons_cons, List.forall₂_cons]; exact ⟨by simp [trunc]; omega, ih⟩
  · have e : dots (List.zipWith trunc xss yss) (List.zipWith (fun x y => trunc y x) xss yss) = dots xss yss := by
      unfold dots
      clear ha hb ha' hb' hl
      induction xss generalizing yss with
      | nil => rfl
      | cons x xs ih => cases yss with
        | nil => rfl
        | cons y ys =>
          simp only [List.zipWith_cons_cons, ih]
          congr 2
          have := congrArg (List.map fun p : BitVec K × BitVec K => p.1 * p.2) (zip_trunc x y)
          simpa [List.zip, List.map_zipWith] using this
    rw [e]
    rintro c st' ⟨h1, h2⟩
    refine ⟨h1, ?_⟩
    have e2 : (List.zipWith trunc xss yss).map List.length =
        List.zipWith (fun xs ys => min xs.length ys.length) xss yss := by
      rw [List.map_zipWith]
      congr 1; funext x y; simp [trunc, Nat.min_comm]
    rw [e2] at h2; exact h2

end Swift3
end Verif
