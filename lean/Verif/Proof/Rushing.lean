import Verif.Spec.Rushing
import Verif.Proof.MalAby3Iris

/-! # The attack works -/

namespace Verif

namespace MalAby3

open Jmp

variable {G : Prg} {K V : Nat} {st : Party → JmpSt G} {H : Hash}

/-- `aby_dot_many` and the toss of the coin, as run by an honest party. -/
def dotCoin (V : Nat) (me : Party) (a b : List (List (AShare V))) : Proto (JmpSt G) (List (AShare V) × BitVec V) := do
  let cs ← abyDotMany me a b
  let r ← coinElem V me
  pure (cs, r)

/-- What an honest party does after computing its components. -/
def segH (V : Nat) (me : Party) (xs : List (BitVec V)) (s1 s2 : Bytes) : Prog (List (BitVec V) × Bytes) :=
  .send me.next (ringSliceToBytes xs) (.recv me.prev fun m => Prog.ofExcept (ringVecFromBytes V m xs.length) >>= fun ys =>
    .send me.next (ringSliceToBytes (K := 8) s2) (.recv me.prev fun m' =>
      Prog.ofExcept (ringVecFromBytes 8 m' s2.length) >>= fun z => .ret (ys, z)))

/-- What the corrupt party does after computing its components. -/
def segC (V : Nat) (me : Party) (n : Nat) (s1 s2 : Bytes) (bad : Bytes → List (BitVec V)) : Prog (List (BitVec V) × Bytes) :=
  .recv me.prev fun m => Prog.ofExcept (ringVecFromBytes V m n) >>= fun ys => .recv me.prev fun m' =>
    Prog.ofExcept (ringVecFromBytes 8 m' s2.length) >>= fun z => .send me.next (ringSliceToBytes (bad z))
      (.send me.next (ringSliceToBytes (K := 8) s2) (.ret (ys, z)))

theorem ofE {α β : Type} {x : Except Err α} {a : α} (h : x = .ok a) (f : α → Prog β) : (Prog.ofExcept x >>= f) = f a := by
  rw [h]; rfl

theorem seg_wp (xs : Party → List (BitVec V)) (k : Party → Bytes) (hk : ∀ i, (k i).length = 32)
    (hl : ∀ i j, (xs i).length = (xs j).length) (bad : Bytes → List (BitVec V)) (hb : ∀ z, (bad z).length = (xs 0).length)
    {Q : (Party → List (BitVec V) × Bytes) → Prop}
    (h : Q (fun i => (if i = 1 then bad (k 1) else xs i.prev, k i.next))) :
    WP (fun i => if i = 0 then segC V i (xs 0).length (k i) (k i.prev) bad else segH V i (xs i) (k i) (k i.prev)) Q := by
  have d0 : ringVecFromBytes V (ringSliceToBytes (xs 2)) (xs 0).length = .ok (xs 2) := by
    rw [hl 0 2]; exact ringVecFromBytes_roundtrip _
  have d1 : ringVecFromBytes V (ringSliceToBytes (bad (k 1))) (xs 1).length = .ok (bad (k 1)) := by
    rw [hl 1 0, ← hb (k 1)]; exact ringVecFromBytes_roundtrip _
  have d2 : ringVecFromBytes V (ringSliceToBytes (xs 1)) (xs 2).length = .ok (xs 1) := by
    rw [hl 2 1]; exact ringVecFromBytes_roundtrip _
  have e : ∀ i j : Party, ringVecFromBytes 8 (ringSliceToBytes (K := 8) (k i)) (k j).length = .ok (k i) := by
    intro i j
    rw [hk j, ← hk i]; exact ringVecFromBytes_roundtrip _
  apply WP.of3
  show R3 (segC V 0 (xs 0).length (k 0) (k 2) bad) (segH V 1 (xs 1) (k 1) (k 0)) (segH V 2 (xs 2) (k 2) (k 1)) [] [] [] [] [] [] Q
  unfold segC segH
  apply R3.send12
  apply R3.send20
  apply R3.recv12
  rw [ofE d2]
  apply R3.send20'
  apply R3.recv20
  rw [ofE d0]
  apply R3.recv20
  rw [ofE (e 1 2)]
  apply R3.send01
  apply R3.send01'
  apply R3.recv01
  rw [ofE d1]
  apply R3.send12
  apply R3.recv01
  rw [ofE (e 2 0)]
  apply R3.recv12
  rw [ofE (e 0 1)]
  apply R3.done
  intro r h0 h1 h2
  have : r = fun i => (if i = 1 then bad (k 1) else xs i.prev, k i.next) := party_ext h0 h1 h2
  rw [this]; exact h

/-- The next state of a party in the joint step. -/
def segSt (s : JmpSt G) (s1 z : Bytes) : JmpSt G :=
  ⟨⟨(G.genSeed s.prf.my).2, (G.genSeed s.prf.next).2⟩, s.sendQueuePrev ++ ringSliceToBytes (K := 8) s1,
    s.rcvQueueNext ++ ringSliceToBytes (K := 8) z⟩

/-- The coin element. -/
def segR (G : Prg) (V : Nat) (s1 s2 z : Bytes) : BitVec V :=
  (G.gen V (G.ofSeed (List.zipWith (fun s1 (p : Byte × Byte) => s1 ^^^ (p.2 ^^^ p.1)) s1 (s2.zip z)))).1

/-- The rest of an honest party's code after it has computed its components. -/
def restH (V : Nat) (me : Party) (xs : List (BitVec V)) : Proto (JmpSt G) (List (AShare V) × BitVec V) := do
  let sharesB ← Proto.net (sendSliceAndReceiveVec me xs)
  let r ← coinElem V me
  pure (List.zipWith AShare.mk xs sharesB, r)

/-- The rest of the corrupt party's code after it has computed its components. -/
def restC (V : Nat) (me : Party) (errs : BitVec V → List (BitVec V)) (xs : List (BitVec V)) :
    Proto (JmpSt G) (List (AShare V) × BitVec V) := do
  let (seed1, seed2) ← genSeeds
  let sharesB ← Proto.net (receiveVecPrev V me xs.length)
  jmpBufferMany (K := 8) seed1
  let seed3 ← jmpReceiveMany 8 me seed2.length
  let r := (G.gen V (G.ofSeed (List.zipWith (fun s1 (p : Byte × Byte) => s1 ^^^ (p.2 ^^^ p.1)) seed1 (seed2.zip seed3)))).1
  let bad := List.zipWith (· + ·) xs (errs r)
  Proto.net (sendVecNext me bad)
  jmpSendMany (K := 8) me seed2
  pure (List.zipWith AShare.mk bad sharesB, r)

theorem restH_eq (me : Party) (xs : List (BitVec V)) (s : JmpSt G) :
    restH V me xs s = segH V me xs (G.genSeed s.prf.my).1 (G.genSeed s.prf.next).1 >>= fun p =>
      .ret ((List.zipWith AShare.mk xs p.1, segR G V (G.genSeed s.prf.my).1 (G.genSeed s.prf.next).1 p.2),
        segSt s (G.genSeed s.prf.my).1 p.2) := by
  show Prog.send _ _ (.recv _ _) = Prog.send _ _ (.recv _ _)
  congr 2
  funext m
  cases hm : ringVecFromBytes V m xs.length with
  | error e =>
    simp only [Prog.bind, hm]; rfl
  | ok ys =>
    simp only [Prog.bind, hm]
    show Prog.send _ _ (.recv _ _) = Prog.send _ _ (.recv _ _)
    congr 2
    funext m'
    cases hm' : ringVecFromBytes 8 m' (G.genSeed s.prf.next).1.length with
    | error e => simp only [Prog.bind, hm']; rfl
    | ok z =>
      simp only [Prog.bind, hm']
      simp only [segSt, ← foldl_toBytes]
      rfl

theorem restC_eq (me : Party) (errs : BitVec V → List (BitVec V)) (xs : List (BitVec V)) (s : JmpSt G) :
    restC V me errs xs s = segC V me xs.length (G.genSeed s.prf.my).1 (G.genSeed s.prf.next).1
        (fun z => List.zipWith (· + ·) xs (errs (segR G V (G.genSeed s.prf.my).1 (G.genSeed s.prf.next).1 z))) >>= fun p =>
      .ret ((List.zipWith AShare.mk (List.zipWith (· + ·) xs (errs (segR G V (G.genSeed s.prf.my).1 (G.genSeed s.prf.next).1 p.2))) p.1,
        segR G V (G.genSeed s.prf.my).1 (G.genSeed s.prf.next).1 p.2), segSt s (G.genSeed s.prf.my).1 p.2) := by
  show Prog.recv _ _ = Prog.recv _ _
  congr 1
  funext m
  cases hm : ringVecFromBytes V m xs.length with
  | error e => simp only [Prog.bind, hm]; rfl
  | ok ys =>
    simp only [Prog.bind, hm]
    show Prog.recv _ _ = Prog.recv _ _
    congr 1
    funext m'
    cases hm' : ringVecFromBytes 8 m' (G.genSeed s.prf.next).1.length with
    | error e => simp only [Prog.bind, hm']; rfl
    | ok z =>
      simp only [Prog.bind, hm']
      simp only [segSt, ← foldl_toBytes]
      rfl

theorem rush_components {xs es : List (BitVec V)} {cs : Party → List (BitVec V)} (h : Rels SumsTo xs cs)
    (hl : es.length = xs.length) :
    Rels SharesOf (List.zipWith (· + ·) xs es) (fun i =>
      List.zipWith AShare.mk (if i = 0 then List.zipWith (· + ·) (cs 0) es else cs i)
        (if i = 1 then List.zipWith (· + ·) (cs 0) es else cs i.prev)) := by
  have key : Rels SumsTo (List.zipWith (· + ·) xs es) (fun i => if i = 0 then List.zipWith (· + ·) (cs 0) es else cs i) := by
    induction xs generalizing es cs with
    | nil =>
      rw [h.eq_nil]
      have : (fun i : Party => if i = 0 then List.zipWith (· + ·) ([] : List (BitVec V)) es else []) = fun _ => [] := by
        funext i; split <;> rfl
      simpa [this] using Rels.nil
    | cons x xs ih =>
      cases es with
      | nil => simp at hl
      | cons e es =>
        obtain ⟨b, ls, hb, h', rfl⟩ := h.uncons
        have h1 : SumsTo (x + e) (fun i => if i = 0 then b 0 + e else b i) := by
          rw [SumsTo] at hb ⊢
          simp only [if_true, show (1 : Party) ≠ 0 by decide, show (2 : Party) ≠ 0 by decide, if_false]
          rw [← hb]
          ring
        have := Rels.cons h1 (ih h' (by simpa using hl))
        rw [List.zipWith_cons_cons]
        convert this using 1
        funext i
        match i with | 0 => rfl | 1 => rfl | 2 => rfl
  have := Rels.reshare (mk := AShare.mk) (fun _ _ h => h.shares) key
  convert this using 1
  funext i
  match i with | 0 => rfl | 1 => rfl | 2 => rfl

/-- The joint step: every party ends with the same coin `r`, and the shared products are off by `errs r`. -/
theorem rush_wp {xss yss : List (List (BitVec V))} {a b : Party → List (List (AShare V))} (hI : JmpOk st)
    (ha : Rels (Rels SharesOf) xss a) (hb : Rels (Rels SharesOf) yss b)
    (hl : List.Forall₂ (fun xs ys => xs.length = ys.length) xss yss)
    (errs : BitVec V → List (BitVec V)) (he : ∀ r, (errs r).length = xss.length) :
    WPS (fun i => if i = 0 then rushDotCoin V i errs (a i) (b i) else dotCoin V i (a i) (b i)) st
      (fun cr st' => ∃ r, cr = (fun i => ((cr i).1, r)) ∧ Rels SharesOf (List.zipWith (· + ·)
        (List.zipWith (fun xs ys => (List.zipWith (· * ·) xs ys).sum) xss yss) (errs r)) (fun i => (cr i).1) ∧ JmpOk st') := by
  refine WPS.congr (q := fun i => do
    let xs ← viaPrf (Aby3.dotLoop ((a i).zip (b i)))
    if i = 0 then restC V i errs xs else restH V i xs) ?_ ?_
  · intro i
    by_cases hi : i = 0
    · simp only [if_pos hi]; rfl
    · simp only [if_neg hi]
      unfold dotCoin abyDotMany restH
      rw [if_neg (by simp [ha.length, hb.length, hl.length_eq])]
      simp only [bind_assoc, pure_bind]
  refine WPS.bind ((viaPrf_wp hI fun _ h => Aby3.dotLoop_wp h ha hb hl).mono ?_)
  rintro cs st1 ⟨hcs, hI1⟩
  have hlen : ∀ i, (cs i).length = (List.zipWith (fun xs ys => (List.zipWith (· * ·) xs ys).sum) xss yss).length := hcs.length
  have hk : ∀ i, (G.genSeed (st1 i).prf.next).1 = (G.genSeed (st1 i.prev).prf.my).1 := fun i => by
    have := hI1.1 i; simp only at this; simp only [this]
  let k : Party → Bytes := fun i => (G.genSeed (st1 i).prf.my).1
  have hR : ∀ i, segR G V (k i) (k i.prev) (k i.next) = segR G V (k 0) (k 2) (k 1) := by
    intro i
    unfold segR
    rw [coinOf_eq k i, ← coinOf_eq k 0]; rfl
  set r := segR G V (k 0) (k 2) (k 1) with hr
  have hle : ∀ z, (List.zipWith (· + ·) (cs 0) (errs z)).length = (cs 0).length := by
    intro z
    simp [he, hlen, hl.length_eq]
  have main := seg_wp cs k (fun i => G.genSeed_length _) (fun i j => by rw [hlen, hlen])
    (fun z => List.zipWith (· + ·) (cs 0) (errs (segR G V (k 0) (k 2) z))) (fun z => hle _)
    (Q := fun p => p = fun i => (if i = 1 then List.zipWith (· + ·) (cs 0) (errs r) else cs i.prev, k i.next)) rfl
  have main2 : WP (fun i => (if i = 0 then segC V i (cs 0).length (k i) (k i.prev)
        (fun z => List.zipWith (· + ·) (cs 0) (errs (segR G V (k 0) (k 2) z))) else segH V i (cs i) (k i) (k i.prev)) >>= fun p =>
      .ret ((List.zipWith AShare.mk (if i = 0 then List.zipWith (· + ·) (cs 0) (errs (segR G V (k i) (k i.prev) p.2)) else cs i) p.1,
        segR G V (k i) (k i.prev) p.2), segSt (st1 i) (k i) p.2))
      (fun q => ∃ r, (fun i => (q i).1) = (fun i => ((q i).1.1, r)) ∧ Rels SharesOf (List.zipWith (· + ·)
        (List.zipWith (fun xs ys => (List.zipWith (· * ·) xs ys).sum) xss yss) (errs r)) (fun i => (q i).1.1) ∧
        JmpOk (fun i => (q i).2)) := by
    refine WP.bind (WP.mono main ?_)
    rintro p rfl
    refine WP.ret (a := fun i => _) ⟨r, ?_, ?_, ?_, ?_⟩
    · funext i
      simp only [hR]
    · simp only [hR, ← hr]
      exact rush_components hcs (by rw [he]; simp [hl.length_eq])
    · intro i
      have := hI1.1 i
      simp only [segSt] at this ⊢
      rw [this]
    · intro i
      simp only [segSt]
      rw [hI1.2 i]
  unfold WPS
  convert main2 using 2
  rename_i i
  by_cases hi : i = 0
  · subst hi
    simp only [if_true, restC_eq, hk]
    rfl
  · simp only [if_neg hi, restH_eq, hk]
    rfl

theorem dotCheck_rush (r e : BitVec V) {xs as ys : List (BitVec V)} (hl : xs.length = ys.length)
    (hl' : as.length = ys.length) {b : Party → List (AShare V)} {c0 c1 : Party → AShare V}
    (hb : Rels SharesOf ys b) (h0 : SharesOf ((List.zipWith (· * ·) xs ys).sum + e) c0)
    (h1 : SharesOf ((List.zipWith (· * ·) as ys).sum + e * r) c1) :
    SharesOf 0 (fun i => dotCheckAcc (((c0 i).neg.mulConst r).add (c1 i))
      ((List.zipWith (fun x y => x * r - y) xs as).zip (b i))) := by
  have := dotCheckAcc_rel ((h0.neg.mulConst r).add h1) hb (vs := List.zipWith (fun x y => x * r - y) xs as)
    (by simp [hl, hl'])
  rw [sacrifice_sum r xs as ys hl hl'] at this
  convert this using 1
  ring

theorem dotCheckLoop_rush (r : BitVec V) {xss ass yss : List (List (BitVec V))} {es : List (BitVec V)}
    (hl : List.Forall₂ (fun xs ys => xs.length = ys.length) xss yss) (hl' : ass.map List.length = yss.map List.length)
    (he : es.length = xss.length)
    {b : Party → List (List (AShare V))} {c0 c1 : Party → List (AShare V)} (hb : Rels (Rels SharesOf) yss b)
    (h0 : Rels SharesOf (List.zipWith (· + ·)
      (List.zipWith (fun xs ys => (List.zipWith (· * ·) xs ys).sum) xss yss) es) c0)
    (h1 : Rels SharesOf (List.zipWith (· + ·)
      (List.zipWith (fun xs ys => (List.zipWith (· * ·) xs ys).sum) ass yss) (es.map (· * r))) c1) :
    ∃ ws : Party → List (AShare V), Rels SharesOf (List.replicate yss.length 0) ws ∧
      ∀ i, dotCheckLoop r
        (List.zipWith (fun xs ys => List.zipWith (fun x y => x * r - y) xs ys) xss ass).flatten
        ((b i).zip ((c0 i).zip (c1 i))) = .ok (ws i) := by
  induction hl generalizing ass b c0 c1 es with
  | nil => rw [hb.eq_nil]; exact ⟨_, Rels.nil, fun i => rfl⟩
  | @cons xs ys xss yss hl _ ih =>
    cases ass with
    | nil => simp at hl'
    | cons as ass =>
      cases es with
      | nil => simp at he
      | cons e es =>
        simp only [List.map_cons, List.cons.injEq] at hl'
        simp only [List.zipWith_cons_cons, List.map_cons] at h0 h1
        obtain ⟨b1, b2, hb1, hb2, rfl⟩ := hb.uncons
        obtain ⟨d1, d2, hd1, hd2, rfl⟩ := h0.uncons
        obtain ⟨e1, e2, he1, he2, rfl⟩ := h1.uncons
        obtain ⟨ws, hws, ew⟩ := ih hl'.2 (by simpa using he) hb2 hd2 he2
        refine ⟨_, Rels.cons (dotCheck_rush r e hl hl'.1 hb1 hd1 he1) hws, fun i => ?_⟩
        have lz : (List.zipWith (fun x y => x * r - y) xs as).length = (b1 i).length := by
          rw [hb1.length]; simp [hl, hl'.1]
        simp only [List.zipWith_cons_cons, List.flatten_cons, List.zip_cons_cons, dotCheckLoop]
        rw [if_neg (by rw [List.length_append]; omega), ← lz, List.drop_left, List.take_left, ew i]
        rfl

/-- `dot_many` with party 0 corrupt: nobody notices, and the results are off by `es`. -/
theorem rushDotMany_wp (hV : 40 ≤ verifWidth K - K) {xss yss : List (List (BitVec K))}
    {a b : Party → List (List (AShare K))} (hI : JmpOk st) (ha : Rels (Rels SharesOf) xss a)
    (hb : Rels (Rels SharesOf) yss b) (hl : List.Forall₂ (fun xs ys => xs.length = ys.length) xss yss)
    (es : List (BitVec (verifWidth K))) (he : es.length = xss.length) :
    WPS (fun i => if i = 0 then rushDotMany H i es (a i) (b i) else dotMany H i (a i) (b i)) st
      (fun c st' => Rels SharesOf (List.zipWith (fun d (e : BitVec (verifWidth K)) => d + e.setWidth K)
        (List.zipWith (fun xs ys => (List.zipWith (· * ·) xs ys).sum) xss yss) es) c ∧ JmpOk st') := by
  have hKV : K ≤ verifWidth K := by omega
  refine WPS.congr (q := fun i => do
      let av := (a i).map fun l => l.map (·.toVerif (verifWidth K))
      let bv := (b i).map fun l => l.map (·.toVerif (verifWidth K))
      let a' ← genRandVecs (verifWidth K) (bv.map List.length)
      let cr ← (if i = 0 then rushDotCoin (verifWidth K) i (fun r => es ++ es.map (· * r)) (av ++ a') (bv ++ bv)
        else dotCoin (verifWidth K) i (av ++ a') (bv ++ bv))
      let v ← reconstructMany i
        (List.zipWith (fun xs ys => List.zipWith (fun x y => (x.mulConst cr.2).sub y) xs ys) av a').flatten
      jmpVerify H i
      let ws ← Proto.lift (dotCheckLoop cr.2 v (bv.zip ((cr.1.take (a i).length).zip (cr.1.drop (a i).length))))
      Proto.net (hashZeroVerify H i ws)
      pure ((cr.1.take (a i).length).map (·.fromVerif K))) ?_ ?_
  · intro i
    by_cases hi : i = 0
    · simp only [if_pos hi]; rfl
    · simp only [if_neg hi]
      unfold dotMany dotSacrificeMany dotCoin
      rw [if_neg (by simp [ha.length, hb.length, hl.length_eq]), if_neg (by omega)]
      simp only [bind_assoc, pure_bind]
  generalize verifWidth K = V at *
  obtain ⟨X, rfl, hX⟩ := ha.toVerifs hKV
  obtain ⟨Y, rfl, hY⟩ := hb.toVerifs hKV
  have hXY : List.Forall₂ (fun xs ys => xs.length = ys.length) X Y := by
    rw [List.forall₂_map_left_iff, List.forall₂_map_right_iff] at hl
    simpa using hl
  have hlen : ∀ i, ((b i).map fun l => l.map (·.toVerif V)).map List.length = Y.map List.length := by
    intro i
    have h2 := hY
    obtain ⟨js, hj, e⟩ := h2
    rw [congrFun e i]
    rw [List.map_map]
    clear e hl hXY hY hb
    induction hj with
    | nil => rfl
    | cons h _ ih => simp only [List.map_cons, ih, Function.comp, h.length]
  simp only [ha.length, List.length_map] at hlen he ⊢
  simp only [hlen]
  refine WPS.bind ((genRandVecs_wp _ hI).mono ?_)
  rintro a' st1 ⟨⟨A', lA', ha'⟩, hI⟩
  have hAY : List.Forall₂ (fun xs ys => xs.length = ys.length) A' Y := by
    clear ha' hXY hlen hY hX hl hb ha
    clear he
    induction Y generalizing A' with
    | nil => simp at lA'; subst lA'; exact .nil
    | cons y Y ih =>
      cases A' with
      | nil => simp at lA'
      | cons x A' =>
        simp only [List.map_cons, List.cons.injEq] at lA'
        exact .cons lA'.1 (ih A' lA'.2)
  have hAX : A'.length = X.length := hAY.length_eq.trans hXY.length_eq.symm
  refine WPS.bind ((rush_wp hI (hX.append ha') (hY.append hY) (List.rel_append hXY hAY) (fun r => es ++ es.map (· * r))
    (fun r => by simp [he, hAX])).mono ?_)
  rintro cr st2 ⟨r, hcr, hcs, hI⟩
  obtain ⟨cs, rfl⟩ : ∃ cs : Party → List (AShare V), cr = fun i => (cs i, r) := ⟨_, hcr⟩
  simp only at hcs ⊢
  have hz : (List.zipWith (fun xs ys => (List.zipWith (· * ·) xs ys).sum) X Y).length = es.length := by
    simp [he, hXY.length_eq]
  rw [List.zipWith_append hXY.length_eq, List.zipWith_append hz] at hcs
  have h0 := hcs.take X.length
  have h1 := hcs.drop X.length
  rw [List.take_left' (by simp [hXY.length_eq, he])] at h0
  rw [List.drop_left' (by simp [hXY.length_eq, he])] at h1
  have ho := (Rels.zipWith (f := fun xs ys => List.zipWith (fun x y => x * r - y) xs ys)
    (g := fun _ xs ys => List.zipWith (fun x y => (AShare.mulConst x r).sub y) xs ys)
    (fun _ _ _ _ h h' => sacrificeOpen_rel r h h') hX ha').flatten
  refine WPS.bind ((reconstructMany_wp ho hI).mono ?_)
  rintro v st4 ⟨hv, hI⟩
  obtain rfl := funext hv
  refine WPS.bind ((jmpVerify_wp H hI).mono ?_)
  rintro _ st5 hI
  obtain ⟨ws, hws, ew⟩ := dotCheckLoop_rush r hXY lA' he hY h0 h1
  refine WPS.bind (WPS.lift ew ?_)
  refine WPS.bind (WPS.net (hashZeroVerify_wp H hws ?_))
  refine WPS.pure (a := fun i => ((cs i).take X.length).map (·.fromVerif K)) ?_
  refine ⟨?_, hI⟩
  have := h0.fromVerif hKV
  convert this using 1
  rw [List.map_zipWith]
  simp only [BitVec.setWidth_add _ _ hKV]
  have hm : List.zipWith (fun xs ys => (List.zipWith (· * ·) xs ys).sum) (X.map fun l => l.map (·.setWidth K))
      (Y.map fun l => l.map (·.setWidth K)) =
      (List.zipWith (fun xs ys => (List.zipWith (· * ·) xs ys).sum) X Y).map (·.setWidth K) := by
    rw [List.map_zipWith, List.zipWith_map]
    simp only [setWidth_sum hKV, setWidth_prods hKV]
  rw [hm, List.zipWith_map_left]

end MalAby3

end Verif
