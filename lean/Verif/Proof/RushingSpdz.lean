import Verif.Spec.RushingSpdz
import Verif.Proof.Rushing
import Verif.Proof.PairSpdz
import Verif.Props.Codec

/-! # The attack on the triples works -/

namespace Verif

namespace Spdz

open Jmp MalAby3

variable {G : Prg} {K V : Nat} {H : Hash}

theorem zoom_bind {σ τ α β : Type} {get : σ → τ} {set : σ → τ → σ} (h1 : ∀ s t, get (set s t) = t)
    (h2 : ∀ s t t', set (set s t) t' = set s t') (p : Proto τ α) (f : α → Proto τ β) :
    Proto.zoom get set (p >>= f) = Proto.zoom get set p >>= fun a => Proto.zoom get set (f a) := by
  funext s
  show ((p (get s) >>= fun x => f x.1 x.2) >>= fun r => (.ret (r.1, set s r.2) : Prog (β × σ))) =
    (p (get s) >>= fun r => (.ret (r.1, set s r.2) : Prog (α × σ))) >>= fun x =>
      (f x.1 (get x.2) >>= fun r => (.ret (r.1, set x.2 r.2) : Prog (β × σ)))
  rw [Prog.bind_assoc', Prog.bind_assoc']
  refine congrArg (p (get s) >>= ·) ?_
  funext x
  show _ = (f x.1 (get (set s x.2)) >>= fun r => (.ret (r.1, set (set s x.2) r.2) : Prog (β × σ)))
  simp only [h1, h2]

theorem viaPrf_bind {α β : Type} (p : Proto (Aby3St G) α) (f : α → Proto (Aby3St G) β) :
    viaPrf (p >>= f) = viaPrf p >>= fun a => viaPrf (f a) := by
  unfold viaPrf
  apply zoom_bind <;> intros <;> rfl

theorem viaPrf_pure {α : Type} (a : α) : (viaPrf (pure a) : Proto (JmpSt G) α) = pure a := rfl

theorem viaPrf_net {α : Type} (p : Prog α) : (viaPrf (Proto.net p) : Proto (JmpSt G) α) = Proto.net p := by
  funext s
  show (p >>= fun a => (.ret (a, (⟨s.prf⟩ : Aby3St G)) : Prog (α × Aby3St G))) >>= (fun r => (.ret (r.1, { s with prf := r.2.prf }) :
    Prog (α × JmpSt G))) = (p >>= fun a => (.ret (a, s) : Prog (α × JmpSt G)))
  rw [Prog.bind_assoc']
  rfl

theorem viaJmp_bind {α β : Type} (p : Proto (JmpSt G) α) (f : α → Proto (JmpSt G) β) :
    (viaJmp (p >>= f) : Proto (SpdzSt G V) β) = viaJmp p >>= fun a => viaJmp (f a) := by
  unfold viaJmp
  apply zoom_bind <;> intros <;> rfl

theorem viaJmp_pure {α : Type} (a : α) : (viaJmp (pure a) : Proto (SpdzSt G V) α) = pure a := rfl

/-! ## Undoing the shuffle -/

theorem swapBitC_swapBitC (l : List (BitVec 128)) {i j : Nat} (hi : i < 128 * l.length) (hj : j < 128 * l.length) :
    swapBitC (swapBitC l i j) i j = l := by
  apply wordBit_ext (by rw [swapBitC_length, swapBitC_length])
  intro k
  rw [wordBit_swap _ (by rwa [swapBitC_length]) (by rwa [swapBitC_length]), wordBit_swap _ hi hj, Equiv.swap_apply_self]

theorem unshuffle_length (n j : Nat) (s : G.S) (l : List (BitVec 128)) : (unshuffle G n j s l).length = l.length := by
  induction n generalizing j s with
  | zero => rfl
  | succ n ih => rw [unshuffle, swapBitC_length, ih]

theorem permC_unshuffle (n j : Nat) (s : G.S) (l : List (BitVec 128)) (h : n + j = 128 * l.length) :
    permC G n j s (unshuffle G n j s l) = l := by
  induction n generalizing j s with
  | zero => rfl
  | succ n ih =>
    have hlt := G.genRange_lt (n + 1) s (by omega)
    rw [permC, unshuffle, swapBitC_swapBitC _ (by rw [unshuffle_length]; omega) (by rw [unshuffle_length]; omega)]
    exact ih _ _ (by omega)

/-! ## Triples with errors -/

theorem wrong_take {es : List (BitVec 128)} {a b c : Party → List (AShare 128)} (h : WrongTriplesOf es a b c) (m : Nat) :
    WrongTriplesOf (es.take m) (fun i => (a i).take m) (fun i => (b i).take m) (fun i => (c i).take m) := by
  obtain ⟨xs, ys, hx, hy, ha, hb, hc⟩ := h
  refine ⟨xs.take m, ys.take m, by simp [hx], by simp [hy], ha.take m, hb.take m, ?_⟩
  have := hc.take m
  rwa [List.take_zipWith, List.take_zipWith] at this

theorem wrong_drop {es : List (BitVec 128)} {a b c : Party → List (AShare 128)} (h : WrongTriplesOf es a b c) (m : Nat) :
    WrongTriplesOf (es.drop m) (fun i => (a i).drop m) (fun i => (b i).drop m) (fun i => (c i).drop m) := by
  obtain ⟨xs, ys, hx, hy, ha, hb, hc⟩ := h
  refine ⟨xs.drop m, ys.drop m, by simp [hx], by simp [hy], ha.drop m, hb.drop m, ?_⟩
  have := hc.drop m
  rwa [List.drop_zipWith, List.drop_zipWith] at this

theorem wrong_append {es es' : List (BitVec 128)} {a b c a' b' c' : Party → List (AShare 128)} (h : WrongTriplesOf es a b c)
    (h' : WrongTriplesOf es' a' b' c') :
    WrongTriplesOf (es ++ es') (fun i => a i ++ a' i) (fun i => b i ++ b' i) (fun i => c i ++ c' i) := by
  obtain ⟨xs, ys, hx, hy, ha, hb, hc⟩ := h
  obtain ⟨xs', ys', hx', hy', ha', hb', hc'⟩ := h'
  refine ⟨xs ++ xs', ys ++ ys', by simp [hx, hx'], by simp [hy, hy'], ha.append ha', hb.append hb', ?_⟩
  rw [List.zipWith_append (by rw [hx, hy]), List.zipWith_append (by simp [hx, hy])]
  exact hc.append hc'

theorem wrong_length {es : List (BitVec 128)} {a b c : Party → List (AShare 128)} (h : WrongTriplesOf es a b c) (i : Party) :
    (a i).length = es.length ∧ (b i).length = es.length ∧ (c i).length = es.length := by
  obtain ⟨xs, ys, hx, hy, ha, hb, hc⟩ := h
  exact ⟨by rw [ha.length, hx], by rw [hb.length, hy], by rw [hc.length]; simp [hx, hy]⟩

theorem wrong_perm {es : List (BitVec 128)} {n : Nat} (hn : es.length = n) {a b c : Party → List (AShare 128)}
    (h : WrongTriplesOf es a b c) (s : G.S) :
    WrongTriplesOf (permC G (n * 128) 0 s es) (fun i => AShare.mapLists (permC G (n * 128) 0 s) (a i))
      (fun i => AShare.mapLists (permC G (n * 128) 0 s) (b i)) (fun i => AShare.mapLists (permC G (n * 128) 0 s) (c i)) := by
  obtain ⟨xs, ys, hx, hy, ha, hb, hc⟩ := h
  rw [hn] at hx hy
  refine ⟨permC G (n * 128) 0 s xs, permC G (n * 128) 0 s ys, by rw [permC_length, permC_length, hx, hn],
    by rw [permC_length, permC_length, hy, hn],
    BinSharesOf.mapLists (permC_linear n s) hx ha, BinSharesOf.mapLists (permC_linear n s) hy hb, ?_⟩
  rw [← permC_and n s hx hy, ← (permC_linear n s).xor _ _ (by simp [hx, hy]) hn]
  exact BinSharesOf.mapLists (permC_linear n s) (by simp [hx, hy, hn]) hc

theorem wrong_unsnoc {es : List (BitVec 128)} {e : BitVec 128} {a b c : Party → List (AShare 128)}
    (h : WrongTriplesOf (es ++ [e]) a b c) :
    ∃ (a1 b1 c1 : Party → List (AShare 128)) (x y z : Party → AShare 128) (u v : BitVec 128),
      WrongTriplesOf es a1 b1 c1 ∧ BinSharesOf u x ∧ BinSharesOf v y ∧ BinSharesOf ((u &&& v) ^^^ e) z ∧
      a = (fun i => a1 i ++ [x i]) ∧ b = (fun i => b1 i ++ [y i]) ∧ c = (fun i => c1 i ++ [z i]) := by
  obtain ⟨xs, ys, hx, hy, ha, hb, hc⟩ := h
  rw [List.length_append] at hx hy
  obtain ⟨xs, u, rfl, hx'⟩ := eq_snoc_of_length hx
  obtain ⟨ys, v, rfl, hy'⟩ := eq_snoc_of_length hy
  rw [zipWith_snoc _ (by rw [hx', hy']), zipWith_snoc _ (by simp [hx', hy'])] at hc
  obtain ⟨a1, x, ha1, hux, rfl⟩ := ha.unsnoc
  obtain ⟨b1, y, hb1, hvy, rfl⟩ := hb.unsnoc
  obtain ⟨c1, z, hc1, hz, rfl⟩ := hc.unsnoc
  exact ⟨a1, b1, c1, x, y, z, u, v, ⟨xs, ys, hx', hy', ha1, hb1, hc1⟩, hux, hvy, hz, rfl, rfl, rfl⟩

theorem tripleErrors_same {xs ys xs' ys' es : List (BitVec 128)} (h1 : xs.length = es.length) (h2 : ys.length = es.length)
    (h3 : xs'.length = es.length) (h4 : ys'.length = es.length) :
    tripleErrors xs ys (List.zipWith (· ^^^ ·) (List.zipWith (· &&& ·) xs ys) es) xs' ys'
      (List.zipWith (· ^^^ ·) (List.zipWith (· &&& ·) xs' ys') es) = List.replicate es.length 0 := by
  have e1 := errorsOf_wrong (xs := xs) (ys := ys) (es := es) (by omega) (by omega)
  have e2 := errorsOf_wrong (xs := xs') (ys := ys') (es := es) (by omega) (by omega)
  unfold errorsOf at e1 e2
  unfold tripleErrors
  rw [e1, e2, zipWith_xor_self]

/-- `verify_triples` accepts triples with the same errors. -/
theorem verifyWrong_wp {st : Party → SpdzSt G V} {es : List (BitVec 128)} {a b c x y z : Party → List (AShare 128)}
    (hJ : JmpOk (fun i => (st i).jmp)) (h : WrongTriplesOf es a b c) (h' : WrongTriplesOf es x y z) :
    WPS (fun i => verifyTriples H i (a i) (b i) (c i) (x i) (y i) (z i)) st
      (fun _ st' => ∃ j : Party → JmpSt G, JmpOk j ∧ st' = fun i => { st i with jmp := j i }) := by
  obtain ⟨xs, ys, l1, l2, ha, hb, hc⟩ := h
  obtain ⟨xs', ys', l3, l4, hx, hy, hz⟩ := h'
  unfold verifyTriples
  refine WPS.bind ((triplesZero_wp (H := H) hJ ha hb hc hx hy hz (by omega) (by simp; omega) (by omega) (by omega) (by simp; omega)).mono ?_)
  rintro w st' ⟨hw, hj⟩
  rw [tripleErrors_same l1 l2 l3 l4] at hw
  exact WPS.net (binHashZeroVerify_wp H hw hj)

/-! ## The joint step -/

/-- `and_many` and the toss of the coin, as run by an honest party. -/
def andCoin (me : Party) (n : Nat) (a b : List (AShare 128)) : Proto (JmpSt G) (List (AShare 128) × Bytes) := do
  let cs ← viaPrf (Aby3.andMany me a b)
  if (a.drop n).length ≠ (b.drop n).length ∨ (a.drop n).length ≠ (cs.drop n).length then Proto.throw .invalidSize
  else do
    let seed ← coin me
    pure (cs, seed)

/-- The seed of the shuffle. -/
def seedOf (s1 s2 z : Bytes) : Bytes := List.zipWith (fun s1 (p : Byte × Byte) => s1 ^^^ (p.2 ^^^ p.1)) s1 (s2.zip z)

/-- The rest of an honest party's code after it has computed its components. -/
def andRestH (me : Party) (n : Nat) (a b : List (AShare 128)) (xs : List (BitVec 128)) :
    Proto (JmpSt G) (List (AShare 128) × Bytes) := do
  let sharesB ← Proto.net (sendSliceAndReceiveIter me xs)
  if (a.drop n).length ≠ (b.drop n).length ∨ (a.drop n).length ≠ ((List.zipWith AShare.mk xs sharesB).drop n).length then
    Proto.throw .invalidSize
  else do
    let r ← coin me
    pure (List.zipWith AShare.mk xs sharesB, r)

/-- The rest of the corrupt party's code after it has computed its components. -/
def andRestC (me : Party) (errs : Bytes → List (BitVec 128)) (xs : List (BitVec 128)) :
    Proto (JmpSt G) (List (AShare 128) × Bytes) := do
  let (seed1, seed2) ← genSeeds
  let sharesB ← Proto.net (receiveVecPrev 128 me xs.length)
  jmpBufferMany (K := 8) seed1
  let seed3 ← jmpReceiveMany 8 me seed2.length
  let seed := List.zipWith (fun s1 (p : Byte × Byte) => s1 ^^^ (p.2 ^^^ p.1)) seed1 (seed2.zip seed3)
  let bad := List.zipWith (· ^^^ ·) xs (errs seed)
  Proto.net (sendVecNext me bad)
  jmpSendMany (K := 8) me seed2
  pure (List.zipWith AShare.mk bad sharesB, seed)

theorem andRestH_eq (me : Party) (n : Nat) {a b : List (AShare 128)} {xs : List (BitVec 128)} (hab : a.length = b.length)
    (hax : a.length = xs.length) (s : JmpSt G) :
    andRestH me n a b xs s = segH 128 me xs (G.genSeed s.prf.my).1 (G.genSeed s.prf.next).1 >>= fun p =>
      .ret ((List.zipWith AShare.mk xs p.1, seedOf (G.genSeed s.prf.my).1 (G.genSeed s.prf.next).1 p.2),
        segSt s (G.genSeed s.prf.my).1 p.2) := by
  show Prog.send _ _ (.recv _ _) = Prog.send _ _ (.recv _ _)
  congr 2
  funext m
  have hi := C03_iter_eq_vec_partial 128 xs.length (by decide) m
  cases hm : ringVecFromBytes 128 m xs.length with
  | error e =>
    rw [hm] at hi
    simp only [Prog.bind, hm, hi]; rfl
  | ok ys =>
    rw [hm] at hi
    have hy := (ringVecFromBytes_ok hm).1
    have hc : ¬ ((a.drop n).length ≠ (b.drop n).length ∨
        (a.drop n).length ≠ ((List.zipWith AShare.mk xs ys).drop n).length) := by
      simp [hab, ← hax, hy]
    simp only [Prog.bind, hm, hi]
    simp only [Prog.ofExcept, Prog.bind]
    rw [if_neg hc]
    show Prog.send _ _ (.recv _ _) = Prog.send _ _ (.recv _ _)
    congr 2
    funext m'
    cases hm' : ringVecFromBytes 8 m' (G.genSeed s.prf.next).1.length with
    | error e => simp only [Prog.bind, hm']; rfl
    | ok z =>
      simp only [Prog.bind, hm']
      simp only [segSt, ← foldl_toBytes]
      rfl

theorem andRestC_eq (me : Party) (errs : Bytes → List (BitVec 128)) (xs : List (BitVec 128)) (s : JmpSt G) :
    andRestC me errs xs s = segC 128 me xs.length (G.genSeed s.prf.my).1 (G.genSeed s.prf.next).1
        (fun z => List.zipWith (· ^^^ ·) xs (errs (seedOf (G.genSeed s.prf.my).1 (G.genSeed s.prf.next).1 z))) >>= fun p =>
      .ret ((List.zipWith AShare.mk (List.zipWith (· ^^^ ·) xs (errs (seedOf (G.genSeed s.prf.my).1 (G.genSeed s.prf.next).1 p.2))) p.1,
        seedOf (G.genSeed s.prf.my).1 (G.genSeed s.prf.next).1 p.2), segSt s (G.genSeed s.prf.my).1 p.2) := by
  show Prog.recv _ _ = Prog.recv _ _
  congr 1
  funext m
  cases hm : ringVecFromBytes 128 m xs.length with
  | error e => simp only [Prog.bind, hm]; rfl
  | ok ys =>
    simp only [Prog.bind, hm]
    show Prog.recv _ _ = Prog.recv _ _
    congr 1
    funext m'
    cases hm' : ringVecFromBytes 8 m' (G.genSeed s.prf.next).1.length with
    | error e => simp only [Prog.bind, hm']; rfl
    | ok z =>
      simp only [Prog.bind, hm']
      simp only [segSt, ← foldl_toBytes]
      rfl

theorem xor_components {xs es : List (BitVec K)} {cs : Party → List (BitVec K)} (h : Rels XorsTo xs cs)
    (hl : es.length = xs.length) :
    Rels XorsTo (List.zipWith (· ^^^ ·) xs es) (fun i => if i = 0 then List.zipWith (· ^^^ ·) (cs 0) es else cs i) := by
  induction xs generalizing es cs with
  | nil =>
    rw [h.eq_nil]
    have : (fun i : Party => if i = 0 then List.zipWith (· ^^^ ·) ([] : List (BitVec K)) es else []) = fun _ => [] := by
      funext i; split <;> rfl
    simpa [this] using Rels.nil
  | cons x xs ih =>
    cases es with
    | nil => simp at hl
    | cons e es =>
      obtain ⟨b, ls, hb, h', rfl⟩ := h.uncons
      have h1 : XorsTo (x ^^^ e) (fun i => if i = 0 then b 0 ^^^ e else b i) := by
        rw [XorsTo] at hb ⊢
        simp only [if_true, show (1 : Party) ≠ 0 by decide, show (2 : Party) ≠ 0 by decide, if_false]
        rw [← hb]
        bitwise
      have := Rels.cons h1 (ih h' (by simpa using hl))
      rw [List.zipWith_cons_cons]
      convert this using 1
      funext i
      match i with | 0 => rfl | 1 => rfl | 2 => rfl

theorem xor_reshared {xs es : List (BitVec K)} {cs : Party → List (BitVec K)} (h : Rels XorsTo xs cs)
    (hl : es.length = xs.length) :
    Rels BinSharesOf (List.zipWith (· ^^^ ·) xs es) (fun i =>
      List.zipWith AShare.mk (if i = 0 then List.zipWith (· ^^^ ·) (cs 0) es else cs i)
        (if i = 1 then List.zipWith (· ^^^ ·) (cs 0) es else cs i.prev)) := by
  have := Rels.reshare (mk := AShare.mk) (fun _ _ h => h.shares) (xor_components h hl)
  convert this using 1
  funext i
  match i with | 0 => rfl | 1 => rfl | 2 => rfl

/-- The joint step: every party ends with the same seed, and the products are off by `errs seed`. -/
theorem rushAnd_wp {st : Party → JmpSt G} {xs ys : List (BitVec 128)} {a b : Party → List (AShare 128)} (hI : JmpOk st)
    (ha : Rels BinSharesOf xs a) (hb : Rels BinSharesOf ys b) (hl : xs.length = ys.length)
    (n : Nat) (errs : Bytes → List (BitVec 128)) (he : ∀ r, (errs r).length = xs.length) :
    WPS (fun i => if i = 0 then rushAndCoin i errs (a i) (b i) else andCoin i n (a i) (b i)) st
      (fun cr st' => (∃ r, cr = (fun i => ((cr i).1, r)) ∧ Rels BinSharesOf (List.zipWith (· ^^^ ·)
        (List.zipWith (· &&& ·) xs ys) (errs r)) (fun i => (cr i).1)) ∧ JmpOk st') := by
  refine WPS.congr (q := fun i => do
    let xs ← viaPrf (Aby3.andLoop ((a i).zip (b i)))
    if i = 0 then andRestC i errs xs else andRestH i n (a i) (b i) xs) ?_ ?_
  · intro i
    by_cases hi : i = 0
    · simp only [if_pos hi]; rfl
    · simp only [if_neg hi]
      unfold andCoin Aby3.andMany andRestH
      rw [if_neg (by simp [ha.length, hb.length, hl])]
      simp only [viaPrf_bind, viaPrf_pure, viaPrf_net, bind_assoc, pure_bind]
  refine WPS.bind ((viaPrf_wp hI fun _ h => Aby3.andLoop_wp (v := 0) h ha hb hl).mono ?_)
  rintro cs st1 ⟨hcs, hI1⟩
  have hlen : ∀ i, (cs i).length = (List.zipWith (· &&& ·) xs ys).length := hcs.length
  have hk : ∀ i, (G.genSeed (st1 i).prf.next).1 = (G.genSeed (st1 i.prev).prf.my).1 := fun i => by
    have := hI1.1 i; simp only at this; simp only [this]
  let k : Party → Bytes := fun i => (G.genSeed (st1 i).prf.my).1
  have hR : ∀ i, seedOf (k i) (k i.prev) (k i.next) = seedOf (k 0) (k 2) (k 1) := by
    intro i
    unfold seedOf
    rw [coinOf_eq k i, ← coinOf_eq k 0]; rfl
  set r := seedOf (k 0) (k 2) (k 1) with hr
  have hle : ∀ z, (List.zipWith (· ^^^ ·) (cs 0) (errs z)).length = (cs 0).length := by
    intro z
    simp [he, hlen, hl]
  have main := seg_wp cs k (fun i => G.genSeed_length _) (fun i j => by rw [hlen, hlen])
    (fun z => List.zipWith (· ^^^ ·) (cs 0) (errs (seedOf (k 0) (k 2) z))) (fun z => hle _)
    (Q := fun p => p = fun i => (if i = 1 then List.zipWith (· ^^^ ·) (cs 0) (errs r) else cs i.prev, k i.next)) rfl
  have main2 : WP (fun i => (if i = 0 then segC 128 i (cs 0).length (k i) (k i.prev)
        (fun z => List.zipWith (· ^^^ ·) (cs 0) (errs (seedOf (k 0) (k 2) z))) else segH 128 i (cs i) (k i) (k i.prev)) >>= fun p =>
      .ret ((List.zipWith AShare.mk (if i = 0 then List.zipWith (· ^^^ ·) (cs 0) (errs (seedOf (k i) (k i.prev) p.2)) else cs i) p.1,
        seedOf (k i) (k i.prev) p.2), segSt (st1 i) (k i) p.2))
      (fun q => (∃ r, (fun i => (q i).1) = (fun i => ((q i).1.1, r)) ∧ Rels BinSharesOf (List.zipWith (· ^^^ ·)
        (List.zipWith (· &&& ·) xs ys) (errs r)) (fun i => (q i).1.1)) ∧
        JmpOk (fun i => (q i).2)) := by
    refine WP.bind (WP.mono main ?_)
    rintro p rfl
    refine WP.ret (a := fun i => _) ⟨⟨r, ?_, ?_⟩, ?_, ?_⟩
    · funext i
      simp only [hR]
    · simp only [hR]
      exact xor_reshared hcs (by rw [he]; simp [hl])
    · intro i
      have := hI1.1 i
      simp only [segSt] at this ⊢
      rw [this]
    · intro i
      simp only [segSt]
      rw [hI1.2 i]
  unfold WPS
  convert main2 using 2
  rename_i i
  by_cases hi : i = 0
  · subst hi
    simp only [if_true, andRestC_eq, hk]
    rfl
  · simp only [if_neg hi]
    rw [andRestH_eq i n (by rw [ha.length, hb.length, hl]) (by rw [ha.length, hlen]; simp [hl])]
    simp only [hk]
    rfl

/-! ## Generation of triples -/

/-- The code of `generate_triples` after the toss of the coin. -/
def genTail (H : Hash) (me : Party) (n : Nat) (a b : List (AShare 128)) (cr : List (AShare 128) × Bytes) :
    Proto (SpdzSt G V) Triples := do
  let (xs, ys, zs) := permuteLoop G ((a.drop n).length * 128) 0 (G.ofSeed cr.2) (a.drop n, b.drop n, cr.1.drop n)
  let (x, xs) ← Proto.lift (popE xs)
  let (y, ys) ← Proto.lift (popE ys)
  let (z, zs) ← Proto.lift (popE zs)
  let opened ← openBinMany me [x, y, z]
  let o0 ← Proto.lift (idx opened 0)
  let o1 ← Proto.lift (idx opened 1)
  let o2 ← Proto.lift (idx opened 2)
  if (o0 &&& o1) ≠ o2 then Proto.throw .verify
  else do
    verifyTriples H me (a.take n) (b.take n) (cr.1.take n) xs ys zs
    Proto.lift (Triples.new (a.take n) (b.take n) (cr.1.take n))

variable {st : Party → SpdzSt G V}

/-- The honest code with the products and the coin in one step. -/
theorem genRest_eq (me : Party) (n : Nat) (a b : List (AShare 128)) :
    (do let c ← viaAby (Aby3.andMany me a b); genRest H me n a b c : Proto (SpdzSt G V) Triples) =
      (do let cr ← viaJmp (andCoin me n a b); genTail H me n a b cr) := by
  unfold andCoin viaAby
  rw [viaJmp_bind, bind_assoc]
  refine congrArg (viaJmp (viaPrf (Aby3.andMany me a b)) >>= ·) ?_
  funext c
  unfold genRest permute
  split
  · rfl
  · rw [viaJmp_bind, bind_assoc, bind_assoc]
    simp only [viaJmp_pure, pure_bind]
    rfl

theorem rushGenerate_wp (num : Nat) (es : List (BitVec 128)) (he : es.length = max num minTriples)
    (hJ : JmpOk (fun i => (st i).jmp)) :
    WPS (fun i => if i = 0 then rushGenerate H i num es else generateTriples H i num) st (fun t st' =>
      (WrongTriplesOf es (fun i => (t i).a) (fun i => (t i).b) (fun i => (t i).c) ∧ ∀ i, (t i).bitsInLast = 128) ∧
      ∃ j : Party → JmpSt G, JmpOk j ∧ st' = fun i => { st i with jmp := j i }) := by
  generalize hn : max num minTriples = n at he
  have key : ∀ (a b c : Party → List (AShare 128)) (seed : Bytes) (st : Party → SpdzSt G V), JmpOk (fun i => (st i).jmp) →
      WrongTriplesOf (es ++ unshuffle G ((n + 1) * 128) 0 (G.ofSeed seed) (es ++ [0])) a b c →
      WPS (fun i => genTail H i n (a i) (b i) (c i, seed)) st (fun t st' =>
        (WrongTriplesOf es (fun i => (t i).a) (fun i => (t i).b) (fun i => (t i).c) ∧ ∀ i, (t i).bitsInLast = 128) ∧
        ∃ j : Party → JmpSt G, JmpOk j ∧ st' = fun i => { st i with jmp := j i }) := by
    intro a b c seed st hJ hT
    have hlen := fun i => wrong_length hT i
    simp only [List.length_append, unshuffle_length, List.length_singleton, he] at hlen
    have hD := wrong_drop hT n
    rw [List.drop_left' he] at hD
    have hT2 := wrong_take hT n
    rw [List.take_left' he] at hT2
    have hP := wrong_perm (n := n + 1) (by rw [unshuffle_length]; simp [he]) hD (G.ofSeed seed)
    rw [permC_unshuffle _ _ _ _ (by simp [he]; omega)] at hP
    obtain ⟨a1, b1, c1, x, y, z, u, v, hT1, hx, hy, hz, ea, eb, ec⟩ := wrong_unsnoc hP
    unfold genTail
    have e1 : ∀ i, ((a i).drop n).length = n + 1 := fun i => by rw [List.length_drop, (hlen i).1]; omega
    simp only [permuteLoop_eq, e1, congrFun ea, congrFun eb, congrFun ec]
    refine WPS.bind (WPS.lift (a := fun i => (x i, a1 i)) (fun i => popE_snoc _ _) ?_)
    refine WPS.bind (WPS.lift (a := fun i => (y i, b1 i)) (fun i => popE_snoc _ _) ?_)
    refine WPS.bind (WPS.lift (a := fun i => (z i, c1 i)) (fun i => popE_snoc _ _) ?_)
    refine WPS.bind (openBinMany_wp (ss := fun i => [x i, y i, z i])
      (Rels.cons hx (Rels.cons hy (Rels.singleton hz))) ?_)
    refine WPS.bind (WPS.lift (a := fun _ => u) (fun i => rfl) ?_)
    refine WPS.bind (WPS.lift (a := fun _ => v) (fun i => rfl) ?_)
    refine WPS.bind (WPS.lift (a := fun _ => (u &&& v) ^^^ 0) (fun i => rfl) ?_)
    refine WPS.ite_neg (fun i => by simp) ?_
    refine WPS.bind ((verifyWrong_wp (H := H) hJ hT2 hT1).mono ?_)
    rintro _ _ ⟨j5, hj5, rfl⟩
    refine WPS.lift (a := fun i => (⟨(a i).take n, (b i).take n, (c i).take n, 128⟩ : Triples)) (fun i => ?_)
      ⟨⟨hT2, fun i => rfl⟩, j5, hj5, rfl⟩
    rw [Triples.new, if_neg]
    simp [(hlen i).1, (hlen i).2.1, (hlen i).2.2]
  refine WPS.congr (q := fun i => do
    let a ← viaJmp (genRandMany 128 (2 * n + 1))
    let b ← viaJmp (genRandMany 128 (2 * n + 1))
    if i = 0 then (do
      let cr ← viaJmp (rushAndCoin i (fun seed => es ++ unshuffle G ((n + 1) * 128) 0 (G.ofSeed seed) (es ++ [0])) a b)
      genTail H i n a b cr)
    else (do
      let c ← viaAby (Aby3.andMany i a b)
      genRest H i n a b c)) ?_ ?_
  · intro i
    by_cases hi : i = 0
    · simp only [if_pos hi, rushGenerate, hn]; rfl
    · simp only [if_neg hi, generateTriples, hn]; rfl
  refine WPS.bind ((viaJmp_wp' hJ fun _ hj => genRandMany_wp (K := 128) (2 * n + 1) hj).mono ?_)
  rintro a _ ⟨⟨xs0, hxl0, hxs0⟩, j1, hj1, rfl⟩
  obtain ⟨xs, hxl, hxs⟩ := hxs0.toBin
  refine WPS.bind ((viaJmp_wp' (by exact hj1) fun _ hj => genRandMany_wp (K := 128) (2 * n + 1) hj).mono ?_)
  rintro b _ ⟨⟨ys0, hyl0, hys0⟩, j2, hj2, rfl⟩
  obtain ⟨ys, hyl, hys⟩ := hys0.toBin
  refine WPS.congr (q := fun i => do
    let cr ← viaJmp (if i = 0 then
      rushAndCoin i (fun seed => es ++ unshuffle G ((n + 1) * 128) 0 (G.ofSeed seed) (es ++ [0])) (a i) (b i)
      else andCoin i n (a i) (b i))
    genTail H i n (a i) (b i) cr) ?_ ?_
  · intro i
    by_cases hi : i = 0
    · simp only [if_pos hi]
    · simp only [if_neg hi]
      exact genRest_eq i n (a i) (b i)
  refine WPS.bind ((viaJmp_wp' (by exact hj2) fun _ hj => rushAnd_wp hj hxs hys (by omega) n
    (fun seed => es ++ unshuffle G ((n + 1) * 128) 0 (G.ofSeed seed) (es ++ [0]))
    (fun r => by simp [unshuffle_length, he]; omega)).mono ?_)
  rintro cr _ ⟨⟨seed, hcr, hc⟩, j3, hj3, rfl⟩
  obtain ⟨c, rfl⟩ : ∃ c : Party → List (AShare 128), cr = fun i => (c i, seed) := ⟨_, hcr⟩
  refine (key a b c seed _ (by exact hj3) ⟨xs, ys, by simp [unshuffle_length, he]; omega,
    by simp [unshuffle_length, he]; omega, hxs, hys, hc⟩).mono ?_
  rintro t _ ⟨h1, j4, hj4, rfl⟩
  exact ⟨h1, j4, hj4, rfl⟩

/-! ## A whole computation -/

/-- States in which every precomputed triple and every gate waiting for verification is wrong in every bit. -/
def AllWrong (key : BitVec V) (p w : Nat) (st : Party → SpdzSt G V) : Prop :=
  JmpOk (fun i => (st i).jmp) ∧ SharesOf key (fun i => (st i).macKey) ∧
    (∃ xs, Rels (MacSharesOf key) xs fun i => (st i).verifyQueue) ∧
    WrongTriplesOf (List.replicate p (BitVec.allOnes 128)) (fun i => (st i).prec.a) (fun i => (st i).prec.b)
      (fun i => (st i).prec.c) ∧
    WrongTriplesOf (List.replicate w (BitVec.allOnes 128)) (fun i => (st i).buffer.a) (fun i => (st i).buffer.b)
      (fun i => (st i).buffer.c) ∧ ∀ i, (st i).buffer.bitsInLast = 128

theorem rushPrecompute_wp {key : BitVec V} (hI : SpdzOk key 0 0 st) (amount : Nat) :
    WPS (fun i => if i = 0 then rushPrecompute H i amount else precompute H i amount) st
      (fun _ st' => AllWrong key (max ((amount + 127) / 128) minTriples) 0 st') := by
  obtain ⟨hJ, hk, hq, ⟨⟨xs, ys, hx, hy, ha, hb, hc⟩, hP1⟩, words, bits, ⟨xs', ys', hx', hy', ha', hb', hc'⟩, hbits, h1, h2, hw⟩ := hI
  obtain rfl : words = 0 := by omega
  obtain rfl : bits = 128 := by omega
  obtain rfl := List.eq_nil_of_length_eq_zero hx
  obtain rfl := List.eq_nil_of_length_eq_zero hy
  obtain rfl := List.eq_nil_of_length_eq_zero hx'
  obtain rfl := List.eq_nil_of_length_eq_zero hy'
  have pa := congrFun ha.eq_nil
  have pb := congrFun hb.eq_nil
  have pc := congrFun hc.eq_nil
  have hPl : ∀ i, (st i).prec.len = 0 := fun i => by rw [Triples.len, pa]; rfl
  refine WPS.congr (q := fun i => do
    let s ← get
    if s.prec.len ≤ (amount + 127) / 128 then do
      let new ← (if i = 0 then rushGenerate H i ((amount + 127) / 128 - s.prec.len)
          (List.replicate (max ((amount + 127) / 128 - s.prec.len) minTriples) (BitVec.allOnes 128))
        else generateTriples H i ((amount + 127) / 128 - s.prec.len))
      let s ← get
      let prec ← Proto.lift (s.prec.extend new)
      Proto.step fun s : SpdzSt G V => ((), { s with prec := prec })
    else pure ()) ?_ ?_
  · intro i
    by_cases hi : i = 0
    · simp only [if_pos hi]; rfl
    · simp only [if_neg hi]; rfl
  refine WPS.bind (WPS.get ?_)
  simp only [hPl]
  refine WPS.ite_pos (fun i => Nat.zero_le _) ?_
  simp only [Nat.sub_zero]
  refine WPS.bind ((rushGenerate_wp _ _ (List.length_replicate) hJ).mono ?_)
  rintro t _ ⟨⟨hT, hT1⟩, j, hj, rfl⟩
  refine WPS.bind (WPS.get ?_)
  refine WPS.bind (WPS.lift (a := fun i => ({ (st i).prec with a := (st i).prec.a ++ (t i).a, b := (st i).prec.b ++ (t i).b, c := (st i).prec.c ++ (t i).c } : Triples)) (fun i => ?_) ?_)
  · rw [Triples.extend, if_neg (by rw [hT1]; simp)]
  refine WPS.step ⟨hj, hk, hq, ?_, ⟨[], [], rfl, rfl, ha', hb', hc'⟩, hbits⟩
  simp only [pa, pb, pc, List.nil_append]
  exact hT

theorem addLoop_words {t : Party → Triples} {es : List (BitVec 128)}
    (ht : WrongTriplesOf es (fun i => (t i).a) (fun i => (t i).b) (fun i => (t i).c)) (hb : ∀ i, (t i).bitsInLast = 128)
    {es' : List (BitVec 128)} {a b c : Party → List (AShare 128)} (h : WrongTriplesOf es' a b c) :
    ∃ t' : Party → Triples, (∀ i, (t i).addMany (a i) (b i) (c i) = .ok (t' i)) ∧
      WrongTriplesOf (es ++ es') (fun i => (t' i).a) (fun i => (t' i).b) (fun i => (t' i).c) ∧ ∀ i, (t' i).bitsInLast = 128 := by
  have key : ∀ (t : Triples) (a b c : List (AShare 128)), t.bitsInLast = 128 → a.length = b.length → a.length = c.length →
      t.addMany a b c = .ok ⟨t.a ++ a, t.b ++ b, t.c ++ c, 128⟩ := by
    unfold Triples.addMany
    intro t a
    induction a generalizing t with
    | nil =>
      intro b c h hb hc
      obtain rfl := List.eq_nil_of_length_eq_zero hb.symm
      obtain rfl := List.eq_nil_of_length_eq_zero hc.symm
      cases t
      simp only at h
      subst h
      simp [Triples.addLoop]
    | cons x a ih =>
      intro b c h hb hc
      cases b with
      | nil => simp at hb
      | cons y b =>
        cases c with
        | nil => simp at hc
        | cons z c =>
          have hp : ∀ (x : AShare 128) (l : List (AShare 128)), Triples.pushT x l = l ++ [x] := by
            intro x l
            simp [Triples.pushT, Triples.upgrade]
          simp only [List.zip_cons_cons, Triples.addLoop]
          have h1 : t.addT x y z = .ok ⟨t.a ++ [x], t.b ++ [y], t.c ++ [z], 128⟩ := by
            simp [Triples.addT, h, hp]
          rw [h1]
          show Triples.addLoop _ ((a.zip b).zip c) = _
          rw [ih _ b c rfl (by simpa using hb) (by simpa using hc)]
          simp
  have hl := wrong_length h
  refine ⟨fun i => ⟨(t i).a ++ a i, (t i).b ++ b i, (t i).c ++ c i, 128⟩, fun i => key _ _ _ _ (hb i) ?_ ?_,
    wrong_append ht h, fun _ => rfl⟩
  · rw [(hl i).1, (hl i).2.1]
  · rw [(hl i).1, (hl i).2.2]

theorem invertAnds_wp {st : Party → Aby3St G} {xs ys : List (BitVec 128)} {a b : Party → List (AShare 128)}
    (hI : Aby3.Inv 0 st) (ha : Rels BinSharesOf xs a) (hb : Rels BinSharesOf ys b) (hl : xs.length = ys.length) :
    WPS (fun i => if i = 0 then invertAnds i (a i) (b i) else Aby3.andMany i (a i) (b i)) st
      (fun c st' => Rels BinSharesOf (List.zipWith (· ^^^ ·) (List.zipWith (· &&& ·) xs ys)
        (List.replicate xs.length (BitVec.allOnes 128))) c ∧ Aby3.Inv 0 st') := by
  refine WPS.congr (q := fun i => if (a i).length ≠ (b i).length then Proto.throw .invalidSize else do
    let cs ← Aby3.andLoop ((a i).zip (b i))
    let d ← Proto.net (sendSliceAndReceiveIter i (if i = 0 then cs.map (· ^^^ BitVec.allOnes 128) else cs))
    pure (List.zipWith AShare.mk (if i = 0 then cs.map (· ^^^ BitVec.allOnes 128) else cs) d)) ?_ ?_
  · intro i
    by_cases hi : i = 0
    · simp only [if_pos hi]; rfl
    · simp only [if_neg hi]; rfl
  refine WPS.ite_neg (fun i => by simp [ha.length, hb.length, hl]) ?_
  refine WPS.bind ((Aby3.andLoop_wp (v := 0) hI ha hb hl).mono ?_)
  rintro cs st' ⟨hcs, hI'⟩
  have := xor_components (es := List.replicate xs.length (BitVec.allOnes 128)) hcs (by simp [hl])
  have e : ∀ i, (if i = 0 then (cs i).map (· ^^^ BitVec.allOnes 128) else cs i) =
      (if i = 0 then List.zipWith (· ^^^ ·) (cs 0) (List.replicate xs.length (BitVec.allOnes 128)) else cs i) := by
    intro i
    by_cases hi : i = 0
    · subst hi
      have l0 : (cs 0).length = xs.length := by rw [hcs.length]; simp [hl]
      simp only [if_true, ← l0]
      generalize cs 0 = l
      induction l with
      | nil => rfl
      | cons x l ih => simp only [List.map_cons, List.length_cons, List.replicate_succ, List.zipWith_cons_cons, ih]
    · simp only [if_neg hi]
  simp only [e]
  exact Aby3.reshareMany_wp (fun _ _ h => h.shares) this hI'

theorem rushAndMany_wp {key : BitVec V} {p w : Nat} {xs ys : List (BitVec 128)} {a b : Party → List (AShare 128)}
    (hI : AllWrong key p w st) (ha : Rels BinSharesOf xs a) (hb : Rels BinSharesOf ys b) (hl : xs.length = ys.length) :
    WPS (fun i => if i = 0 then rushAndMany i (a i) (b i) else Spdz.andMany i (a i) (b i)) st
      (fun c st' => Rels BinSharesOf (List.zipWith (· ^^^ ·) (List.zipWith (· &&& ·) xs ys)
        (List.replicate xs.length (BitVec.allOnes 128))) c ∧ AllWrong key p (w + xs.length) st') := by
  refine WPS.congr (q := fun i => do
    let c ← viaAby (if i = 0 then invertAnds i (a i) (b i) else Aby3.andMany i (a i) (b i))
    let s ← get
    let buffer ← Proto.lift (s.buffer.addMany (a i) (b i) c)
    Proto.step fun s : SpdzSt G V => (c, { s with buffer := buffer })) ?_ ?_
  · intro i
    by_cases hi : i = 0
    · simp only [if_pos hi]; rfl
    · simp only [if_neg hi]; rfl
  obtain ⟨hJ, hk, hq, hP, hB, hbits⟩ := hI
  refine WPS.bind ((viaAby_wp' hJ fun _ hA => invertAnds_wp hA ha hb hl).mono ?_)
  rintro c _ ⟨hc, j, hj, rfl⟩
  refine WPS.bind (WPS.get ?_)
  obtain ⟨t, ht, hB', hb'⟩ := addLoop_words (t := fun i => (st i).buffer) hB hbits
    (es' := List.replicate xs.length (BitVec.allOnes 128)) (a := a) (b := b) (c := c)
    ⟨xs, ys, by simp, by simp [hl], ha, hb, hc⟩
  refine WPS.bind (WPS.lift ht ?_)
  rw [List.replicate_append_replicate] at hB'
  exact WPS.step ⟨hc, hj, hk, hq, hP, hB', hb'⟩

theorem permC_ones (n : Nat) (s : G.S) :
    permC G (n * 128) 0 s (List.replicate n (BitVec.allOnes 128)) = List.replicate n (BitVec.allOnes 128) := by
  apply wordBit_ext (by rw [permC_length])
  intro k
  have hone : ∀ k, wordBit (List.replicate n (BitVec.allOnes 128)) k = decide (k < n * 128) := by
    intro k
    unfold wordBit
    rw [List.getD_eq_getElem?_getD, List.getElem?_replicate]
    by_cases h : k < n * 128
    · rw [if_pos (by omega)]
      rw [Option.getD_some, BitVec.getLsbD_allOnes]
      simp [h, Nat.mod_lt]
    · rw [if_neg (by omega)]
      simp [h]
  rw [wordBit_permC _ _ _ _ (by simp; omega), hone, hone, decide_eq_decide]
  constructor
  · intro h
    by_contra hk
    rw [permIdx_fix _ _ _ _ (by omega)] at h
    exact hk h
  · intro h
    by_contra hk
    have := permIdx_fix (n * 128) 0 s (permIdx G (n * 128) 0 s k) (by omega)
    have := (permIdx G (n * 128) 0 s).injective this
    omega

/-- The verification accepts when everything is wrong. -/
theorem verifyWrongQueue_wp {key : BitVec V} {p w : Nat} (hI : AllWrong key p w st) (hw : w ≤ p) (hp : minTriples ≤ p) :
    WPS (fun i => Spdz.verify H i) st (fun _ _ => True) := by
  obtain ⟨hJ, hk, ⟨qs, hq⟩, hP, hB, hbits⟩ := hI
  have hlenB : ∀ i, (st i).buffer.len = w := fun i => by
    have := (wrong_length hB i).1; simpa [Triples.len] using this
  have hlenP : ∀ i, (st i).prec.len = p := fun i => by
    have := (wrong_length hP i).1; simpa [Triples.len] using this
  have tail : ∀ (j : Party → JmpSt G) (q : Party → List (SShare V)), JmpOk j →
      WPS (fun i => verifyTripleQueue H i) (fun i => { st i with jmp := j i, verifyQueue := q i }) (fun _ _ => True) := by
    intro j q hj
    unfold verifyTripleQueue
    refine WPS.bind (WPS.get ?_)
    simp only [hlenB]
    by_cases h0 : w = 0
    · exact WPS.ite_pos (fun i => h0) (WPS.pure (a := fun _ => ()) trivial)
    refine WPS.ite_neg (fun i => h0) ?_
    refine WPS.bind (WPS.step ?_)
    refine WPS.bind (WPS.get ?_)
    generalize hn : max w minTriples = n at *
    have hnp : n ≤ p := by omega
    refine WPS.bind (WPS.lift (a := fun i => (((st i).prec.a.take n, (st i).prec.b.take n, (st i).prec.c.take n),
      (⟨(st i).prec.a.drop n, (st i).prec.b.drop n, (st i).prec.c.drop n, 128⟩ : Triples))) (fun i => ?_) ?_)
    · rw [Triples.get, if_neg]
      rw [hlenP]; omega
    refine WPS.bind (WPS.step ?_)
    have hTt := wrong_take hP n
    rw [List.take_replicate, Nat.min_eq_left hnp] at hTt
    have hl := wrong_length hTt
    simp only [List.length_replicate] at hl
    refine WPS.bind ((permute_wp (n := n) (by exact hj) (fun i => (hl i).1) (fun i => (hl i).2.1) (fun i => (hl i).2.2)).mono ?_)
    rintro t _ ⟨⟨s, ht⟩, j1, hj1, rfl⟩
    obtain rfl := funext ht
    have hTp := wrong_perm (n := n) (by simp) hTt s
    rw [permC_ones] at hTp
    by_cases hlt : n > w
    · refine WPS.ite_pos (fun i => hlt) ?_
      have := wrong_take hTp w
      rw [List.take_replicate, Nat.min_eq_left (by omega)] at this
      exact (verifyWrong_wp (H := H) (by exact hj1) hB this).mono fun _ _ _ => trivial
    · refine WPS.ite_neg (fun i => hlt) ?_
      have : n = w := by omega
      subst this
      exact (verifyWrong_wp (H := H) (by exact hj1) hB hTp).mono fun _ _ _ => trivial
  unfold Spdz.verify verifyMacs
  refine WPS.bind (WPS.bind (WPS.get ?_))
  by_cases h0 : qs = []
  · subst h0
    have := congrFun hq.eq_nil
    refine WPS.ite_pos (fun i => ?_) (WPS.pure (a := fun _ => ()) ?_)
    · simp [this]
    · exact tail (fun i => (st i).jmp) (fun i => (st i).verifyQueue) hJ
  refine WPS.ite_neg (fun i => ?_) ?_
  · rw [List.isEmpty_iff]
    intro h
    have := hq.length i
    rw [h] at this
    exact h0 (List.eq_nil_of_length_eq_zero this.symm)
  refine WPS.bind ((macZero_wp hJ hk hq.values hq.macs).mono ?_)
  rintro v _ ⟨⟨ρ, _, hw⟩, j, hj, rfl⟩
  rw [mac_sum, sub_self] at hw
  refine WPS.net (hashZeroVerify_wp H (n := 1) (Rels.singleton hw) ?_)
  exact tail j (fun _ => []) hj

end Spdz

end Verif
