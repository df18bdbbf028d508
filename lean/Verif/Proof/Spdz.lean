import Verif.Spec.Spdz
import Verif.Proof.Permute
import Verif.Proof.MalAby3Iris

/-! # The SPDZ-wise backend with three honest parties -/

namespace Verif

variable {G : Prg} {V K : Nat}

/-! ## Authenticated shares -/

namespace MacSharesOf

variable {r x y : BitVec V} {s t : Party → SShare V}

theorem add (h : MacSharesOf r x s) (h' : MacSharesOf r y t) : MacSharesOf r (x + y) (fun i => (s i).add (t i)) :=
  ⟨h.1.add h'.1, by have := h.2.add h'.2; rwa [← mul_add] at this⟩

theorem sub (h : MacSharesOf r x s) (h' : MacSharesOf r y t) : MacSharesOf r (x - y) (fun i => (s i).sub (t i)) :=
  ⟨h.1.sub h'.1, by have := h.2.sub h'.2; rwa [← mul_sub] at this⟩

theorem mulConst (h : MacSharesOf r x s) (sg : Bool) (c : BitVec K) :
    MacSharesOf r (x * toVerifShare sg V c) (fun i => Spdz.mulConst sg (s i) c) :=
  ⟨h.1.mulConst _, by have := h.2.mulConst (toVerifShare sg V c); rwa [mul_assoc] at this⟩

theorem addConst (h : MacSharesOf r x s) {k : Party → AShare V} (hk : SharesOf r k) (sg : Bool) (c : BitVec K) :
    MacSharesOf r (x + toVerifShare sg V c) (fun i => Spdz.addConst sg i (k i) (s i) c) :=
  ⟨h.1.addConst _, by have := h.2.add (hk.mulConst (toVerifShare sg V c)); rwa [← mul_add] at this⟩

theorem subConst (h : MacSharesOf r x s) {k : Party → AShare V} (hk : SharesOf r k) (sg : Bool) (c : BitVec K) :
    MacSharesOf r (x - toVerifShare sg V c) (fun i => Spdz.subConst sg i (k i) (s i) c) :=
  ⟨h.1.subConst _, by have := h.2.sub (hk.mulConst (toVerifShare sg V c)); rwa [← mul_sub] at this⟩

theorem zero (r : BitVec V) : MacSharesOf r 0 (fun _ => SShare.zero V) :=
  ⟨SharesOf.zero, by rw [mul_zero]; exact SharesOf.zero⟩

end MacSharesOf

theorem Rels.values {r : BitVec V} {xs : List (BitVec V)} {s : Party → List (SShare V)} (h : Rels (MacSharesOf r) xs s) :
    Rels SharesOf xs (fun i => (s i).map (·.value)) := by
  have := h.map (S := SharesOf) (f := id) (g := fun _ x => x.value) fun _ _ h => h.1
  simpa using this

theorem Rels.macs {r : BitVec V} {xs : List (BitVec V)} {s : Party → List (SShare V)} (h : Rels (MacSharesOf r) xs s) :
    Rels SharesOf (xs.map (r * ·)) (fun i => (s i).map (·.mac)) :=
  h.map (S := SharesOf) (f := (r * ·)) (g := fun _ x => x.mac) fun _ _ h => h.2

theorem Rels.valuess {r : BitVec V} {xs : List (List (BitVec V))} {s : Party → List (List (SShare V))}
    (h : Rels (Rels (MacSharesOf r)) xs s) : Rels (Rels SharesOf) xs (fun i => (s i).map fun l => l.map (·.value)) := by
  have := h.map (S := Rels SharesOf) (f := id) (g := fun _ (x : List (SShare V)) => x.map (·.value)) fun _ _ h => h.values
  simpa using this

/-- Agreeing components also form a binary sharing. -/
theorem Rels.toBin {xs : List (BitVec K)} {s : Party → List (AShare K)} (h : Rels SharesOf xs s) :
    ∃ ys : List (BitVec K), ys.length = xs.length ∧ Rels BinSharesOf ys s := by
  induction xs generalizing s with
  | nil => rw [h.eq_nil]; exact ⟨[], rfl, Rels.nil⟩
  | cons x xs ih =>
    obtain ⟨b, ls, hb, h', rfl⟩ := h.uncons
    obtain ⟨ys, hl, hys⟩ := ih h'
    exact ⟨_ :: ys, by simp [hl], Rels.cons (x := (b 0).a ^^^ (b 1).a ^^^ (b 2).a) ⟨rfl, hb.2⟩ hys⟩

namespace Spdz

open Jmp

variable {r : BitVec V} {p u : Nat} {st : Party → SpdzSt G V} {H : Hash}

theorem viaJmp_wp {α : Type} {q : Party → Proto (JmpSt G) α} {Q : (Party → α) → Prop} (hI : SpdzOk r p u st)
    (h : ∀ st' : Party → JmpSt G, JmpOk st' → WPS q st' (fun a st'' => Q a ∧ JmpOk st'')) :
    WPS (fun i => viaJmp (q i)) st (fun a st' => Q a ∧ SpdzOk r p u st') := by
  refine WPS.zoom ((h (fun i => (st i).jmp) hI.1).mono ?_)
  rintro a st' ⟨ha, hI'⟩
  exact ⟨ha, hI', hI.2⟩

theorem viaJmp_wp' {α : Type} {q : Party → Proto (JmpSt G) α} {Q : (Party → α) → Prop}
    (hI : JmpOk (fun i => (st i).jmp))
    (h : ∀ st' : Party → JmpSt G, JmpOk st' → WPS q st' (fun a st'' => Q a ∧ JmpOk st'')) :
    WPS (fun i => viaJmp (q i)) st
      (fun a st' => Q a ∧ ∃ j : Party → JmpSt G, JmpOk j ∧ st' = fun i => { st i with jmp := j i }) := by
  refine WPS.zoom ((h (fun i => (st i).jmp) hI).mono ?_)
  rintro a st' ⟨ha, hI'⟩
  exact ⟨ha, st', hI', rfl⟩

theorem viaAby_wp' {α : Type} {q : Party → Proto (Aby3St G) α} {Q : (Party → α) → Prop}
    (hI : JmpOk (fun i => (st i).jmp))
    (h : ∀ st' : Party → Aby3St G, Aby3.Inv 0 st' → WPS q st' (fun a st'' => Q a ∧ Aby3.Inv 0 st'')) :
    WPS (fun i => viaAby (q i)) st
      (fun a st' => Q a ∧ ∃ j : Party → JmpSt G, JmpOk j ∧ st' = fun i => { st i with jmp := j i }) :=
  viaJmp_wp' hI fun _ hj => viaPrf_wp hj h

theorem viaAby_wp {α : Type} {q : Party → Proto (Aby3St G) α} {Q : (Party → α) → Prop} (hI : SpdzOk r p u st)
    (h : ∀ st' : Party → Aby3St G, Aby3.Inv 0 st' → WPS q st' (fun a st'' => Q a ∧ Aby3.Inv 0 st'')) :
    WPS (fun i => viaAby (q i)) st (fun a st' => Q a ∧ SpdzOk r p u st') :=
  viaJmp_wp hI fun _ hj => viaPrf_wp hj h

theorem queueAll_wp {xs : List (BitVec V)} {s : Party → List (SShare V)} (hI : SpdzOk r p u st)
    (hs : Rels (MacSharesOf r) xs s) : WPS (fun i => queueAll (s i)) st (fun _ st' => SpdzOk r p u st') := by
  obtain ⟨h1, h2, ⟨ys, h3⟩, h4⟩ := hI
  exact WPS.step ⟨h1, h2, ⟨ys ++ xs, h3.append hs⟩, h4⟩

theorem mac_sum (r : BitVec V) (xs ρ : List (BitVec V)) :
    r * (List.zipWith (· * ·) xs ρ).sum = (List.zipWith (· * ·) (xs.map (r * ·)) ρ).sum := by
  induction xs generalizing ρ with
  | nil => simp
  | cons x xs ih =>
    cases ρ with
    | nil => simp
    | cons c ρ => simp only [List.zipWith_cons_cons, List.sum_cons, List.map_cons, mul_add, ih]; ring

/-- Whatever shares are queued, the parties obtain shares of the random combination of the errors of the MACs. -/
theorem macZero_wp {key : BitVec V} {xs ms : List (BitVec V)} (hJ : JmpOk (fun i => (st i).jmp))
    (hk : SharesOf key (fun i => (st i).macKey)) (hx : Rels SharesOf xs (fun i => (st i).verifyQueue.map (·.value)))
    (hm : Rels SharesOf ms (fun i => (st i).verifyQueue.map (·.mac))) :
    WPS (fun i => macZero i) st (fun w st' => (∃ ρ : List (BitVec V), ρ.length = xs.length ∧
      SharesOf (key * (List.zipWith (· * ·) xs ρ).sum - (List.zipWith (· * ·) ms ρ).sum) w) ∧
      ∃ j : Party → JmpSt G, JmpOk j ∧ st' = fun i => { st i with jmp := j i, verifyQueue := [] }) := by
  have hlen : ∀ i, (st i).verifyQueue.length = xs.length := fun i => by have := hx.length i; simpa using this
  have hml : ms.length = xs.length := by rw [← hlen 0, ← hm.length 0, List.length_map]
  unfold macZero
  refine WPS.bind (WPS.get ?_)
  simp only [hlen]
  refine WPS.bind ((viaJmp_wp' hJ fun _ hj => genRandMany_wp (K := V) xs.length hj).mono ?_)
  rintro rands _ ⟨⟨ρ, hρl, hρ⟩, j1, hj1, rfl⟩
  refine WPS.bind (WPS.step ?_)
  refine WPS.bind ((viaAby_wp' (by exact hj1) fun _ ha => Aby3.dotMany_wp (v := 0) ha
    (Rels.cons (b := fun i => (st i).verifyQueue.map (·.value)) hx (Rels.singleton (b := fun i => (st i).verifyQueue.map (·.mac)) hm)) (Rels.cons (b := rands) hρ (Rels.singleton (b := rands) hρ))
    (.cons hρl.symm (.cons (by rw [hρl, hml]) .nil))).mono ?_)
  rintro res _ ⟨hres, j2, hj2, rfl⟩
  obtain ⟨r0, h0, e0⟩ := hres.idx (n := 0) rfl
  obtain ⟨r1, h1, e1⟩ := hres.idx (n := 1) rfl
  refine WPS.bind (WPS.lift e0 ?_)
  refine WPS.bind (WPS.lift e1 ?_)
  refine WPS.bind ((viaAby_wp' (by exact hj2) fun _ ha => Aby3.mul_wp (v := 0) ha h0 hk).mono ?_)
  rintro m _ ⟨hmul, j3, hj3, rfl⟩
  refine WPS.pure (a := fun i => (m i).sub (r1 i)) ⟨⟨ρ, hρl, ?_⟩, j3, hj3, rfl⟩
  have := hmul.sub h1
  rwa [mul_comm _ key] at this

theorem verifyMacs_wp (hI : SpdzOk r p u st) :
    WPS (fun i => verifyMacs H i) st
      (fun _ st' => SpdzOk r p u st' ∧ (∀ i, (st' i).verifyQueue = []) ∧ ∀ i, (st' i).prec = (st i).prec ∧ (st' i).buffer = (st i).buffer) := by
  obtain ⟨xs, hq⟩ := hI.2.2.1
  unfold verifyMacs
  refine WPS.bind (WPS.get ?_)
  by_cases h0 : xs = []
  · subst h0
    have := congrFun hq.eq_nil
    refine WPS.ite_pos (fun i => ?_) (WPS.pure (a := fun _ => ()) ⟨hI, this, fun i => ⟨rfl, rfl⟩⟩)
    simp [this]
  refine WPS.ite_neg (fun i => ?_) ?_
  · rw [List.isEmpty_iff]
    intro h
    have := hq.length i
    rw [h] at this
    exact h0 (List.eq_nil_of_length_eq_zero this.symm)
  refine WPS.bind ((macZero_wp hI.1 hI.2.1 hq.values hq.macs).mono ?_)
  rintro w _ ⟨⟨ρ, _, hw⟩, j, hj, rfl⟩
  rw [mac_sum, sub_self] at hw
  refine WPS.net (hashZeroVerify_wp H (n := 1) (Rels.singleton hw) ?_)
  exact ⟨⟨hj, hI.2.1, ⟨[], Rels.nil⟩, hI.2.2.2⟩, fun i => rfl, fun i => ⟨rfl, rfl⟩⟩

/-! ## Triples -/

theorem permute_wp (hI : JmpOk (fun i => (st i).jmp)) {n : Nat} {a b c : Party → List (AShare 128)}
    (ha : ∀ i, (a i).length = n) (hb : ∀ i, (b i).length = n) (hc : ∀ i, (c i).length = n) :
    WPS (fun i => permute i (a i) (b i) (c i)) st
      (fun t st' => (∃ s : G.S, ∀ i, t i = (AShare.mapLists (permC G (n * 128) 0 s) (a i),
        AShare.mapLists (permC G (n * 128) 0 s) (b i), AShare.mapLists (permC G (n * 128) 0 s) (c i))) ∧
        ∃ j : Party → JmpSt G, JmpOk j ∧ st' = fun i => { st i with jmp := j i }) := by
  unfold permute
  refine WPS.ite_neg (fun i => by simp [ha, hb, hc]) ?_
  refine WPS.bind ((viaJmp_wp' hI fun _ hj => coin_wp hj).mono ?_)
  rintro s st' ⟨⟨k, _, hk⟩, hI'⟩
  obtain rfl := funext hk
  refine WPS.pure (a := fun i => permuteLoop G ((a i).length * 128) 0 (G.ofSeed (coinOf k)) (a i, b i, c i))
    ⟨⟨G.ofSeed (coinOf k), fun i => by simp only [permuteLoop_eq, ha]⟩, hI'⟩

theorem openBinMany_wp {xs : List (BitVec K)} {ss : Party → List (AShare K)} (h : Rels BinSharesOf xs ss)
    {Q : (Party → List (BitVec K)) → (Party → SpdzSt G V) → Prop} (hQ : Q (fun _ => xs) st) :
    WPS (fun i => openBinMany i (ss i)) st Q := by
  unfold openBinMany
  refine WPS.bind (WPS.net (WP.exchangeSlice (x := fun i => (ss i).map (·.b)) (fun i => by simp [h.length]) ?_))
  have e : ∀ i, List.zipWith (fun s c => c ^^^ s.a ^^^ s.b) (ss i) ((ss i.prev).map (·.b)) = xs := by
    intro i
    clear hQ
    induction xs generalizing ss with
    | nil => rw [h.eq_nil]; rfl
    | cons x xs ih =>
      obtain ⟨s, ss', hs, h', rfl⟩ := h.uncons
      simp only [List.map_cons, List.zipWith_cons_cons, ih h']
      rw [← hs.open_eq i]
      congr 1
      rw [BitVec.xor_comm ((s i).a ^^^ (s i).b), BitVec.xor_assoc]
  exact WPS.congr (fun i => by rw [e i]) (WPS.pure (a := fun _ => xs) hQ)

theorem jmpOpenBinMany_wp {xs : List (BitVec K)} {ss : Party → List (AShare K)} (h : Rels BinSharesOf xs ss)
    (hI : JmpOk (fun i => (st i).jmp)) :
    WPS (fun i => jmpOpenBinMany H i (ss i)) st (fun r st' => (∀ i, r i = xs) ∧
      ∃ j : Party → JmpSt G, JmpOk j ∧ st' = fun i => { st i with jmp := j i }) := by
  unfold jmpOpenBinMany
  simp only [rels_ab (fun x s (hs : BinSharesOf x s) => hs.2) h]
  refine WPS.bind ((viaJmp_wp' hI fun _ hj => jmpSendReceiveMany_wp (fun i => (ss i).map (·.a)) (fun i j => by simp [h.length]) hj).mono ?_)
  rintro cs _ ⟨hr, j1, hj1, rfl⟩
  obtain rfl : cs = fun i => (ss i.next).map (·.a) := funext hr
  refine WPS.bind ((viaJmp_wp' (Q := fun _ => True) (by exact hj1) fun _ hj => (jmpVerify_wp H hj).mono fun _ _ h => ⟨trivial, h⟩).mono ?_)
  rintro _ _ ⟨-, j2, hj2, rfl⟩
  refine WPS.pure (a := fun i => List.zipWith (fun s c => c ^^^ s.a ^^^ s.b) (ss i) ((ss i.next).map (·.a)))
    (Q := fun r st' => (∀ i, r i = xs) ∧ ∃ j : Party → JmpSt G, JmpOk j ∧ st' = fun i => { st i with jmp := j i })
    ⟨fun i => ?_, j2, hj2, rfl⟩
  clear hr
  induction xs generalizing ss with
  | nil => rw [h.eq_nil]; rfl
  | cons x xs ih =>
    obtain ⟨s, ss', hs, h', rfl⟩ := h.uncons
    simp only [List.map_cons, List.zipWith_cons_cons, ih h']
    rw [← hs.open_eq i, hs.2 i.prev, prev_prev]
    congr 1
    bitwise

/-- Digests of the check of binary values. -/
theorem binZeroBytes_agree {w : Party → AShare K} (h : BinSharesOf 0 w) (i : Party) :
    binZeroBytes i (w i) = binZeroBytes 0 (w 0) := by
  obtain ⟨h0, h1, h2⟩ := h.b_eq
  have hs := h.1
  have e3 : (w 0).a = (w 1).a ^^^ (w 2).a := by
    have := congrArg (· ^^^ ((w 1).a ^^^ (w 2).a)) hs
    have z : ∀ y : BitVec K, 0 ^^^ y = y := fun y => BitVec.zero_xor
    simp only [z] at this
    rw [← this]; bitwise
  have e1 : (w 0).a ^^^ (w 2).a = (w 1).a := by rw [e3]; bitwise
  have e2 : (w 1).a ^^^ (w 0).a = (w 2).a := by rw [e3]; bitwise
  have e4 : (w 2).a ^^^ (w 1).a = (w 0).a := by rw [e3]; bitwise
  match i with
  | 0 => rfl
  | 1 => simp only [binZeroBytes, h0, h1, e1, e2]
  | 2 => simp only [binZeroBytes, h0, h2, e1, e4]

theorem binHashZeroVerify_wp (H : Hash) {n : Nat} {ws : Party → List (AShare K)}
    (h : Rels BinSharesOf (List.replicate n 0) ws) {Q : (Party → Unit) → Prop} (hQ : Q fun _ => ()) :
    WP (fun i => binHashZeroVerify H i (ws i)) Q := by
  have key : ∀ i, (ws i).flatMap (binZeroBytes i) = (ws 0).flatMap (binZeroBytes 0) := by
    intro i
    induction n generalizing ws with
    | zero => rw [h.eq_nil]; rfl
    | succ n ih =>
      obtain ⟨w, ws', hw, h', rfl⟩ := Rels.uncons h
      simp only [List.flatMap_cons, binZeroBytes_agree hw i, ih h']
  unfold binHashZeroVerify
  refine WP.bind (WP.broadcast ?_)
  simp only [key]
  simpa [idx] using WP.ret hQ


/-- The error of each pair of triples. -/
def tripleErrors (xs ys zs xs' ys' zs' : List (BitVec 128)) : List (BitVec 128) :=
  List.zipWith (· ^^^ ·) (List.zipWith (· ^^^ ·) zs (List.zipWith (· &&& ·) xs ys))
    (List.zipWith (· ^^^ ·) zs' (List.zipWith (· &&& ·) xs' ys'))

theorem tripleCheck_rel {a b c z p q a' b' : BitVec 128} {sa sb sc sz : Party → AShare 128}
    (ha : BinSharesOf a sa) (hb : BinSharesOf b sb) (hc : BinSharesOf c sc) (hz : BinSharesOf z sz)
    (hp : p = a ^^^ a') (hq : q = b ^^^ b') :
    BinSharesOf ((c ^^^ (a &&& b)) ^^^ (z ^^^ (a' &&& b'))) (fun i => tripleCheck i (sa i) (sb i) (sc i) (sz i) p q) := by
  have := (((hz.xor hc).xor (ha.andConst q)).xor (hb.andConst p)).xorConst (p &&& q)
  have e : (c ^^^ (a &&& b)) ^^^ (z ^^^ (a' &&& b')) = z ^^^ c ^^^ (a &&& q) ^^^ (b &&& p) ^^^ (p &&& q) := by
    subst hp hq; bitwise
  rw [e]; exact this

theorem tripleChecks_rel {xs ys zs xs' ys' zs' : List (BitVec 128)} {a b c z : Party → List (AShare 128)}
    (ha : Rels BinSharesOf xs a) (hb : Rels BinSharesOf ys b) (hc : Rels BinSharesOf zs c)
    (hz : Rels BinSharesOf zs' z) (h1 : ys.length = xs.length)
    (h2 : zs.length = xs.length) (h3 : xs'.length = xs.length) (h4 : ys'.length = xs.length) (h5 : zs'.length = xs.length) :
    Rels BinSharesOf (tripleErrors xs ys zs xs' ys' zs') (fun i => tripleChecks i (a i) (b i) (c i) (z i)
      (List.zipWith (· ^^^ ·) xs xs') (List.zipWith (· ^^^ ·) ys ys')) := by
  unfold tripleErrors tripleChecks
  induction xs generalizing ys zs xs' ys' zs' a b c z with
  | nil =>
    rw [ha.eq_nil]
    obtain rfl := List.eq_nil_of_length_eq_zero h2
    simp only [List.zip_nil_left, List.zip_nil_right, List.zipWith_nil_left]
    exact Rels.nil
  | cons v xs ih =>
    obtain ⟨y0, ys, rfl⟩ := List.exists_cons_of_length_eq_add_one h1
    obtain ⟨z0, zs, rfl⟩ := List.exists_cons_of_length_eq_add_one h2
    obtain ⟨x1, xs', rfl⟩ := List.exists_cons_of_length_eq_add_one h3
    obtain ⟨y1, ys', rfl⟩ := List.exists_cons_of_length_eq_add_one h4
    obtain ⟨z1, zs', rfl⟩ := List.exists_cons_of_length_eq_add_one h5
    obtain ⟨a1, a2, k1, k2, rfl⟩ := ha.uncons
    obtain ⟨b1, b2, l1, l2, rfl⟩ := hb.uncons
    obtain ⟨c1, c2, m1, m2, rfl⟩ := hc.uncons
    obtain ⟨w1, w2, n1, n2, rfl⟩ := hz.uncons
    simp only [List.length_cons, Nat.add_right_cancel_iff] at h1 h2 h3 h4 h5
    exact Rels.cons (tripleCheck_rel k1 l1 m1 n1 rfl rfl) (ih k2 l2 m2 n2 h1 h2 h3 h4 h5)

/-- Whatever is shared, the parties obtain shares of the differences of the errors of the triples. -/
theorem triplesZero_wp {xs ys zs xs' ys' zs' : List (BitVec 128)} {a b c x y z : Party → List (AShare 128)}
    (hJ : JmpOk (fun i => (st i).jmp))
    (ha : Rels BinSharesOf xs a) (hb : Rels BinSharesOf ys b) (hc : Rels BinSharesOf zs c)
    (hx : Rels BinSharesOf xs' x) (hy : Rels BinSharesOf ys' y) (hz : Rels BinSharesOf zs' z) (h1 : ys.length = xs.length)
    (h2 : zs.length = xs.length) (h3 : xs'.length = xs.length) (h4 : ys'.length = xs.length) (h5 : zs'.length = xs.length) :
    WPS (fun i => triplesZero H i (a i) (b i) (c i) (x i) (y i) (z i)) st
      (fun w st' => Rels BinSharesOf (tripleErrors xs ys zs xs' ys' zs') w ∧
        ∃ j : Party → JmpSt G, JmpOk j ∧ st' = fun i => { st i with jmp := j i }) := by
  unfold triplesZero
  refine WPS.ite_neg (fun i => by rw [ha.length, hb.length, hc.length, hx.length, hy.length, hz.length]; simp [*]) ?_
  have hp : Rels BinSharesOf (List.zipWith (fun a x => x ^^^ a) xs xs' ++ List.zipWith (fun b y => y ^^^ b) ys ys')
      (fun i => List.zipWith (fun a x : AShare 128 => x.xor a) (a i) (x i) ++ List.zipWith (fun b y : AShare 128 => y.xor b) (b i) (y i)) :=
    Rels.append (Rels.zipWith (f := fun a x => x ^^^ a) (g := fun _ (a x : AShare 128) => x.xor a) (fun _ _ _ _ h h' => h'.xor h) ha hx)
      (Rels.zipWith (f := fun a x => x ^^^ a) (g := fun _ (a x : AShare 128) => x.xor a) (fun _ _ _ _ h h' => h'.xor h) hb hy)
  refine WPS.bind ((jmpOpenBinMany_wp hp hJ).mono ?_)
  rintro o _ ⟨ho, hj⟩
  obtain rfl := funext ho
  refine WPS.pure (a := fun i => tripleChecks i (a i) (b i) (c i) (z i) _ _) ⟨?_, hj⟩
  have hl : (List.zipWith (fun a x => x ^^^ a) xs xs').length = xs.length := by simp [h3]
  simp only [ha.length]
  rw [List.take_left' hl, List.drop_left' hl]
  have e : ∀ l m : List (BitVec 128), List.zipWith (fun a x => x ^^^ a) l m = List.zipWith (· ^^^ ·) l m := by
    intro l m; congr 1; funext a x; exact BitVec.xor_comm _ _
  rw [e, e]
  exact tripleChecks_rel ha hb hc hz h1 h2 h3 h4 h5

theorem zipWith_xor_self (l : List (BitVec 128)) : List.zipWith (· ^^^ ·) l l = List.replicate l.length 0 := by
  induction l with
  | nil => rfl
  | cons x l ih => simp [ih, List.replicate_succ]

theorem zipWith_replicate_zero (m n : Nat) :
    List.zipWith (· ^^^ ·) (List.replicate m (0 : BitVec 128)) (List.replicate n 0) = List.replicate (min m n) 0 := by
  simp [List.zipWith_replicate]

theorem verifyTriples_wp {n : Nat} {a b c x y z : Party → List (AShare 128)} (hJ : JmpOk (fun i => (st i).jmp))
    (h : TriplesOf n a b c) (h' : TriplesOf n x y z) :
    WPS (fun i => verifyTriples H i (a i) (b i) (c i) (x i) (y i) (z i)) st
      (fun _ st' => ∃ j : Party → JmpSt G, JmpOk j ∧ st' = fun i => { st i with jmp := j i }) := by
  obtain ⟨xs, ys, l1, l2, ha, hb, hc⟩ := h
  obtain ⟨xs', ys', l3, l4, hx, hy, hz⟩ := h'
  unfold verifyTriples
  refine WPS.bind ((triplesZero_wp (H := H) hJ ha hb hc hx hy hz (by omega) (by simp; omega) (by omega) (by omega) (by simp; omega)).mono ?_)
  rintro w st' ⟨hw, hj⟩
  have e : tripleErrors xs ys (List.zipWith (· &&& ·) xs ys) xs' ys' (List.zipWith (· &&& ·) xs' ys') = List.replicate n 0 := by
    unfold tripleErrors
    rw [zipWith_xor_self, zipWith_xor_self, zipWith_replicate_zero]
    simp [l1, l2, l3, l4]
  rw [e] at hw
  exact WPS.net (binHashZeroVerify_wp H hw hj)

theorem triples_take {n m : Nat} {a b c : Party → List (AShare 128)} (h : TriplesOf n a b c) (hm : m ≤ n) :
    TriplesOf m (fun i => (a i).take m) (fun i => (b i).take m) (fun i => (c i).take m) := by
  obtain ⟨xs, ys, hx, hy, ha, hb, hc⟩ := h
  exact ⟨xs.take m, ys.take m, by simp [hx, hm], by simp [hy, hm], ha.take m, hb.take m, by
    have := hc.take m
    rwa [List.take_zipWith] at this⟩

theorem triples_drop {n m : Nat} {a b c : Party → List (AShare 128)} (h : TriplesOf n a b c) :
    TriplesOf (n - m) (fun i => (a i).drop m) (fun i => (b i).drop m) (fun i => (c i).drop m) := by
  obtain ⟨xs, ys, hx, hy, ha, hb, hc⟩ := h
  exact ⟨xs.drop m, ys.drop m, by simp [hx], by simp [hy], ha.drop m, hb.drop m, by
    have := hc.drop m
    rwa [List.drop_zipWith] at this⟩

theorem triples_append {n m : Nat} {a b c a' b' c' : Party → List (AShare 128)} (h : TriplesOf n a b c)
    (h' : TriplesOf m a' b' c') :
    TriplesOf (n + m) (fun i => a i ++ a' i) (fun i => b i ++ b' i) (fun i => c i ++ c' i) := by
  obtain ⟨xs, ys, hx, hy, ha, hb, hc⟩ := h
  obtain ⟨xs', ys', hx', hy', ha', hb', hc'⟩ := h'
  refine ⟨xs ++ xs', ys ++ ys', by simp [hx, hx'], by simp [hy, hy'], ha.append ha', hb.append hb', ?_⟩
  rw [List.zipWith_append (by rw [hx, hy])]
  exact hc.append hc'

theorem triples_unsnoc {n : Nat} {a b c : Party → List (AShare 128)} (h : TriplesOf (n + 1) a b c) :
    ∃ (a1 b1 c1 : Party → List (AShare 128)) (x y z : Party → AShare 128) (u v : BitVec 128),
      TriplesOf n a1 b1 c1 ∧ BinSharesOf u x ∧ BinSharesOf v y ∧ BinSharesOf (u &&& v) z ∧
      a = (fun i => a1 i ++ [x i]) ∧ b = (fun i => b1 i ++ [y i]) ∧ c = (fun i => c1 i ++ [z i]) := by
  obtain ⟨xs, ys, hx, hy, ha, hb, hc⟩ := h
  obtain ⟨xs, u, rfl, hx'⟩ := eq_snoc_of_length hx
  obtain ⟨ys, v, rfl, hy'⟩ := eq_snoc_of_length hy
  rw [zipWith_snoc _ (by rw [hx', hy'])] at hc
  obtain ⟨a1, x, ha1, hux, rfl⟩ := ha.unsnoc
  obtain ⟨b1, y, hb1, hvy, rfl⟩ := hb.unsnoc
  obtain ⟨c1, z, hc1, hz, rfl⟩ := hc.unsnoc
  exact ⟨a1, b1, c1, x, y, z, u, v, ⟨xs, ys, hx', hy', ha1, hb1, hc1⟩, hux, hvy, hz, rfl, rfl, rfl⟩

theorem popE_snoc {α : Type} (l : List α) (x : α) : popE (l ++ [x]) = .ok (x, l) := by simp [popE]

/-- The number of words of triples generated for a request. -/
def genCount (num : Nat) : Nat := max num minTriples

theorem generateTriples_wp (num : Nat) (hJ : JmpOk (fun i => (st i).jmp)) :
    WPS (fun i => generateTriples H i num) st (fun t st' =>
      (TriplesOf (genCount num) (fun i => (t i).a) (fun i => (t i).b) (fun i => (t i).c) ∧ ∀ i, (t i).bitsInLast = 128) ∧
      ∃ j : Party → JmpSt G, JmpOk j ∧ st' = fun i => { st i with jmp := j i }) := by
  unfold generateTriples
  simp only []
  generalize hn : max num minTriples = n
  have hg : genCount num = n := hn
  rw [hg]
  refine WPS.bind ((viaJmp_wp' hJ fun _ hj => genRandMany_wp (K := 128) (2 * n + 1) hj).mono ?_)
  rintro a _ ⟨⟨xs0, hxl0, hxs0⟩, j1, hj1, rfl⟩
  obtain ⟨xs, hxl, hxs⟩ := hxs0.toBin
  refine WPS.bind ((viaJmp_wp' (by exact hj1) fun _ hj => genRandMany_wp (K := 128) (2 * n + 1) hj).mono ?_)
  rintro b _ ⟨⟨ys0, hyl0, hys0⟩, j2, hj2, rfl⟩
  obtain ⟨ys, hyl, hys⟩ := hys0.toBin
  refine WPS.bind ((viaAby_wp' (by exact hj2) fun _ ha => Aby3.andMany_wp (v := 0) ha hxs hys (by omega)).mono ?_)
  rintro c _ ⟨hc, j3, hj3, rfl⟩
  have hT : TriplesOf (2 * n + 1) a b c := ⟨xs, ys, by omega, by omega, hxs, hys, hc⟩
  have hD := triples_drop (m := n) hT
  have e1 : 2 * n + 1 - n = n + 1 := by omega
  rw [e1] at hD
  have hlen : ∀ i, (a i).length = 2 * n + 1 ∧ (b i).length = 2 * n + 1 ∧ (c i).length = 2 * n + 1 := fun i =>
    ⟨by rw [hxs.length]; omega, by rw [hys.length]; omega, by rw [hc.length]; simp; omega⟩
  refine WPS.bind ((permute_wp (n := n + 1) (by exact hj3) (a := fun i => (a i).drop n) (b := fun i => (b i).drop n)
    (c := fun i => (c i).drop n) (fun i => by rw [List.length_drop, (hlen i).1, e1])
    (fun i => by rw [List.length_drop, (hlen i).2.1, e1]) (fun i => by rw [List.length_drop, (hlen i).2.2, e1])).mono ?_)
  rintro t _ ⟨⟨s, ht⟩, j4, hj4, rfl⟩
  obtain rfl := funext ht
  obtain ⟨a1, b1, c1, x, y, z, u, v, hT1, hx, hy, hz, ea, eb, ec⟩ := triples_unsnoc (hD.perm s)
  simp only [congrFun ea, congrFun eb, congrFun ec]
  refine WPS.bind (WPS.lift (a := fun i => (x i, a1 i)) (fun i => popE_snoc _ _) ?_)
  refine WPS.bind (WPS.lift (a := fun i => (y i, b1 i)) (fun i => popE_snoc _ _) ?_)
  refine WPS.bind (WPS.lift (a := fun i => (z i, c1 i)) (fun i => popE_snoc _ _) ?_)
  refine WPS.bind (openBinMany_wp (ss := fun i => [x i, y i, z i])
    (Rels.cons hx (Rels.cons hy (Rels.singleton hz))) ?_)
  refine WPS.bind (WPS.lift (a := fun _ => u) (fun i => rfl) ?_)
  refine WPS.bind (WPS.lift (a := fun _ => v) (fun i => rfl) ?_)
  refine WPS.bind (WPS.lift (a := fun _ => u &&& v) (fun i => rfl) ?_)
  refine WPS.ite_neg (fun i => by simp) ?_
  have hT2 := triples_take (m := n) hT (by omega)
  refine WPS.bind ((verifyTriples_wp (H := H) (by exact hj4) hT2 hT1).mono ?_)
  rintro _ _ ⟨j5, hj5, rfl⟩
  refine WPS.lift (a := fun i => (⟨(a i).take n, (b i).take n, (c i).take n, 128⟩ : Triples)) (fun i => ?_)
    ⟨⟨hT2, fun i => rfl⟩, j5, hj5, rfl⟩
  rw [Triples.new, if_neg]
  simp [(hlen i).1, (hlen i).2.1, (hlen i).2.2]

/-- Number of words of AND gates in the buffer. -/
theorem buffer_len {u words bits : Nat} (h1 : 1 ≤ bits) (h2 : bits ≤ 128) (h : 128 * words + bits = u + 128) :
    words = (u + 127) / 128 := by omega

/-- Words of precomputed triples consumed by a verification of `u` bits of AND gates. -/
def usedWords (u : Nat) : Nat := if u = 0 then 0 else max ((u + 127) / 128) minTriples

theorem verifyTripleQueue_wp (hI : SpdzOk r p u st) (hu : usedWords u ≤ p) :
    WPS (fun i => verifyTripleQueue H i) st (fun _ st' => SpdzOk r (p - usedWords u) 0 st') := by
  obtain ⟨hJ, hk, hq, ⟨hP, hP1⟩, words, bits, hB, hb, hb1, hb2, hw⟩ := hI
  have hwords := buffer_len hb1 hb2 hw
  have hlenB : ∀ i, (st i).buffer.len = words := fun i => by
    obtain ⟨xs, ys, hx, hy, ha, _⟩ := hB
    rw [Triples.len, ha.length, hx]
  unfold verifyTripleQueue
  refine WPS.bind (WPS.get ?_)
  simp only [hlenB]
  by_cases h0 : words = 0
  · refine WPS.ite_pos (fun i => h0) (WPS.pure (a := fun _ => ()) ?_)
    have hu0 : u = 0 := by omega
    subst hu0
    simp only [usedWords, if_true, Nat.sub_zero]
    exact ⟨hJ, hk, hq, ⟨hP, hP1⟩, words, bits, hB, hb, hb1, hb2, hw⟩
  · have hu0 : u ≠ 0 := by omega
    have hU : usedWords u = max words minTriples := by rw [usedWords, if_neg hu0, hwords]
    refine WPS.ite_neg (fun i => h0) ?_
    refine WPS.bind (WPS.step ?_)
    refine WPS.bind (WPS.get ?_)
    generalize hn : max words minTriples = n at *
    rw [hU] at hu ⊢
    have hPl : ∀ i, (st i).prec.len = p := fun i => by
      obtain ⟨xs, ys, hx, hy, ha, _⟩ := hP
      rw [Triples.len, ha.length, hx]
    refine WPS.bind (WPS.lift (a := fun i => (((st i).prec.a.take n, (st i).prec.b.take n, (st i).prec.c.take n),
      (⟨(st i).prec.a.drop n, (st i).prec.b.drop n, (st i).prec.c.drop n, 128⟩ : Triples))) (fun i => ?_) ?_)
    · rw [Triples.get, if_neg]
      rw [hPl]; omega
    refine WPS.bind (WPS.step ?_)
    have hTt := triples_take (m := n) hP hu
    have hTd := triples_drop (m := n) hP
    have hl : ∀ i, ((st i).prec.a.take n).length = n ∧ ((st i).prec.b.take n).length = n ∧ ((st i).prec.c.take n).length = n := by
      intro i
      obtain ⟨xs, ys, hx, hy, ha, hb, hc⟩ := hTt
      exact ⟨by rw [ha.length, hx], by rw [hb.length, hy], by rw [hc.length]; simp [hx, hy]⟩
    refine WPS.bind ((permute_wp (n := n) (by exact hJ) (fun i => (hl i).1) (fun i => (hl i).2.1) (fun i => (hl i).2.2)).mono ?_)
    rintro t _ ⟨⟨s, ht⟩, j1, hj1, rfl⟩
    obtain rfl := funext ht
    have hTp := hTt.perm s
    have fin : ∀ j : Party → JmpSt G, JmpOk j → SpdzOk r (p - n) 0 (fun i => { st i with
        jmp := j i
        prec := ⟨(st i).prec.a.drop n, (st i).prec.b.drop n, (st i).prec.c.drop n, 128⟩
        buffer := Triples.empty }) :=
      fun j hj => ⟨hj, hk, hq, ⟨hTd, fun _ => rfl⟩, BufOk.empty⟩
    by_cases hlt : n > words
    · refine WPS.ite_pos (fun i => hlt) ?_
      refine (verifyTriples_wp (H := H) (by exact hj1) hB (triples_take (m := words) hTp (by omega))).mono ?_
      rintro _ _ ⟨j2, hj2, rfl⟩
      exact fin j2 hj2
    · refine WPS.ite_neg (fun i => hlt) ?_
      have : n = words := by omega
      subst this
      refine (verifyTriples_wp (H := H) (by exact hj1) hB hTp).mono ?_
      rintro _ _ ⟨j2, hj2, rfl⟩
      exact fin j2 hj2

theorem verifyTripleQueue_fails (hI : SpdzOk r p u st) (hu : p < usedWords u) :
    WPSF (fun i => verifyTripleQueue H i) st .notEnoughTriples := by
  obtain ⟨hJ, hk, hq, ⟨hP, hP1⟩, words, bits, hB, hb, hb1, hb2, hw⟩ := hI
  have hwords := buffer_len hb1 hb2 hw
  have hlenB : ∀ i, (st i).buffer.len = words := fun i => by
    obtain ⟨xs, ys, hx, hy, ha, _⟩ := hB
    rw [Triples.len, ha.length, hx]
  have hu0 : u ≠ 0 := by
    rintro rfl
    simp [usedWords] at hu
  have h0 : words ≠ 0 := by omega
  have hU : usedWords u = max words minTriples := by rw [usedWords, if_neg hu0, hwords]
  have hPl : ∀ i, (st i).prec.len = p := fun i => by
    obtain ⟨xs, ys, hx, hy, ha, _⟩ := hP
    rw [Triples.len, ha.length, hx]
  unfold verifyTripleQueue
  refine WPSF.bind (WPS.get ?_)
  simp only [hlenB]
  refine WPSF.ite_neg (fun i => h0) ?_
  refine WPSF.bind (WPS.step ?_)
  refine WPSF.bind (WPS.get ?_)
  refine WPSF.bind_left (WPSF.lift (fun i => ?_))
  rw [Triples.get, if_pos]
  show max words minTriples > (st i).prec.len
  rw [hPl]; omega

theorem precompute_wp (hI : SpdzOk r p u st) (n : Nat) :
    WPS (fun i => precompute H i n) st (fun _ st' => SpdzOk r
      (if p ≤ (n + 127) / 128 then p + max ((n + 127) / 128 - p) minTriples else p) u st') := by
  obtain ⟨hJ, hk, hq, ⟨hP, hP1⟩, hB⟩ := hI
  have hPl : ∀ i, (st i).prec.len = p := fun i => by
    obtain ⟨xs, ys, hx, hy, ha, _⟩ := hP
    rw [Triples.len, ha.length, hx]
  unfold precompute
  refine WPS.bind (WPS.get ?_)
  simp only [hPl]
  by_cases h : p ≤ (n + 127) / 128
  · refine WPS.ite_pos (fun i => h) ?_
    rw [if_pos h]
    refine WPS.bind ((generateTriples_wp _ (by exact hJ)).mono ?_)
    rintro t _ ⟨⟨hT, hT1⟩, j, hj, rfl⟩
    refine WPS.bind (WPS.get ?_)
    refine WPS.bind (WPS.lift (a := fun i => ({ (st i).prec with a := (st i).prec.a ++ (t i).a, b := (st i).prec.b ++ (t i).b, c := (st i).prec.c ++ (t i).c } : Triples)) (fun i => ?_) ?_)
    · rw [Triples.extend, if_neg]
      rw [hT1 i]; simp
    exact WPS.step ⟨hj, hk, hq, ⟨triples_append hP hT, hP1⟩, hB⟩
  · refine WPS.ite_neg (fun i => h) ?_
    rw [if_neg h]
    exact WPS.pure (a := fun _ => ()) ⟨hJ, hk, hq, ⟨hP, hP1⟩, hB⟩

/-! ## Binary operations -/

theorem and_wp (hK1 : 1 ≤ K) (hK : K ≤ 128) {x y : BitVec K} {a b : Party → AShare K} (hI : SpdzOk r p u st)
    (ha : BinSharesOf x a) (hb : BinSharesOf y b) :
    WPS (fun i => Spdz.and i (a i) (b i)) st (fun c st' => BinSharesOf (x &&& y) c ∧ SpdzOk r p (u + K) st') := by
  unfold Spdz.and
  refine WPS.bind ((viaAby_wp hI fun _ hA => Aby3.and_wp (v := 0) hA ha hb).mono ?_)
  rintro c st' ⟨hc, hJ, hk, hq, hP, hB⟩
  refine WPS.bind (WPS.get ?_)
  obtain ⟨t, ht, hB'⟩ := BufOk.addT (t := fun i => (st' i).buffer) hB hK1 hK ha hb hc
  refine WPS.bind (WPS.lift ht ?_)
  exact WPS.step ⟨hc, hJ, hk, hq, hP, hB'⟩

theorem andMany_wp (hK1 : 1 ≤ K) (hK : K ≤ 128) {xs ys : List (BitVec K)} {a b : Party → List (AShare K)}
    (hI : SpdzOk r p u st) (ha : Rels BinSharesOf xs a) (hb : Rels BinSharesOf ys b) (hl : xs.length = ys.length) :
    WPS (fun i => Spdz.andMany i (a i) (b i)) st
      (fun c st' => Rels BinSharesOf (List.zipWith (· &&& ·) xs ys) c ∧ SpdzOk r p (u + K * xs.length) st') := by
  unfold Spdz.andMany
  refine WPS.bind ((viaAby_wp hI fun _ hA => Aby3.andMany_wp (v := 0) hA ha hb hl).mono ?_)
  rintro c st' ⟨hc, hJ, hk, hq, hP, hB⟩
  refine WPS.bind (WPS.get ?_)
  obtain ⟨t, ht, hB'⟩ := BufOk.addMany (t := fun i => (st' i).buffer) hB hK1 hK ha hb hc hl
  refine WPS.bind (WPS.lift ht ?_)
  exact WPS.step ⟨hc, hJ, hk, hq, hP, hB'⟩

theorem lawful (G : Prg) (r : BitVec V) (p : Nat) :
    FamLawful (fam G V) (fun _ => BinSharesOf) (SpdzOk (G := G) r p) where
  bin K h1 h2 := { xor := fun h h' => h.xor h', shl := fun n h => h.shl n
                   and := fun hI ha hb => and_wp h1 h2 hI ha hb
                   andMany := fun hI ha hb hl => andMany_wp h1 h2 hI ha hb hl }
  zero _ := BinSharesOf.zero
  mapLists hf hn h := BinSharesOf.mapLists hf hn h

theorem a2b_wp (hK1 : 1 ≤ K) (hK : K ≤ 128) {x : BitVec K} {a : Party → AShare K} (hI : SpdzOk r p u st) (h : SharesOf x a) :
    WPS (fun i => a2b i (a i)) st (fun b st' => BinSharesOf x b ∧ SpdzOk r p (u + K * (2 + 2 * ceilLog2 K)) st') := by
  obtain ⟨h1, h2, h3⟩ := Aby3.a2bPre_rel h
  refine (((lawful G r p).bin K hK1 hK).binaryAdd3 hI h1 h2 h3).mono ?_
  rintro b st' ⟨hr, hI'⟩
  rw [h.1] at hr
  exact ⟨hr, hI'⟩

theorem a2bMany_wp (hK1 : 1 ≤ K) (hK : K ≤ 128) {xs : List (BitVec K)} {a : Party → List (AShare K)} (hI : SpdzOk r p u st)
    (h : Rels SharesOf xs a) :
    WPS (fun i => a2bMany i (a i)) st (fun b st' => Rels BinSharesOf xs b ∧ ∃ u', SpdzOk r p u' st') := by
  obtain ⟨zs, rfl, h1, h2, h3⟩ := Aby3.a2bPre_rels h
  refine (((lawful G r p).bin K hK1 hK).binaryAdd3Many hI h1 h2 h3 (by simp) (by simp)).mono ?_
  rintro b st' ⟨hr, hI'⟩
  rw [Aby3.zipWith_map_three] at hr
  exact ⟨hr, _, hI'⟩

theorem getMsb_wp (hK1 : 1 ≤ K) (hK : K ≤ 128) (hKV : K ≤ V) {x : BitVec V} {a : Party → SShare V} (hI : SpdzOk r p u st)
    (h : MacSharesOf r x a) :
    WPS (fun i => Spdz.getMsb H K i (a i)) st
      (fun b st' => BinSharesOf (bitOf (x.setWidth K).msb) b ∧ SpdzOk r p (u + K * (2 + 2 * ceilLog2 K)) st') := by
  unfold Spdz.getMsb
  refine WPS.bind ((queueAll_wp hI (Rels.singleton h)).mono ?_)
  rintro _ st1 hI
  refine WPS.bind ((verifyMacs_wp hI).mono ?_)
  rintro _ st2 ⟨hI, -⟩
  refine WPS.bind ((a2b_wp hK1 hK hI (h.1.fromVerif hKV)).mono ?_)
  rintro b st' ⟨hb, hI⟩
  exact WPS.pure (a := fun i => (b i).getMsb) ⟨Aby3.getMsb_rel hK1 hb, hI⟩

theorem getMsbMany_wp (hK3 : 3 ≤ K) (hKV : K ≤ V) {xs : List (BitVec V)} (hne : xs ≠ []) {a : Party → List (SShare V)}
    (hI : SpdzOk r p u st) (h : Rels (MacSharesOf r) xs a) :
    WPS (fun i => Spdz.getMsbMany H K i (a i)) st
      (fun b st' => Rels BinSharesOf (xs.map fun x => bitOf (x.setWidth K).msb) b ∧
        SpdzOk r p (u + 128 * ((2 * K - 3) * ((xs.length + 127) / 128))) st') := by
  unfold Spdz.getMsbMany
  refine WPS.bind ((queueAll_wp hI h).mono ?_)
  rintro _ st1 hI
  refine WPS.bind ((verifyMacs_wp hI).mono ?_)
  rintro _ st2 ⟨hI, -⟩
  have h' : Rels SharesOf (xs.map fun x => x.setWidth K) (fun i => (a i).map fun s => s.value.fromVerif K) :=
    h.map (f := fun x => x.setWidth K) (g := fun _ s => s.value.fromVerif K) fun _ _ h => h.1.fromVerif hKV
  obtain ⟨zs, e, h1, h2, h3⟩ := Aby3.a2bPre_rels h'
  have hzl : zs.length = xs.length := by have := congrArg List.length e; simpa using this.symm
  refine ((lawful G r p).msbAdderMany hK3 (by rintro rfl; simp at e; exact hne e) hI h1 h2 h3).mono ?_
  rintro b st' ⟨hb, hI'⟩
  rw [hzl] at hI'
  refine ⟨?_, hI'⟩
  have e2 : (xs.map fun x => bitOf (x.setWidth K).msb) = (xs.map fun x => x.setWidth K).map fun x => bitOf x.msb := by
    rw [List.map_map]; rfl
  rw [e2, e, List.map_map]
  convert hb using 2
  funext z
  simp only [Function.comp_def, BitVec.msb_eq_getLsbD_last]

theorem reduceBinaryOr_wp {bits : List (BitVec 1)} {a : Party → List (AShare 1)} {cs : Nat} (hcs : cs ≠ 0)
    (hne : bits ≠ []) (hI : SpdzOk r p u st) (ha : Rels BinSharesOf bits a) :
    WPS (fun i => reduceBinaryOr i (a i) cs) st
      (fun c st' => BinSharesOf (bitOf (bits.any bitVal)) c ∧
        SpdzOk r p (u + (128 * ((bits.length + 127) / 128 - 1) + 127)) st') := by
  refine ((lawful G r p).reduceBinaryOr hcs hne hI ha).mono ?_
  rintro c st' ⟨hr, hI'⟩
  rw [FamLawful.orAll_bits] at hr
  exact ⟨hr, by rw [← Nat.add_assoc]; exact hI'⟩

/-! ## Arithmetic operations -/

theorem mul_wp {x y : BitVec V} {a b : Party → SShare V} (hI : SpdzOk r p u st) (ha : MacSharesOf r x a)
    (hb : MacSharesOf r y b) :
    WPS (fun i => Spdz.mul i (a i) (b i)) st (fun c st' => MacSharesOf r (x * y) c ∧ SpdzOk r p u st') := by
  unfold Spdz.mul
  refine WPS.bind ((viaAby_wp hI fun _ hA => Aby3.mulMany_wp (v := 0) hA
    (a := fun i => [(a i).value, (a i).mac]) (b := fun i => [(b i).value, (b i).value])
    (Rels.cons ha.1 (Rels.singleton ha.2)) (Rels.cons hb.1 (Rels.singleton hb.1)) rfl).mono ?_)
  rintro c st' ⟨hc, hI⟩
  obtain ⟨v, hv, e0⟩ := hc.idx (n := 0) rfl
  obtain ⟨m, hm, e1⟩ := hc.idx (n := 1) rfl
  refine WPS.bind (WPS.lift e0 ?_)
  refine WPS.bind (WPS.lift e1 ?_)
  have hr : MacSharesOf r (x * y) (fun i => SShare.mk (v i) (m i)) := ⟨hv, by have := hm; simp only [mul_assoc] at this; exact this⟩
  refine WPS.bind ((queueAll_wp hI (Rels.singleton hr)).mono ?_)
  rintro _ st'' hI
  exact WPS.pure (a := fun i => SShare.mk (v i) (m i)) ⟨hr, hI⟩

theorem dot_wp {xs ys : List (BitVec V)} {a b : Party → List (SShare V)} (hI : SpdzOk r p u st)
    (ha : Rels (MacSharesOf r) xs a) (hb : Rels (MacSharesOf r) ys b) (hl : xs.length = ys.length) :
    WPS (fun i => Spdz.dot i (a i) (b i)) st
      (fun c st' => MacSharesOf r (List.zipWith (· * ·) xs ys).sum c ∧ SpdzOk r p u st') := by
  unfold Spdz.dot
  refine WPS.ite_neg (fun i => by simp [ha.length, hb.length, hl]) ?_
  refine WPS.bind ((viaAby_wp hI fun _ hA => Aby3.dotMany_wp (v := 0) hA
    (Rels.cons (b := fun i => (a i).map (·.value)) ha.values (Rels.singleton (b := fun i => (a i).map (·.mac)) ha.macs))
    (Rels.cons (b := fun i => (b i).map (·.value)) hb.values (Rels.singleton (b := fun i => (b i).map (·.value)) hb.values))
    (.cons hl (.cons (by simp [hl]) .nil))).mono ?_)
  rintro c st' ⟨hc, hI⟩
  obtain ⟨v, hv, e0⟩ := hc.idx (n := 0) rfl
  obtain ⟨m, hm, e1⟩ := hc.idx (n := 1) rfl
  refine WPS.bind (WPS.lift e0 ?_)
  refine WPS.bind (WPS.lift e1 ?_)
  have hr : MacSharesOf r (List.zipWith (· * ·) xs ys).sum (fun i => SShare.mk (v i) (m i)) :=
    ⟨hv, by rw [mac_sum]; exact hm⟩
  refine WPS.bind ((queueAll_wp hI (Rels.singleton hr)).mono ?_)
  rintro _ st'' hI
  exact WPS.pure (a := fun i => SShare.mk (v i) (m i)) ⟨hr, hI⟩

/-- Everybody sends two messages to its successor and receives two from its predecessor. -/
theorem WP.twice {α : Type} {x y : Party → Bytes} {k : Party → Bytes → Bytes → Prog α} {Q : (Party → α) → Prop}
    (h : WP (fun i => k i (x i.prev) (y i.prev)) Q) :
    WP (fun i => .send i.next (x i) (.send i.next (y i) (.recv i.prev fun a => .recv i.prev fun b => k i a b))) Q := by
  apply WP.of3
  show R3 (.send 1 (x 0) (.send 1 (y 0) (.recv 2 fun a => .recv 2 fun b => k 0 a b)))
    (.send 2 (x 1) (.send 2 (y 1) (.recv 0 fun a => .recv 0 fun b => k 1 a b)))
    (.send 0 (x 2) (.send 0 (y 2) (.recv 1 fun a => .recv 1 fun b => k 2 a b))) [] [] [] [] [] [] Q
  run3
  exact R3.joint rfl rfl rfl h

theorem WP.exchangeSlices {x y : Party → List (BitVec K)} {Q : (Party → List (BitVec K) × List (BitVec K)) → Prop}
    (hl : ∀ i, (x i).length = (x i.prev).length) (hl' : ∀ i, (y i).length = (y i.prev).length)
    (h : Q (fun i => (x i.prev, y i.prev))) :
    WP (fun i => sendSlicesAndReceiveIters i (x i) (y i)) Q := by
  refine WP.twice (x := fun i => ringSliceToBytes (x i)) (y := fun i => ringSliceToBytes (y i)) (k := fun i r1 r2 => (do
    let a ← Prog.ofExcept (ringIterFromBytes K r1 (x i).length)
    let b ← Prog.ofExcept (ringIterFromBytes K r2 (y i).length)
    pure (a, b))) ?_
  refine WP.bind (WP.ofExcept (a := fun i => x i.prev) (fun i => by rw [hl i]; exact ringIterFromBytes_roundtrip _) ?_)
  refine WP.bind (WP.ofExcept (a := fun i => y i.prev) (fun i => by rw [hl' i]; exact ringIterFromBytes_roundtrip _) ?_)
  exact WP.ret h

/-- Additive shares of values and of their MACs. -/
theorem reshareQueue_wp {xs : List (BitVec V)} {cs ms : Party → List (BitVec V)} (hI : SpdzOk r p u st)
    (hc : Rels SumsTo xs cs) (hm : Rels SumsTo (xs.map (r * ·)) ms) :
    WPS (fun i => reshareQueue i (cs i) (ms i)) st (fun c st' => Rels (MacSharesOf r) xs c ∧ SpdzOk r p u st') := by
  unfold reshareQueue
  have hl : ∀ i, (cs i).length = xs.length := hc.length
  have hl' : ∀ i, (ms i).length = xs.length := fun i => by rw [hm.length, List.length_map]
  refine WPS.bind (WPS.net (WP.exchangeSlices (fun i => by rw [hl, hl]) (fun i => by rw [hl', hl']) ?_))
  have hr : Rels (MacSharesOf r) xs (fun i => List.zipWith (fun (p q : BitVec V × BitVec V) => SShare.mk ⟨p.1, q.1⟩ ⟨p.2, q.2⟩)
      ((cs i).zip (ms i)) ((cs i.prev).zip (ms i.prev))) := by
    clear hl hl'
    induction xs generalizing cs ms with
    | nil => rw [hc.eq_nil, hm.eq_nil]; exact Rels.nil
    | cons x xs ih =>
      obtain ⟨c1, c2, h1, h2, rfl⟩ := hc.uncons
      obtain ⟨m1, m2, k1, k2, rfl⟩ := Rels.uncons hm
      exact Rels.cons (b := fun i => SShare.mk ⟨c1 i, c1 i.prev⟩ ⟨m1 i, m1 i.prev⟩) ⟨h1.shares, k1.shares⟩ (ih h2 k2)
  refine WPS.bind ((queueAll_wp hI hr).mono ?_)
  rintro _ st' hI
  exact WPS.pure (a := fun i => List.zipWith (fun (p q : BitVec V × BitVec V) => SShare.mk ⟨p.1, q.1⟩ ⟨p.2, q.2⟩)
      ((cs i).zip (ms i)) ((cs i.prev).zip (ms i.prev))) ⟨hr, hI⟩

theorem dotLoop_wp {xss yss : List (List (BitVec V))} {a b : Party → List (List (SShare V))} (hI : SpdzOk r p u st)
    (ha : Rels (Rels (MacSharesOf r)) xss a) (hb : Rels (Rels (MacSharesOf r)) yss b)
    (hl : List.Forall₂ (fun xs ys => xs.length = ys.length) xss yss) :
    WPS (fun i => dotLoop ((a i).zip (b i))) st
      (fun c st' => (Rels SumsTo (List.zipWith (fun xs ys => (List.zipWith (· * ·) xs ys).sum) xss yss) (fun i => (c i).1) ∧
        Rels SumsTo ((List.zipWith (fun xs ys => (List.zipWith (· * ·) xs ys).sum) xss yss).map (r * ·)) (fun i => (c i).2)) ∧
        SpdzOk r p u st') := by
  induction hl generalizing a b st with
  | nil =>
    rw [ha.eq_nil, hb.eq_nil]
    exact WPS.pure (a := fun _ => ([], [])) ⟨⟨Rels.nil, Rels.nil⟩, hI⟩
  | @cons xs ys xss yss hl _ ih =>
    obtain ⟨a1, a2, h1, h2, rfl⟩ := ha.uncons
    obtain ⟨b1, b2, k1, k2, rfl⟩ := hb.uncons
    simp only [List.zip_cons_cons, dotLoop]
    refine WPS.ite_neg (fun i => by simp [h1.length, k1.length, hl]) ?_
    refine WPS.bind ((viaAby_wp hI fun _ hA => Aby3.genZero_wp (v := 0) hA).mono ?_)
    rintro z st1 ⟨hz, hI⟩
    refine WPS.bind ((viaAby_wp hI fun _ hA => Aby3.genZero_wp (v := 0) hA).mono ?_)
    rintro z2 st2 ⟨hz2, hI⟩
    refine WPS.bind ((ih hI h2 k2).mono ?_)
    rintro cs st3 ⟨⟨hcs, hms⟩, hI⟩
    refine WPS.pure (Q := fun c st' => (Rels SumsTo _ (fun i => (c i).1) ∧ Rels SumsTo _ (fun i => (c i).2)) ∧ SpdzOk r p u st') (a := fun i => (Aby3.dotAcc (z i) (((a1 i).map (·.value)).zip ((b1 i).map (·.value))) :: (cs i).1,
      Aby3.dotAcc (z2 i) (((a1 i).map (·.mac)).zip ((b1 i).map (·.value))) :: (cs i).2)) ⟨⟨?_, ?_⟩, hI⟩
    · have := Aby3.dotAcc_sum hz h1.values k1.values hl
      rw [zero_add] at this
      exact Rels.cons this hcs
    · have := Aby3.dotAcc_sum hz2 h1.macs k1.values (by simpa using hl)
      rw [zero_add, ← mac_sum] at this
      exact Rels.cons this hms

theorem dotMany_wp {xss yss : List (List (BitVec V))} {a b : Party → List (List (SShare V))} (hI : SpdzOk r p u st)
    (ha : Rels (Rels (MacSharesOf r)) xss a) (hb : Rels (Rels (MacSharesOf r)) yss b)
    (hl : List.Forall₂ (fun xs ys => xs.length = ys.length) xss yss) :
    WPS (fun i => Spdz.dotMany i (a i) (b i)) st
      (fun c st' => Rels (MacSharesOf r) (List.zipWith (fun xs ys => (List.zipWith (· * ·) xs ys).sum) xss yss) c ∧
        SpdzOk r p u st') := by
  unfold Spdz.dotMany
  refine WPS.ite_neg (fun i => by simp [ha.length, hb.length, hl.length_eq]) ?_
  refine WPS.bind ((dotLoop_wp hI ha hb hl).mono ?_)
  rintro cs st' ⟨⟨hcs, hms⟩, hI'⟩
  exact reshareQueue_wp hI' hcs hms

theorem masked_mac (r : BitVec V) (bs : List Bool) (xs ys : List (BitVec V)) :
    r * maskedSum bs (List.zipWith (· * ·) xs ys) = maskedSum bs (List.zipWith (· * ·) (xs.map (r * ·)) ys) := by
  induction xs generalizing bs ys with
  | nil => simp [maskedSum]
  | cons x xs ih =>
    cases ys with
    | nil => simp [maskedSum]
    | cons y ys =>
      cases bs with
      | nil => simp [maskedSum]
      | cons b bs =>
        have := ih bs ys
        cases b
        · simpa [maskedSum] using this
        · simp only [maskedSum, List.map_cons, List.zipWith_cons_cons, List.sum_cons, mul_add, if_true] at this ⊢
          rw [this, mul_assoc]

theorem maskedDotLoop_wp {xs : List (BitVec V)} {a : Party → List (SShare V)} (hx : xs.length = irisCodeSize)
    (ha : Rels (MacSharesOf r) xs a) {yss : List (List (BitVec V))} {masks : List IrisCodeArray}
    {b : Party → List (List (SShare V))} (hI : SpdzOk r p u st)
    (hb : Rels (Rels (MacSharesOf r)) yss b) (hl : ∀ ys ∈ yss, ys.length = irisCodeSize) (hm : yss.length = masks.length) :
    WPS (fun i => maskedDotLoop (a i) ((b i).zip masks)) st
      (fun c st' => (Rels SumsTo (List.zipWith
        (fun ys (m : IrisCodeArray) => maskedSum (IrisCodeArray.bitList m) (List.zipWith (· * ·) xs ys)) yss masks) (fun i => (c i).1) ∧
        Rels SumsTo ((List.zipWith
        (fun ys (m : IrisCodeArray) => maskedSum (IrisCodeArray.bitList m) (List.zipWith (· * ·) xs ys)) yss masks).map (r * ·)) (fun i => (c i).2)) ∧
        SpdzOk r p u st') := by
  induction yss generalizing masks b st with
  | nil =>
    rw [hb.eq_nil]
    exact WPS.pure (a := fun _ => ([], [])) ⟨⟨Rels.nil, Rels.nil⟩, hI⟩
  | cons ys yss ih =>
    cases masks with
    | nil => simp at hm
    | cons m masks =>
      obtain ⟨b1, b2, k1, k2, rfl⟩ := hb.uncons
      simp only [List.zip_cons_cons, maskedDotLoop]
      refine WPS.bind ((viaAby_wp hI fun _ hA => Aby3.genZero_wp (v := 0) hA).mono ?_)
      rintro z st1 ⟨hz, hI⟩
      refine WPS.bind ((viaAby_wp hI fun _ hA => Aby3.genZero_wp (v := 0) hA).mono ?_)
      rintro z2 st2 ⟨hz2, hI⟩
      have hy : ys.length = irisCodeSize := hl ys (by simp)
      refine WPS.bind ((ih hI k2 (fun ys h => hl ys (by simp [h])) (by simpa using hm)).mono ?_)
      rintro cs st3 ⟨⟨hcs, hms⟩, hI⟩
      refine WPS.pure (Q := fun c st' => (Rels SumsTo _ (fun i => (c i).1) ∧ Rels SumsTo _ (fun i => (c i).2)) ∧ SpdzOk r p u st') (a := fun i => (Aby3.maskedAcc (z i) ((((a i).map (·.value)).zip ((b1 i).map (·.value))).zip m.bits) :: (cs i).1,
        Aby3.maskedAcc (z2 i) ((((a i).map (·.mac)).zip ((b1 i).map (·.value))).zip m.bits) :: (cs i).2)) ⟨⟨?_, ?_⟩, hI⟩
      · rw [C17_bits]
        have := Aby3.maskedAcc_sum hz ha.values k1.values (hx.trans hy.symm) (bs := IrisCodeArray.bitList m)
          (by rw [hx, Aby3.bitList_length])
        rw [zero_add] at this
        exact Rels.cons this hcs
      · rw [C17_bits]
        have := Aby3.maskedAcc_sum hz2 ha.macs k1.values (by rw [List.length_map]; exact hx.trans hy.symm) (bs := IrisCodeArray.bitList m)
          (by rw [List.length_map, hx, Aby3.bitList_length])
        rw [zero_add, ← masked_mac] at this
        exact Rels.cons this hms

theorem maskedDotMany_wp {xs : List (BitVec V)} {a : Party → List (SShare V)} (hx : xs.length = irisCodeSize)
    (ha : Rels (MacSharesOf r) xs a) {yss : List (List (BitVec V))} {masks : List IrisCodeArray}
    {b : Party → List (List (SShare V))} (hI : SpdzOk r p u st)
    (hb : Rels (Rels (MacSharesOf r)) yss b) (hl : ∀ ys ∈ yss, ys.length = irisCodeSize) (hm : yss.length = masks.length) :
    WPS (fun i => Spdz.maskedDotMany i (a i) (b i) masks) st
      (fun c st' => Rels (MacSharesOf r) (List.zipWith
        (fun ys (m : IrisCodeArray) => maskedSum (IrisCodeArray.bitList m) (List.zipWith (· * ·) xs ys)) yss masks) c ∧
        SpdzOk r p u st') := by
  unfold Spdz.maskedDotMany
  refine WPS.ite_neg (fun i => by simp [ha.length, hx]) ?_
  refine WPS.bind ((maskedDotLoop_wp hx ha hI hb hl hm).mono ?_)
  rintro cs st' ⟨⟨hcs, hms⟩, hI'⟩
  exact reshareQueue_wp hI' hcs hms

/-! ## Input, opening, verification -/

theorem toVerif_map {sg : Bool} {x : BitVec K} {inp : Party → Option (BitVec K)} {id : Party} (hx : inp id = some x) :
    (inp id).map (toVerifShare sg V) = some (toVerifShare sg V x) := by rw [hx]; rfl

theorem input_wp (sg : Bool) {id : Party} {x : BitVec K} {inp : Party → Option (BitVec K)} (hx : inp id = some x)
    (hI : SpdzOk r p u st) :
    WPS (fun i => Spdz.input sg i (inp i) id.val) st
      (fun s st' => MacSharesOf r (toVerifShare sg V x) s ∧ SpdzOk r p u st') := by
  unfold Spdz.input
  refine WPS.bind ((viaAby_wp hI fun _ hA => Aby3.input_wp (v := 0) (inp := fun i => (inp i).map (toVerifShare sg V))
    (toVerif_map hx) hA).mono ?_)
  rintro v st1 ⟨hv, hI⟩
  refine WPS.bind (WPS.get ?_)
  have hk := hI.2.1
  refine WPS.bind ((viaAby_wp hI fun _ hA => Aby3.mul_wp (v := 0) hA hv hk).mono ?_)
  rintro m st2 ⟨hm, hI⟩
  have hr : MacSharesOf r (toVerifShare sg V x) (fun i => SShare.mk (v i) (m i)) := ⟨hv, by rw [mul_comm]; exact hm⟩
  refine WPS.bind ((queueAll_wp hI (Rels.singleton hr)).mono ?_)
  rintro _ st3 hI
  exact WPS.pure (a := fun i => SShare.mk (v i) (m i)) ⟨hr, hI⟩

theorem inputAll_wp (sg : Bool) (x : Party → BitVec K) (hI : SpdzOk r p u st) :
    WPS (fun i => Spdz.inputAll sg i (x i)) st
      (fun s st' => Rels (MacSharesOf r) [toVerifShare sg V (x 0), toVerifShare sg V (x 1), toVerifShare sg V (x 2)] s ∧
        SpdzOk r p u st') := by
  unfold Spdz.inputAll
  refine WPS.bind ((input_wp sg (id := 0) (x := x 0) (inp := fun i => if i = 0 then some (x i) else none) (by simp) hI).mono ?_)
  rintro s0 st1 ⟨h0, hI⟩
  refine WPS.bind ((input_wp sg (id := 1) (x := x 1) (inp := fun i => if i = 1 then some (x i) else none) (by simp) hI).mono ?_)
  rintro s1 st2 ⟨h1, hI⟩
  refine WPS.bind ((input_wp sg (id := 2) (x := x 2) (inp := fun i => if i = 2 then some (x i) else none) (by simp) hI).mono ?_)
  rintro s2 st3 ⟨h2, hI⟩
  exact WPS.pure (a := fun i => [s0 i, s1 i, s2 i]) ⟨.cons h0 (.cons h1 (.singleton h2)), hI⟩

theorem open_wp {x : BitVec V} {s : Party → SShare V} (hI : SpdzOk r p u st) (h : MacSharesOf r x s) :
    WPS (fun i => Spdz.openShare H K i (s i)) st (fun o st' => (∀ i, o i = x.setWidth K) ∧ SpdzOk r p u st') := by
  unfold Spdz.openShare
  refine WPS.bind ((queueAll_wp hI (Rels.singleton h)).mono ?_)
  rintro _ st1 hI
  refine WPS.bind ((verifyMacs_wp hI).mono ?_)
  rintro _ st2 ⟨hI, -⟩
  refine WPS.bind ((viaAby_wp hI fun _ hA => Aby3.open_wp (v := 0) hA h.1).mono ?_)
  rintro o st3 ⟨ho, hI⟩
  exact WPS.pure (a := fun i => fromVerif K (o i)) ⟨fun i => by simp only [ho i]; rfl, hI⟩

theorem openMany_wp {xs : List (BitVec V)} {s : Party → List (SShare V)} (hI : SpdzOk r p u st) (h : Rels (MacSharesOf r) xs s) :
    WPS (fun i => Spdz.openMany H K i (s i)) st (fun o st' => (∀ i, o i = xs.map (·.setWidth K)) ∧ SpdzOk r p u st') := by
  unfold Spdz.openMany
  refine WPS.bind ((queueAll_wp hI h).mono ?_)
  rintro _ st1 hI
  refine WPS.bind ((verifyMacs_wp hI).mono ?_)
  rintro _ st2 ⟨hI, -⟩
  refine WPS.bind ((viaAby_wp hI fun _ hA => Aby3.openMany_wp (v := 0) hA h.values).mono ?_)
  rintro o st3 ⟨ho, hI⟩
  exact WPS.pure (a := fun i => (o i).map (fromVerif K)) ⟨fun i => by simp only [ho i]; rfl, hI⟩

theorem openBit_wp {x : BitVec 1} {s : Party → AShare 1} (hI : SpdzOk r p u st) (h : BinSharesOf x s) :
    WPS (fun i => Spdz.openBit H i (s i)) st (fun o st' => (∀ i, o i = bitVal x) ∧ SpdzOk r p u st') :=
  viaJmp_wp hI fun _ hj => Jmp.openBit_wp H h hj

theorem verify_wp (hI : SpdzOk r p u st) (hu : usedWords u ≤ p) :
    WPS (fun i => Spdz.verify H i) st (fun _ st' => SpdzOk r (p - usedWords u) 0 st') := by
  unfold Spdz.verify
  refine WPS.bind ((verifyMacs_wp hI).mono ?_)
  rintro _ st1 ⟨hI, -⟩
  exact verifyTripleQueue_wp hI hu

theorem verify_fails (hI : SpdzOk r p u st) (hu : p < usedWords u) :
    WPSF (fun i => Spdz.verify H i) st .notEnoughTriples := by
  unfold Spdz.verify
  refine WPSF.bind ((verifyMacs_wp hI).mono ?_)
  rintro _ st1 ⟨hI, -⟩
  exact verifyTripleQueue_fails hI hu

end Spdz
end Verif
