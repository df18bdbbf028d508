import Verif.Proof.PairMal
import Verif.Proof.SpdzMal

/-!
# The SPDZ-wise checks with a corrupt party
-/

namespace Verif

variable {σ α β : Type} {G : Prg} {H : Hash} {K V : Nat} {i : Party} {E : List Bytes → Prop}

theorem BinSharesOf.pair {x : BitVec K} {s : Party → AShare K} (h : BinSharesOf x s) (i : Party) :
    BinPairOf i x (s i) (s i.next) := by
  have h1 := h.1
  have h2 := h.2 i
  have h3 := h.2 i.next
  rw [Party.prev_next] at h3
  refine ⟨?_, h3⟩
  rw [h2, ← h1]
  match i with
  | 0 => simp only [Party.prev_zero, Party.next_zero]; bitwise
  | 1 => simp only [Party.prev_one, Party.next_one]; bitwise
  | 2 => simp only [Party.prev_two, Party.next_two]; bitwise

theorem PW.binHashZero {ws : Party → List (AShare K)} {Q : List Bytes → (Party → Unit) → Prop}
    (h : H.h ((ws i).flatMap (Spdz.binZeroBytes i)) = H.h ((ws i.next).flatMap (Spdz.binZeroBytes i.next)) →
      Q [H.h ((ws i).flatMap (Spdz.binZeroBytes i))] (fun _ => ())) :
    PW i (fun k => Spdz.binHashZeroVerify H k (ws k)) E Q :=
  PW.digestCheck (D := fun k => H.h ((ws k).flatMap (Spdz.binZeroBytes k))) h

/-- A vector to the next party: the honest `i` gets an arbitrary vector of the right length. -/
theorem PW.exchangeIter {x : Party → List (BitVec K)} {Q : List Bytes → (Party → List (BitVec K)) → Prop}
    (hl : (x i.next).length = (x i).length) (h : ∀ z : List (BitVec K), z.length = (x i).length →
      Q [ringSliceToBytes z] (fun k => if k = i then z else x k.prev)) :
    PW i (fun k => sendSliceAndReceiveIter k (x k)) E Q := by
  refine PW.ring (M := fun k => ringSliceToBytes (x k))
    (k := fun k m => Prog.ofExcept (ringIterFromBytes K m (x k).length)) fun m => PW.ofExcept ?_
  intro a h1 h2
  have n1 := Party.next_ne i
  simp only [if_true, n1, if_false, Party.prev_next] at h1 h2
  obtain ⟨l1, e1⟩ := ringIterFromBytes_ok h1
  rw [hl, ringIterFromBytes_roundtrip] at h2
  injection h2 with h2
  refine ⟨fun k => if k = i then a i else x k.prev, by simp, ?_, ?_⟩
  · simp only [n1, if_false, Party.prev_next, h2]
  · have := h (a i) l1
    rwa [e1] at this

namespace Spdz

open Jmp

variable {st : Party → SpdzSt G V}

theorem pqShares_length {n : Nat} {a b x y : List (AShare 128)} (ha : a.length = n) (hb : b.length = n)
    (hx : x.length = n) (hy : y.length = n) : (pqShares a b x y).length = n + n := by
  simp [pqShares, ha, hb, hx, hy]

theorem pqShares_rel {xs ys xs' ys' : List (BitVec 128)} {a b x y : Party → List (AShare 128)}
    (ha : Rels BinSharesOf xs a) (hb : Rels BinSharesOf ys b) (hx : Rels BinSharesOf xs' x) (hy : Rels BinSharesOf ys' y) :
    Rels BinSharesOf (List.zipWith (· ^^^ ·) xs xs' ++ List.zipWith (· ^^^ ·) ys ys')
      (fun k => pqShares (a k) (b k) (x k) (y k)) := by
  have e : ∀ l m : List (BitVec 128), List.zipWith (fun a x => x ^^^ a) l m = List.zipWith (· ^^^ ·) l m := by
    intro l m; congr 1; funext a x; exact BitVec.xor_comm _ _
  rw [← e, ← e]
  exact Rels.append
    (Rels.zipWith (f := fun a x => x ^^^ a) (g := fun _ (a x : AShare 128) => x.xor a) (fun _ _ _ _ h h' => h'.xor h) ha hx)
    (Rels.zipWith (f := fun a x => x ^^^ a) (g := fun _ (a x : AShare 128) => x.xor a) (fun _ _ _ _ h h' => h'.xor h) hb hy)

/-- `verify_triples`. The lists `x`, `y`, `z` may be wrong at `i`, if the last message in its queue was. -/
theorem verifyTriples_pw {n : Nat} {xs ys zs xs' ys' zs' : List (BitVec 128)} {a b c x y z x₁ y₁ z₁ : Party → List (AShare 128)}
    (l0 : xs.length = n) (l1 : ys.length = n) (l2 : zs.length = n) (l3 : xs'.length = n) (l4 : ys'.length = n)
    (l5 : zs'.length = n)
    (ha : Rels BinSharesOf xs a) (hb : Rels BinSharesOf ys b) (hc : Rels BinSharesOf zs c)
    (hx : Rels BinSharesOf xs' x) (hy : Rels BinSharesOf ys' y) (hz : Rels BinSharesOf zs' z)
    (k1 : ∀ k, (x₁ k).length = n) (k2 : ∀ k, (y₁ k).length = n) (k3 : ∀ k, (z₁ k).length = n)
    {q q' m sd : Bytes} (hq : q.length = q'.length) (hm : m.length = sd.length)
    (hrcv : (st i).jmp.rcvQueueNext = q ++ m) (hsnd : (st i.next).jmp.sendQueuePrev = q' ++ sd)
    (hP : PrfOk fun k => (st k).jmp.prf)
    (ej : x₁ i.next = x i.next ∧ y₁ i.next = y i.next ∧ z₁ i.next = z i.next)
    (ei : m = sd → x₁ i = x i ∧ y₁ i = y i ∧ z₁ i = z i)
    {Q : List Bytes → (Party → Unit) → (Party → SpdzSt G V) → Prop}
    (hbad : ∀ m' ms, Collision H (q ++ m ++ m') (q' ++ sd ++ ringSliceToBytes
      ((pqShares (a i.next) (b i.next) (x i.next) (y i.next)).map (·.a))) → E (m' :: ms))
    (h : q = q' → m = sd → ∀ (m' d : Bytes) (j : Party → JmpSt G), Fresh j →
      (Collision H
          ((tripleChecks i (a i) (b i) (c i) (z i) (List.zipWith (· ^^^ ·) xs xs')
            (List.zipWith (· ^^^ ·) ys ys')).flatMap (binZeroBytes i))
          ((tripleChecks i.next (a i.next) (b i.next) (c i.next) (z i.next) (List.zipWith (· ^^^ ·) xs xs')
            (List.zipWith (· ^^^ ·) ys ys')).flatMap (binZeroBytes i.next)) ∨
        ∀ e ∈ tripleErrors xs ys zs xs' ys' zs', e = 0) →
      Q [m', d] (fun _ => ()) (fun k => { st k with jmp := j k })) :
    PWS i (fun k => verifyTriples H k (a k) (b k) (c k) (x₁ k) (y₁ k) (z₁ k)) st E Q := by
  have n1 := Party.next_ne i
  have la : ∀ k, (a k).length = n := fun k => by rw [ha.length, l0]
  have lb : ∀ k, (b k).length = n := fun k => by rw [hb.length, l1]
  have lc : ∀ k, (c k).length = n := fun k => by rw [hc.length, l2]
  have lp : ∀ k, (pqShares (a k) (b k) (x₁ k) (y₁ k)).length = n + n := fun k => pqShares_length (la k) (lb k) (k1 k) (k2 k)
  refine PWS.congr (q := fun k =>
    viaJmp (jmpSendReceiveMany k ((pqShares (a k) (b k) (x₁ k) (y₁ k)).map (·.b))
      ((pqShares (a k) (b k) (x₁ k) (y₁ k)).map (·.a))) >>= fun cs => viaJmp (jmpVerify H k) >>= fun _ =>
    Proto.net (binHashZeroVerify H k (tripleChecks k (a k) (b k) (c k) (z₁ k)
      ((List.zipWith (fun s c => c ^^^ s.a ^^^ s.b) (pqShares (a k) (b k) (x₁ k) (y₁ k)) cs).take n)
      ((List.zipWith (fun s c => c ^^^ s.a ^^^ s.b) (pqShares (a k) (b k) (x₁ k) (y₁ k)) cs).drop n)))) (fun k => ?_) ?_
  · unfold verifyTriples triplesZero jmpOpenBinMany
    rw [if_neg (by rw [la, lb, lc, k1, k2, k3]; simp)]
    simp only [bind_assoc, pure_bind, la]
    rfl
  have hpq := pqShares_rel ha hb hx hy
  refine PWS.bind (PWS.zoom (jmpSendReceiveMany_pw (by simp [lp]) ?_))
  rintro w hw cs rfl
  refine PWS.bind (PWS.zoom (jmpVerify_pw ?_))
  intro hh
  simp only [hrcv, hsnd, ej.1, ej.2.1, if_true] at hh
  simp only [List.length_map, lp] at hw
  have lpn : (pqShares (a i.next) (b i.next) (x i.next) (y i.next)).length = n + n := by
    have := lp i.next; rwa [ej.1, ej.2.1] at this
  by_cases hs : q ++ m ++ ringSliceToBytes w = q' ++ sd ++ ringSliceToBytes
      ((pqShares (a i.next) (b i.next) (x i.next) (y i.next)).map (·.a))
  · have hw' := ringSliceToBytes_inj' (by simp [lpn, hw]) (List.append_inj_right' hs (by simp [ringSliceToBytes_length, lpn, hw]))
    have hs' := List.append_inj_left' hs (by simp [ringSliceToBytes_length, lpn, hw])
    have hm' := List.append_inj_right hs' hq
    have hq' := List.append_inj_left hs' hq
    obtain ⟨ex, ey, ez⟩ := ei hm'
    have lz : (List.zipWith (· ^^^ ·) xs xs').length = n := by simp [l0, l3]
    refine PWS.agree (q := fun k => Proto.net (binHashZeroVerify H k (tripleChecks k (a k) (b k) (c k) (z k)
      (List.zipWith (· ^^^ ·) xs xs') (List.zipWith (· ^^^ ·) ys ys'))))
      (st' := fun k => { st k with jmp := ⟨(st k).jmp.prf, [], []⟩ }) ?_ ?_ ?_
    · simp only [if_true, ex, ey, ez, hw']
      have : List.zipWith (fun s c => c ^^^ s.a ^^^ s.b) (pqShares (a i) (b i) (x i) (y i))
          ((pqShares (a i.next) (b i.next) (x i.next) (y i.next)).map (·.a)) =
          List.zipWith (· ^^^ ·) xs xs' ++ List.zipWith (· ^^^ ·) ys ys' := by
        refine openPair hpq (fun x s h => ?_)
        rw [← (h.pair i).1]; bitwise
      rw [this, List.take_left' lz, List.drop_left' lz]
      rfl
    · simp only [ej.1, ej.2.1, ej.2.2, n1, if_false, Party.prev_next, ex, ey]
      have : List.zipWith (fun s c => c ^^^ s.a ^^^ s.b) (pqShares (a i.next) (b i.next) (x i.next) (y i.next))
          ((pqShares (a i) (b i) (x i) (y i)).map (·.b)) =
          List.zipWith (· ^^^ ·) xs xs' ++ List.zipWith (· ^^^ ·) ys ys' := by
        refine openPair hpq (fun x s h => ?_)
        rw [← (h.pair i).1, (h.pair i).2]; bitwise
      rw [this, List.take_left' lz, List.drop_left' lz]
      rfl
    · refine PWS.net (PW.binHashZero ?_)
      intro hh'
      refine h hq' hm' _ _ (fun k => ⟨(st k).jmp.prf, [], []⟩) ⟨hP, fun _ => rfl, fun _ => rfl⟩ ?_
      by_cases hz' : (tripleChecks i (a i) (b i) (c i) (z i) (List.zipWith (· ^^^ ·) xs xs')
            (List.zipWith (· ^^^ ·) ys ys')).flatMap (binZeroBytes i) =
          (tripleChecks i.next (a i.next) (b i.next) (c i.next) (z i.next) (List.zipWith (· ^^^ ·) xs xs')
            (List.zipWith (· ^^^ ·) ys ys')).flatMap (binZeroBytes i.next)
      · right
        exact binZeroBytes_all (tripleChecks_rel ha hb hc hz (by omega) (by omega) (by omega) (by omega) (by omega)) n1.symm hz'
      · exact .inl ⟨hz', hh'⟩
  · refine PWS.bad fun ms => ?_
    exact hbad _ _ ⟨hs, hh⟩

/-! ## Generating triples -/

theorem _root_.Verif.Jmp.netFree_andLoop (ps : List (AShare K × AShare K)) : NetFree (Aby3.andLoop ps : Proto (Aby3St G) _) := by
  induction ps with
  | nil => exact .pure _
  | cons p ps ih =>
    obtain ⟨x, y⟩ := p
    exact netFree_step.bind fun _ => ih.bind fun _ => .pure _

theorem andDraws_wp (n : Nat) {st : Party → JmpSt G} (hP : PrfOk fun k => (st k).prf) :
    WPS (fun _ => andDraws n) st (fun t st' => ∃ A B : List (BitVec 128), A.length = 2 * n + 1 ∧ B.length = 2 * n + 1 ∧
      Rels BinSharesOf A (fun k => (t k).1) ∧ Rels BinSharesOf B (fun k => (t k).2.1) ∧
      Rels XorsTo (List.zipWith (· &&& ·) A B) (fun k => (t k).2.2) ∧ Kept st st') := by
  unfold andDraws
  refine WPS.bind ((genRandMany_kept _ hP).mono ?_)
  rintro a st1 ⟨⟨A0, lA0, ha0⟩, k1⟩
  obtain ⟨A, lA, ha⟩ := ha0.toBin
  refine WPS.bind ((genRandMany_kept _ k1.prf).mono ?_)
  rintro b st2 ⟨⟨B0, lB0, hb0⟩, k2⟩
  obtain ⟨B, lB, hb⟩ := hb0.toBin
  refine WPS.bind ((viaPrf_kept k2.prf fun _ hI => Aby3.andLoop_wp (v := 0) hI ha hb (by omega)).mono ?_)
  rintro cs st3 ⟨hcs, k3⟩
  exact WPS.pure (a := fun k => (a k, b k, cs k)) ⟨A, B, by omega, by omega, ha, hb, hcs, (k1.trans k2).trans k3⟩

theorem _root_.Verif.Prog.bind_eq_ret {α β : Type} {p : Prog α} {f : α → Prog β} {r : β} (h : (p >>= f) = .ret r) :
    ∃ a, p = .ret a ∧ f a = .ret r := by
  cases p with
  | ret a => exact ⟨a, rfl, h⟩
  | fail e => cases h
  | send => cases h
  | recv => cases h

theorem andDraws_split {n : Nat} {s s3 : JmpSt G} {a b : List (AShare 128)} {cs : List (BitVec 128)}
    (h : andDraws n s = .ret ((a, b, cs), s3)) : ∃ s1 s2, genRandMany 128 (2 * n + 1) s = .ret (a, s1) ∧
      genRandMany 128 (2 * n + 1) s1 = .ret (b, s2) ∧ viaPrf (Aby3.andLoop (a.zip b)) s2 = .ret (cs, s3) := by
  obtain ⟨⟨a', s1⟩, h1, h⟩ := Prog.bind_eq_ret h
  obtain ⟨⟨b', s2⟩, h2, h⟩ := Prog.bind_eq_ret h
  obtain ⟨⟨cs', s3'⟩, h3, h⟩ := Prog.bind_eq_ret h
  injection h with h
  simp only [Prod.mk.injEq] at h
  obtain ⟨⟨rfl, rfl, rfl⟩, rfl⟩ := h
  exact ⟨s1, s2, h1, h2, h3⟩

theorem viaPrf_split {α : Type} {p : Proto (Aby3St G) α} {s s' : JmpSt G} {a : α} (h : viaPrf p s = .ret (a, s')) :
    ∃ t, p ⟨s.prf⟩ = .ret (a, t) ∧ s' = { s with prf := t.prf } := by
  obtain ⟨⟨a', t⟩, h1, h⟩ := Prog.bind_eq_ret h
  injection h with h
  simp only [Prod.mk.injEq] at h
  obtain ⟨rfl, rfl⟩ := h
  exact ⟨t, h1, rfl⟩

theorem viaJmp_ret {α : Type} {p : Proto (JmpSt G) α} {s : SpdzSt G V} {a : α} {j : JmpSt G} (h : p s.jmp = .ret (a, j)) :
    viaJmp p s = .ret (a, { s with jmp := j }) := by
  show (p s.jmp >>= fun r => Prog.ret (r.1, { s with jmp := r.2 })) = _
  rw [h]; rfl

/-- What the two honest parties hold after the exchange of components of ANDs. -/
theorem _root_.Verif.XorsTo.resharedPair {x : BitVec K} {c : Party → BitVec K} (h : XorsTo x c) (i : Party) (z : BitVec K) :
    ∃ s : Party → AShare K, BinSharesOf (x ^^^ (z ^^^ c i.prev)) s ∧ s i = ⟨c i, z⟩ ∧ s i.next = ⟨c i.next, c i⟩ := by
  have hx : XorsTo (x ^^^ (z ^^^ c i.prev)) (fun l => if l = i.prev then z else c l) := by
    unfold XorsTo at h ⊢
    rw [← h]
    match i with
    | 0 => simp [Party.prev]; bitwise
    | 1 => simp [Party.prev]; bitwise
    | 2 => simp [Party.prev]; bitwise
  refine ⟨_, hx.shares, ?_, ?_⟩
  · simp [(Party.prev_ne i).symm]
  · simp [(Party.next_ne_prev i), (Party.prev_ne i).symm]

theorem _root_.Verif.Rels.xorResharedPair {xs : List (BitVec 128)} {cs : Party → List (BitVec 128)} (h : Rels XorsTo xs cs)
    (i : Party) {z : List (BitVec 128)} (hz : z.length = xs.length) :
    ∃ s : Party → List (AShare 128), Rels BinSharesOf (List.zipWith (· ^^^ ·) xs (xorErrors z (cs i.prev))) s ∧
      s i = List.zipWith AShare.mk (cs i) z ∧ s i.next = List.zipWith AShare.mk (cs i.next) (cs i) := by
  induction xs generalizing cs z with
  | nil =>
    obtain rfl := List.eq_nil_of_length_eq_zero hz
    rw [h.eq_nil]
    exact ⟨_, Rels.nil, rfl, rfl⟩
  | cons x xs ih =>
    cases z with
    | nil => simp at hz
    | cons w z =>
      obtain ⟨c, cs', hc, h', rfl⟩ := h.uncons
      obtain ⟨s, hs, e1, e2⟩ := ih h' (by simpa using hz)
      obtain ⟨s0, hs0, f1, f2⟩ := XorsTo.resharedPair hc i w
      exact ⟨fun l => s0 l :: s l, Rels.cons hs0 hs, by simp [f1, e1], by simp [f2, e2]⟩

theorem _root_.Verif.Rels.binPairs {xs : List (BitVec K)} {s : Party → List (AShare K)} (h : Rels BinSharesOf xs s) (i : Party) :
    BinPairsOf i xs (s i) (s i.next) := by
  refine ⟨by rw [h.length, h.length], ?_⟩
  induction xs generalizing s with
  | nil => rw [h.eq_nil]; exact .nil
  | cons x xs ih =>
    obtain ⟨b, ls, hb, h', rfl⟩ := h.uncons
    exact .cons (hb.pair i) (ih h')

theorem _root_.Verif.PWS.ite_throw {c : Party → Prop} [∀ k, Decidable (c k)] {e : Err} {p : Party → Proto σ α} {st : Party → σ}
    {Q : List Bytes → (Party → α) → (Party → σ) → Prop} (h : ¬ c i → ¬ c i.next → PWS i p st E Q) :
    PWS i (fun k => if c k then Proto.throw e else p k) st E Q := by
  by_cases h1 : c i
  · intro r s a b l1 _ _ _
    simp only [if_pos h1] at l1
    exact absurd (Local.fail_inv l1).2.2 (by simp)
  by_cases h2 : c i.next
  · intro r s a b _ l2 _ _
    simp only [if_pos h2] at l2
    exact absurd (Local.fail_inv l2).2.2 (by simp)
  exact PWS.agree (by simp only [if_neg h1]) (by simp only [if_neg h2]) (h h1 h2)

theorem shuffled_eq (seed : Bytes) (l : List (AShare 128)) :
    shuffled G seed l = AShare.mapLists (permC G (l.length * 128) 0 (G.ofSeed seed)) l := by
  unfold shuffled
  rw [permuteLoop_eq]

theorem shuffled_length (seed : Bytes) (l : List (AShare 128)) : (shuffled G seed l).length = l.length := by
  rw [shuffled_eq, AShare.mapLists]
  simp [permC_length]

/-- `permute`: `i.next` uses the right coin, `i` if it got the right message. -/
theorem permute_pw {n : Nat} {a b c : Party → List (AShare 128)} (hP : PrfOk fun k => (st k).jmp.prf)
    (ha : ∀ k, (a k).length = n) (hb : ∀ k, (b k).length = n) (hc : ∀ k, (c k).length = n)
    {Q : List Bytes → (Party → List (AShare 128) × List (AShare 128) × List (AShare 128)) → (Party → SpdzSt G V) → Prop}
    (h : ∀ z : Bytes, z.length = 32 → ∀ (sd : Party → Bytes) (j : Party → JmpSt G),
      sd i.next = coinOf (seeds fun k => (st k).jmp) →
      (z = seeds (fun k => (st k).jmp) i.next → sd i = coinOf (seeds fun k => (st k).jmp)) →
      (PrfOk fun k => (j k).prf) →
      (j i).rcvQueueNext = (st i).jmp.rcvQueueNext ++ ringSliceToBytes (K := 8) z →
      (j i.next).sendQueuePrev = (st i.next).jmp.sendQueuePrev ++
        ringSliceToBytes (K := 8) (seeds (fun k => (st k).jmp) i.next) →
      Q [ringSliceToBytes (K := 8) z] (fun k => (shuffled G (sd k) (a k), shuffled G (sd k) (b k), shuffled G (sd k) (c k)))
        (fun k => { st k with jmp := j k })) :
    PWS i (fun k => permute k (a k) (b k) (c k)) st E Q := by
  unfold permute
  refine PWS.ite_neg (fun k => by simp [ha, hb, hc]) ?_
  refine PWS.bind (PWS.zoom (coin_pw hP ?_))
  intro z hz sd j h1 h2 h3 h4 h5
  refine PWS.pure ?_
  have := h z hz sd j h1 h2 h3 h4 h5
  simp only [shuffled_eq, ha, hb, hc] at this
  simp only [permuteLoop_eq, ha]
  exact this

/-- The last share of a list. -/
def lastD (l : List (AShare 128)) : AShare 128 := l.getLast?.getD (AShare.zero 128)

theorem popE_length {n : Nat} {l : List (AShare 128)} (h : l.length = n + 1) : popE l = .ok (lastD l, l.dropLast) := by
  obtain ⟨l, x, rfl, -⟩ := eq_snoc_of_length h
  simp [popE, lastD]

theorem viaAby_pw {α : Type} {p : Party → Proto (Aby3St G) α} {Q : List Bytes → (Party → α) → (Party → SpdzSt G V) → Prop}
    (h : PWS i p (fun k => ⟨(st k).jmp.prf⟩) E (fun m a t => Q m a (fun k => { st k with jmp := { (st k).jmp with prf := (t k).prf } }))) :
    PWS i (fun k => viaAby (p k)) st E Q := by
  unfold viaAby viaJmp viaPrf
  exact PWS.zoom (PWS.zoom h)

/-- `generate_triples` after the ANDs. -/
def genRest (H : Hash) (me : Party) (n : Nat) (a b c : List (AShare 128)) : Proto (SpdzSt G V) Triples := do
  let (xs, ys, zs) ← permute me (a.drop n) (b.drop n) (c.drop n)
  let (x, xs) ← Proto.lift (popE xs)
  let (y, ys) ← Proto.lift (popE ys)
  let (z, zs) ← Proto.lift (popE zs)
  let opened ← openBinMany me [x, y, z]
  let o0 ← Proto.lift (idx opened 0)
  let o1 ← Proto.lift (idx opened 1)
  let o2 ← Proto.lift (idx opened 2)
  if (o0 &&& o1) ≠ o2 then Proto.throw .verify
  else do
    verifyTriples H me (a.take n) (b.take n) (c.take n) xs ys zs
    Proto.lift (Triples.new (a.take n) (b.take n) (c.take n))

theorem _root_.Verif.Rels.uniqueBin {xs ys : List (BitVec K)} {s : Party → List (AShare K)} (h : Rels BinSharesOf xs s)
    (h' : Rels BinSharesOf ys s) : xs = ys :=
  MalAby3.Rels.unique (R := BinSharesOf) (fun _ _ _ h h' => h.1.symm.trans h'.1) h h'

theorem errorsOf_wrong {xs ys es : List (BitVec 128)} (h : xs.length = ys.length) (h' : xs.length = es.length) :
    errorsOf xs ys (List.zipWith (· ^^^ ·) (List.zipWith (· &&& ·) xs ys) es) = es := by
  unfold errorsOf
  induction xs generalizing ys es with
  | nil => cases es with
    | nil => rfl
    | cons => simp at h'
  | cons x xs ih =>
    match ys, es, h, h' with
    | y :: ys, e :: es, h, h' =>
      simp only [List.zipWith_cons_cons]
      rw [ih (by simpa using h) (by simpa using h')]
      congr 1
      bitwise

theorem xorErr_last {u v e : BitVec 128} (h : u &&& v = (u &&& v) ^^^ e) : e = 0 := by
  have := congrArg (fun x => (u &&& v) ^^^ x) h
  simp only [← BitVec.xor_assoc, BitVec.xor_self, BitVec.zero_xor] at this
  exact this.symm

theorem generateTriples_pw (num : Nat) {n : Nat} (hn : max num minTriples = n) (hP : PrfOk fun k => (st k).jmp.prf)
    (hq : (st i).jmp.rcvQueueNext.length = (st i.next).jmp.sendQueuePrev.length)
    {a b : Party → List (AShare 128)} {cs : Party → List (BitVec 128)} {j1 : Party → JmpSt G}
    (hd : ∀ k, andDraws n (st k).jmp = .ret ((a k, b k, cs k), j1 k))
    {A B : List (BitVec 128)} (ha : Rels BinSharesOf A a) (hb : Rels BinSharesOf B b) :
    PWS i (fun k => generateTriples H k num) st
      (fun ms => ∃ m0 m1 m2 m3 rest, ms = m0 :: m1 :: m2 :: m3 :: rest ∧
        Collision H ((st i).jmp.rcvQueueNext ++ m1 ++ m3)
          ((st i.next).jmp.sendQueuePrev ++ ringSliceToBytes (K := 8) (seeds j1 i.next) ++ ringSliceToBytes
            ((pqShares ((a i.next).take n) ((b i.next).take n)
              (shuffled G (coinOf (seeds j1)) ((a i.next).drop n)).dropLast
              (shuffled G (coinOf (seeds j1)) ((b i.next).drop n)).dropLast).map (·.a))))
      (fun ms t s => ∃ (z : List (BitVec 128)) (m1 m2 m3 d : Bytes) (j : Party → JmpSt G),
        ms = [ringSliceToBytes z, m1, m2, m3, d] ∧ z.length = 2 * n + 1 ∧
        (st i).jmp.rcvQueueNext = (st i.next).jmp.sendQueuePrev ∧ Fresh j ∧ s = (fun k => { st k with jmp := j k }) ∧
        (Collision H
          ((tripleChecks i ((a i).take n) ((b i).take n) ((List.zipWith AShare.mk (cs i) z).take n)
            (shuffled G (coinOf (seeds j1)) ((List.zipWith AShare.mk (cs i) z).drop n)).dropLast
            (List.zipWith (· ^^^ ·) (A.take n) (permC G ((n + 1) * 128) 0 (G.ofSeed (coinOf (seeds j1))) (A.drop n)).dropLast)
            (List.zipWith (· ^^^ ·) (B.take n)
              (permC G ((n + 1) * 128) 0 (G.ofSeed (coinOf (seeds j1))) (B.drop n)).dropLast)).flatMap (binZeroBytes i))
          ((tripleChecks i.next ((a i.next).take n) ((b i.next).take n)
            ((List.zipWith AShare.mk (cs i.next) (cs i)).take n)
            (shuffled G (coinOf (seeds j1)) ((List.zipWith AShare.mk (cs i.next) (cs i)).drop n)).dropLast
            (List.zipWith (· ^^^ ·) (A.take n) (permC G ((n + 1) * 128) 0 (G.ofSeed (coinOf (seeds j1))) (A.drop n)).dropLast)
            (List.zipWith (· ^^^ ·) (B.take n)
              (permC G ((n + 1) * 128) 0 (G.ofSeed (coinOf (seeds j1))) (B.drop n)).dropLast)).flatMap (binZeroBytes i.next)) ∨
        permC G ((n + 1) * 128) 0 (G.ofSeed (coinOf (seeds j1))) ((xorErrors z (cs i.prev)).drop n) =
          (xorErrors z (cs i.prev)).take n ++ [0] ∧
        (t i).bitsInLast = 128 ∧ (t i.next).bitsInLast = 128 ∧
        BinPairsOf i (A.take n) (t i).a (t i.next).a ∧ BinPairsOf i (B.take n) (t i).b (t i.next).b ∧
        BinPairsOf i ((List.zipWith (· ^^^ ·) (List.zipWith (· &&& ·) A B) (xorErrors z (cs i.prev))).take n)
          (t i).c (t i.next).c)) := by
  obtain ⟨A₁, B₁, lA, lB, h1, h2, hcs, hk⟩ := MalAby3.local_rel (p := fun _ => andDraws n) hd (andDraws_wp n hP)
  obtain rfl : A₁ = A := h1.uniqueBin ha
  obtain rfl : B₁ = B := h2.uniqueBin hb
  have n1 := Party.next_ne i
  have hdr := fun k => andDraws_split (hd k)
  choose s1 s2 d1 d2 d3 using hdr
  have d4 := fun k => viaPrf_split (d3 k)
  choose t3 d5 d6 using d4
  have la : ∀ k, (a k).length = 2 * n + 1 := fun k => by rw [ha.length, lA]
  have lb : ∀ k, (b k).length = 2 * n + 1 := fun k => by rw [hb.length, lB]
  have lcs : ∀ k, (cs k).length = 2 * n + 1 := fun k => by rw [hcs.length]; simp [lA, lB]
  unfold generateTriples
  simp only [hn]
  refine PWS.bind_eq (a := a) (st1 := fun k => { st k with jmp := s1 k }) (fun k => viaJmp_ret (d1 k)) ?_
  refine PWS.bind_eq (a := b) (st1 := fun k => { st k with jmp := s2 k }) (fun k => viaJmp_ret (d2 k)) ?_
  refine PWS.bind (viaAby_pw ?_)
  unfold Aby3.andMany
  refine PWS.ite_neg (fun k => by rw [la, lb]; simp) ?_
  refine PWS.bind_eq (a := cs) (st1 := t3) d5 ?_
  refine PWS.bind (PWS.net (PW.exchangeIter (by rw [lcs, lcs]) ?_))
  intro z hz
  refine PWS.pure ?_
  obtain ⟨c, hc, ci, cj⟩ := hcs.xorResharedPair i (z := z) (by rw [hz, lcs]; simp [lA, lB])
  set Er := xorErrors z (cs i.prev) with hEr
  have lE : Er.length = 2 * n + 1 := by rw [hEr, xorErrors, List.length_zipWith, hz, lcs, lcs, min_self]
  have lc : ∀ k, (c k).length = 2 * n + 1 := fun k => by rw [hc.length]; simp [lA, lB, lE]
  have e1 : 2 * n + 1 - n = n + 1 := by omega
  rw [lcs] at hz
  refine PWS.agree (q := fun k => genRest H k n (a k) (b k) (c k)) (st' := fun k => { st k with jmp := j1 k }) ?_ ?_ ?_
  · simp only [if_true, ci, d6]; rfl
  · simp only [n1, if_false, Party.prev_next, cj, d6]; rfl
  have hCV := hc
  unfold genRest
  refine PWS.bind (permute_pw (n := n + 1) (by exact hk.prf) (fun k => by rw [List.length_drop, la, e1])
    (fun k => by rw [List.length_drop, lb, e1]) (fun k => by rw [List.length_drop, lc, e1]) ?_)
  intro zc hzc sd j2 sj si hP2 hr2 hs2
  change sd i.next = coinOf (seeds j1) at sj
  change zc = seeds j1 i.next → sd i = coinOf (seeds j1) at si
  change _ = (j1 i).rcvQueueNext ++ _ at hr2
  change _ = (j1 i.next).sendQueuePrev ++ ringSliceToBytes (K := 8) (seeds j1 i.next) at hs2
  rw [hk.rcv] at hr2
  rw [hk.snd] at hs2
  have lS : ∀ (l : Party → List (AShare 128)), (∀ k, (l k).length = 2 * n + 1) → ∀ k s, (shuffled G s ((l k).drop n)).length = n + 1 :=
    fun l hl k s => by rw [shuffled_length, List.length_drop, hl, e1]
  refine PWS.bind (PWS.lift_ok (a := fun k => (lastD (shuffled G (sd k) ((a k).drop n)), (shuffled G (sd k) ((a k).drop n)).dropLast))
    (fun k => popE_length (lS a la k _)) ?_)
  refine PWS.bind (PWS.lift_ok (a := fun k => (lastD (shuffled G (sd k) ((b k).drop n)), (shuffled G (sd k) ((b k).drop n)).dropLast))
    (fun k => popE_length (lS b lb k _)) ?_)
  refine PWS.bind (PWS.lift_ok (a := fun k => (lastD (shuffled G (sd k) ((c k).drop n)), (shuffled G (sd k) ((c k).drop n)).dropLast))
    (fun k => popE_length (lS c lc k _)) ?_)
  unfold openBinMany
  refine PWS.bind (PWS.bind (PWS.net (PW.exchangeIter (by simp) ?_)))
  intro w hw
  refine PWS.pure ?_
  refine PWS.bind (PWS.lift fun o0 _ h0 => ⟨o0, rfl, rfl, ?_⟩)
  refine PWS.bind (PWS.lift fun o1 _ h1 => ⟨o1, rfl, rfl, ?_⟩)
  refine PWS.bind (PWS.lift fun o2 _ h2 => ⟨o2, rfl, rfl, ?_⟩)
  refine PWS.ite_throw ?_
  intro _ hchk
  simp only [n1, if_false, Party.prev_next, List.map_cons, List.map_nil, List.zipWith_cons_cons] at h0 h1 h2
  set P := permC G ((n + 1) * 128) 0 (G.ofSeed (coinOf (seeds j1))) with hPd
  have hrel : ∀ {L : List (BitVec 128)} {l : Party → List (AShare 128)}, L.length = 2 * n + 1 → Rels BinSharesOf L l →
      Rels BinSharesOf (P (L.drop n)) (fun k => shuffled G (coinOf (seeds j1)) ((l k).drop n)) := by
    intro L l hL hl
    have hlen : ∀ k, ((l k).drop n).length = n + 1 := fun k => by rw [List.length_drop, hl.length, hL, e1]
    simp only [shuffled_eq, hlen]
    exact BinSharesOf.mapLists (permC_linear (n + 1) _) (by rw [List.length_drop, hL, e1]) (hl.drop n)
  have hX := hrel lA ha
  have hY := hrel lB hb
  have lC : (List.zipWith (· ^^^ ·) (List.zipWith (· &&& ·) A₁ B₁) Er).length = 2 * n + 1 := by simp [lA, lB, lE]
  have hZ := hrel lC hc
  have lP : ∀ L : List (BitVec 128), L.length = 2 * n + 1 → (P (L.drop n)).length = n + 1 := fun L hL => by
    rw [hPd, permC_length, List.length_drop, hL, e1]
  have hPC : P ((List.zipWith (· ^^^ ·) (List.zipWith (· &&& ·) A₁ B₁) Er).drop n) =
      List.zipWith (· ^^^ ·) (List.zipWith (· &&& ·) (P (A₁.drop n)) (P (B₁.drop n))) (P (Er.drop n)) := by
    rw [List.drop_zipWith, List.drop_zipWith]
    rw [← permC_and (n + 1) _ (by rw [List.length_drop, lA, e1]) (by rw [List.length_drop, lB, e1])]
    exact (permC_linear (n + 1) _).xor _ _ (by simp [lA, lB, e1]) (by simp [lE, e1])
  rw [hPC] at hZ
  obtain ⟨xs', u, eA, lx⟩ := eq_snoc_of_length (lP _ lA)
  obtain ⟨ys', v, eB, ly⟩ := eq_snoc_of_length (lP _ lB)
  obtain ⟨es, e, eE, le⟩ := eq_snoc_of_length (lP _ lE)
  rw [eA, eB, eE] at hZ
  rw [List.zipWith_append (by rw [lx, ly]), List.zipWith_append (by simp [lx, ly, le])] at hZ
  rw [eA] at hX
  rw [eB] at hY
  obtain ⟨X, x, hX, hx, fX⟩ := hX.unsnoc
  obtain ⟨Y, y, hY, hy, fY⟩ := hY.unsnoc
  obtain ⟨Z, zz, hZ, hzz, fZ⟩ := hZ.unsnoc
  have lst : ∀ {k : Party} {l : Party → List (AShare 128)} {L : Party → List (AShare 128)} {la : Party → AShare 128},
      sd k = coinOf (seeds j1) → ((fun k => shuffled G (coinOf (seeds j1)) ((l k).drop n)) = fun k => L k ++ [la k]) →
      lastD (shuffled G (sd k) ((l k).drop n)) = la k ∧ (shuffled G (sd k) ((l k).drop n)).dropLast = L k := by
    intro k l L la hs hl
    have := congrFun hl k
    beta_reduce at this
    rw [hs, this]
    simp [lastD]
  have dl : ∀ {k : Party} {l : Party → List (AShare 128)} {L : Party → List (AShare 128)} {la : Party → AShare 128},
      ((fun k => shuffled G (coinOf (seeds j1)) ((l k).drop n)) = fun k => L k ++ [la k]) →
      (shuffled G (coinOf (seeds j1)) ((l k).drop n)).dropLast = L k := by
    intro k l L la hl
    have := congrFun hl k
    beta_reduce at this
    rw [this]
    simp
  have ldl : ∀ (l : Party → List (AShare 128)), (∀ k, (l k).length = 2 * n + 1) → ∀ k,
      (shuffled G (sd k) ((l k).drop n)).dropLast.length = n := fun l hl k => by
    rw [List.length_dropLast, lS l hl]; rfl
  have hinj : ringSliceToBytes (K := 8) zc = ringSliceToBytes (K := 8) (seeds j1 i.next) → sd i = coinOf (seeds j1) :=
    fun h => si (ringSliceToBytes_inj' (by rw [hzc]; simp only [seeds]; rw [G.genSeed_length]) h)
  refine PWS.bind (verifyTriples_pw (n := n) (xs := A₁.take n) (ys := B₁.take n)
    (zs := (List.zipWith (· ^^^ ·) (List.zipWith (· &&& ·) A₁ B₁) Er).take n) (xs' := xs') (ys' := ys')
    (zs' := List.zipWith (· ^^^ ·) (List.zipWith (· &&& ·) xs' ys') es)
    (a := fun k => (a k).take n) (b := fun k => (b k).take n) (c := fun k => (c k).take n) (x := X) (y := Y) (z := Z)
    (q := (st i).jmp.rcvQueueNext) (q' := (st i.next).jmp.sendQueuePrev) (m := ringSliceToBytes (K := 8) zc)
    (sd := ringSliceToBytes (K := 8) (seeds j1 i.next))
    (by rw [List.length_take, lA]; omega) (by rw [List.length_take, lB]; omega) (by rw [List.length_take, lC]; omega)
    lx ly (by simp [lx, ly, le]) (ha.take n) (hb.take n) (hc.take n) hX hY hZ
    (fun k => ldl a la k) (fun k => ldl b lb k) (fun k => ldl c lc k) hq
    (by rw [ringSliceToBytes_length, ringSliceToBytes_length, hzc]; simp only [seeds]; rw [G.genSeed_length])
    (by exact hr2) (by exact hs2) (by exact hP2)
    ⟨(lst sj fX).2, (lst sj fY).2, (lst sj fZ).2⟩
    (fun h => ⟨(lst (hinj h) fX).2, (lst (hinj h) fY).2, (lst (hinj h) fZ).2⟩) ?_ ?_)
  · intro m' ms hcol ms'
    refine ⟨_, _, _, _, _, rfl, ?_⟩
    rw [dl fX, dl fY]
    exact hcol
  · intro hqq hmm m' d j hF hres
    refine PWS.lift_ok (a := fun k => (⟨(a k).take n, (b k).take n, (c k).take n, 128⟩ : Triples)) (fun k => ?_) ?_
    · rw [Triples.new, if_neg]
      simp [la, lb, lc]
    refine ⟨z, _, _, _, _, j, rfl, hz, hqq, hF, rfl, ?_⟩
    have ci' : c i = List.zipWith AShare.mk (cs i) z := ci
    have cj' : c i.next = List.zipWith AShare.mk (cs i.next) (cs i) := cj
    rw [← ci', ← cj', dl fZ, dl fZ, eA, eB, List.dropLast_concat, List.dropLast_concat]
    rcases hres with hres | hres
    · exact .inl hres
    right
    have hci := hinj hmm
    have g0 : o0 i.next = u := by
      have := (Except.ok.inj h0).symm
      rw [this, (lst hci fX).1, (lst sj fX).1, ← (hx.pair i).1, (hx.pair i).2]; bitwise
    have g1 : o1 i.next = v := by
      have := (Except.ok.inj h1).symm
      rw [this, (lst hci fY).1, (lst sj fY).1, ← (hy.pair i).1, (hy.pair i).2]; bitwise
    have hzz : BinSharesOf ((u &&& v) ^^^ e) zz := hzz
    have g2 : o2 i.next = (u &&& v) ^^^ e := by
      have := (Except.ok.inj h2).symm
      rw [this, (lst hci fZ).1, (lst sj fZ).1, ← (hzz.pair i).1, (hzz.pair i).2]; bitwise
    push Not at hchk
    rw [g0, g1, g2] at hchk
    obtain rfl := xorErr_last hchk
    refine ⟨?_, rfl, rfl, (ha.take n).binPairs i, (hb.take n).binPairs i, (hc.take n).binPairs i⟩
    rw [eE]
    congr 1
    have := (tripleErrors_zero (by simp [lA, lB]) (by simp [lA, lB, lE]) (by simp [lA, lx]; omega) (by simp [lA, ly]; omega) (by simp [lA, lx, ly, le]; omega)).1 hres
    rw [List.take_zipWith, List.take_zipWith, errorsOf_wrong (by simp [lA, lB]) (by simp [lA, lE]), errorsOf_wrong (by rw [lx, ly]) (by rw [lx, le])] at this
    exact this.symm

end Spdz

end Verif
