import Verif.Spec.Pair
import Verif.Proof.PairMal
import Verif.Props.MalAby3

/-!
# C24, C59: whole runs of the malicious ABY3 backend with a corrupt party

The corrupt party is `i.prev`; nothing is assumed about it. The honest parties `i` and `i.next` run the code of the
repository. The theorems speak about their finished runs (`HonestViews`), under any schedule
(`C24_views_of_reachable`). The random values the parties' generators produce are named by the equation for
`tripleDraws` etc.; `C24_draws_total` says that it can always be met. In each theorem the strings of a possible
collision are spelled out: they are the strings the two honest parties hash.
-/

namespace Verif

open Jmp MalAby3

variable {G : Prg} {H : Hash} {K V : Nat}

/-- The views the theorems below speak about are those of the configurations reachable under any schedule. -/
theorem C24_views_of_reachable {α : Type} (p : Party → Prog α) (c : Party) (adv : Prog α) (conf : Config α)
    (h : Reaches (corrupt p c adv) conf) (out : Party → α) (ho : ∀ k, k ≠ c → conf.prog k = .ret (out k)) :
    ∃ rcvd sent, HonestViews p c rcvd sent out := h.honestViews ho

/-- The local code before the communication always finishes, with shares of some values and components of the
products. -/
theorem C24_draws_total (V : Nat) (st : Party → JmpSt G) (hP : PrfOk fun k => (st k).prf) :
    ∃ (a a' b : Party → AShare V) (c0 c1 : Party → BitVec V) (st1 : Party → JmpSt G) (A A' B : BitVec V),
      (∀ k, tripleDraws V (st k) = .ret ((a k, a' k, b k, [c0 k, c1 k]), st1 k)) ∧
      SharesOf A a ∧ SharesOf A' a' ∧ SharesOf B b ∧ c0 0 + c0 1 + c0 2 = A * B ∧ c1 0 + c1 1 + c1 2 = A' * B := by
  obtain ⟨o, ho, A, A', B, h1, h2, h3, h4⟩ := tripleDraws_run V hP
  obtain ⟨d0, ds, hs0, hcs, e⟩ := h4.uncons
  obtain ⟨d1, ds', hs1, hn, rfl⟩ := hcs.uncons
  obtain rfl := hn.eq_nil
  refine ⟨_, _, _, d0, d1, fun k => (o k).2, A, A', B, fun k => ?_, h1, h2, h3, hs0, hs1⟩
  rw [ho k]
  have := congrFun e k
  simp only at this
  rw [← this]

/-- `get_mul_triple`: if both honest parties finish, then either one of two pairs of strings they have hashed is a
collision, or the errors of the two products satisfy the equation of the sacrifice and the honest parties hold shares of a
triple with the first error. In particular the messages pending before are settled. -/
theorem C24_run_triple (hV : 40 ≤ V - K) (i : Party) (st st1 : Party → JmpSt G) (hP : PrfOk fun k => (st k).prf)
    (hq : (st i).rcvQueueNext.length = (st i.next).sendQueuePrev.length)
    (a a' b : Party → AShare V) (c0 c1 : Party → BitVec V)
    (hd : ∀ k, tripleDraws V (st k) = .ret ((a k, a' k, b k, [c0 k, c1 k]), st1 k))
    (A A' B : BitVec V) (ha : SharesOf A a) (ha' : SharesOf A' a') (hb : SharesOf B b)
    (rcvd sent : Party → Party → List Bytes) (out : Party → (AShare K × AShare K × AShare K) × JmpSt G)
    (hv : HonestViews (fun k => getMulTriple H V K k (st k)) i.prev rcvd sent out) :
    (∃ m0 m1 m2 rest, rcvd i i.prev = m0 :: m1 :: m2 :: rest ∧ Collision H ((st i).rcvQueueNext ++ m1 ++ m2)
      ((st i.next).sendQueuePrev ++ ringSliceToBytes (K := 8) (G.genSeed (st1 i.next).prf.my).1 ++
        toBytes (((a i.next).mulConst (coinVal V st1)).sub (a' i.next)).a)) ∨
    (st i).rcvQueueNext = (st i.next).sendQueuePrev ∧
    ∃ (z0 z1 : BitVec V) (m1 m2 d : Bytes), rcvd i i.prev = [ringSliceToBytes [z0, z1], m1, m2, d] ∧
      (Collision H
          (zeroBytes i (checkShare (coinVal V st1) (A * coinVal V st1 - A') (b i) ⟨c0 i, z0⟩ ⟨c1 i, z1⟩))
          (zeroBytes i.next (checkShare (coinVal V st1) (A * coinVal V st1 - A') (b i.next)
            ⟨c0 i.next, c0 i⟩ ⟨c1 i.next, c1 i⟩)) ∨
        coinVal V st1 * (z0 - c0 i.prev) = z1 - c1 i.prev ∧
        PairOf i (A.setWidth K) (out i).1.1 (out i.next).1.1 ∧
        PairOf i (B.setWidth K) (out i).1.2.1 (out i.next).1.2.1 ∧
        PairOf i ((A * B + (z0 - c0 i.prev)).setWidth K) (out i).1.2.2 (out i.next).1.2.2) := by
  rcases (getMulTriple_pw (H := H) (i := i) hV hP hq hd ha ha' hb).views hv with h | ⟨o, o1, o2, -, z0, z1, m1, m2, d, e, hqe, -, -, h⟩
  · exact .inl h
  · beta_reduce at h
    rw [o1, o2] at h
    exact .inr ⟨hqe, z0, z1, m1, m2, d, e, h⟩

/-- The same for `get_mul_triple_many`. -/
theorem C24_run_triples (hV : 40 ≤ V - K) (n : Nat) (i : Party) (st st1 : Party → JmpSt G)
    (hP : PrfOk fun k => (st k).prf) (hq : (st i).rcvQueueNext.length = (st i.next).sendQueuePrev.length)
    (a b a' : Party → List (AShare V)) (cs : Party → List (BitVec V))
    (hd : ∀ k, tripleManyDraws V n (st k) = .ret ((a k, b k, a' k, cs k), st1 k))
    (A B A' : List (BitVec V)) (ha : Rels SharesOf A a) (hb : Rels SharesOf B b) (ha' : Rels SharesOf A' a')
    (rcvd sent : Party → Party → List Bytes)
    (out : Party → (List (AShare K) × List (AShare K) × List (AShare K)) × JmpSt G)
    (hv : HonestViews (fun k => getMulTripleMany H V K k n (st k)) i.prev rcvd sent out) :
    (∃ m0 m1 m2 rest, rcvd i i.prev = m0 :: m1 :: m2 :: rest ∧ Collision H ((st i).rcvQueueNext ++ m1 ++ m2)
      ((st i.next).sendQueuePrev ++ ringSliceToBytes (K := 8) (G.genSeed (st1 i.next).prf.my).1 ++
        ringSliceToBytes ((List.zipWith (fun x y => (x.mulConst (coinVal V st1)).sub y) (a i.next) (a' i.next)).map
          (·.a)))) ∨
    (st i).rcvQueueNext = (st i.next).sendQueuePrev ∧
    ∃ (z : List (BitVec V)) (m1 m2 d : Bytes), rcvd i i.prev = [ringSliceToBytes z, m1, m2, d] ∧ z.length = n + n ∧
      (Collision H
          ((checkShares (coinVal V st1) (List.zipWith (fun x y => x * coinVal V st1 - y) A A') (b i)
            ((List.zipWith AShare.mk (cs i) z).take n) ((List.zipWith AShare.mk (cs i) z).drop n)).flatMap (zeroBytes i))
          ((checkShares (coinVal V st1) (List.zipWith (fun x y => x * coinVal V st1 - y) A A') (b i.next)
            ((List.zipWith AShare.mk (cs i.next) (cs i)).take n)
            ((List.zipWith AShare.mk (cs i.next) (cs i)).drop n)).flatMap (zeroBytes i.next)) ∨
        (errors z (cs i.prev)).drop n = ((errors z (cs i.prev)).take n).map (coinVal V st1 * ·) ∧
        PairsOf i (A.map (·.setWidth K)) (out i).1.1 (out i.next).1.1 ∧
        PairsOf i (B.map (·.setWidth K)) (out i).1.2.1 (out i.next).1.2.1 ∧
        PairsOf i ((List.zipWith (· + ·) (List.zipWith (· * ·) A B) ((errors z (cs i.prev)).take n)).map (·.setWidth K))
          (out i).1.2.2 (out i.next).1.2.2) := by
  rcases (getMulTripleMany_pw (H := H) (i := i) hV hP hq hd ha hb ha').views hv with
    h | ⟨o, o1, o2, -, z, m1, m2, d, e, hz, hqe, h⟩
  · exact .inl h
  · beta_reduce at h
    rw [o1, o2] at h
    exact .inr ⟨hqe, z, m1, m2, d, e, hz, h⟩

theorem head_two {l rest : List Bytes} {u v z0 z1 : BitVec V} (h : l.head? = some (ringSliceToBytes [u, v]))
    (e : l = ringSliceToBytes [z0, z1] :: rest) : z0 = u ∧ z1 = v := by
  rw [e] at h
  simp only [List.head?_cons, Option.some.injEq] at h
  have := ringSliceToBytes_inj' (by simp) h
  simpa using this

/-- `mul` followed by `open`. For every pair of errors `e0`, `e1` the corrupt party may put into its two components there
is a set of at most `2^(K-1)` of the `2^V` coins, such that whenever the coin is not in that set, honest parties that
finish both output the product; unless one of four pairs of strings they have hashed is a collision. -/
theorem C59_run_mul_open (hV : 40 ≤ verifWidth K - K) (e0 e1 : BitVec (verifWidth K)) :
    ∃ bad : Finset Nat, bad.card ≤ 2 ^ (K - 1) ∧
      ∀ (i : Party) (st st1 : Party → JmpSt G), (PrfOk fun k => (st k).prf) →
      (st i).rcvQueueNext.length = (st i.next).sendQueuePrev.length →
      ∀ (x y : BitVec K) (a b : Party → AShare K), SharesOf x a → SharesOf y b →
      ∀ (p p' q : Party → AShare (verifWidth K)) (c0 c1 : Party → BitVec (verifWidth K)),
      (∀ k, tripleDraws (verifWidth K) (st k) = .ret ((p k, p' k, q k, [c0 k, c1 k]), st1 k)) →
      ∀ (P P' Q : BitVec (verifWidth K)), SharesOf P p → SharesOf P' p' → SharesOf Q q →
      ∀ (rcvd sent : Party → Party → List Bytes) (out : Party → BitVec K × JmpSt G),
      HonestViews (fun k => (mul H k (a k) (b k) >>= fun c => openShare H k c) (st k)) i.prev rcvd sent out →
      (rcvd i i.prev).head? = some (ringSliceToBytes [c0 i.prev + e0, c1 i.prev + e1]) →
      (coinVal (verifWidth K) st1).toNat ∉ bad →
      (∃ m0 m1 m2 rest, rcvd i i.prev = m0 :: m1 :: m2 :: rest ∧
        (Collision H ((st i).rcvQueueNext ++ m1 ++ m2)
          ((st i.next).sendQueuePrev ++ ringSliceToBytes (K := 8) (G.genSeed (st1 i.next).prf.my).1 ++
            toBytes (((p i.next).mulConst (coinVal (verifWidth K) st1)).sub (p' i.next)).a) ∨
        Collision H
          (zeroBytes i (checkShare (coinVal (verifWidth K) st1) (P * coinVal (verifWidth K) st1 - P') (q i)
            ⟨c0 i, c0 i.prev + e0⟩ ⟨c1 i, c1 i.prev + e1⟩))
          (zeroBytes i.next (checkShare (coinVal (verifWidth K) st1) (P * coinVal (verifWidth K) st1 - P') (q i.next)
            ⟨c0 i.next, c0 i⟩ ⟨c1 i.next, c1 i⟩)) ∨
        ∃ d m3 rest', rest = d :: m3 :: rest' ∧
          (Collision H m3 (ringSliceToBytes [((a i.next).sub ((p i.next).fromVerif K)).a,
            ((b i.next).sub ((q i.next).fromVerif K)).a]) ∨
          ∃ m4 rest'', rest' = m4 :: rest'' ∧ Collision H m4 (toBytes (mulShare i.next (a i.next) (b i.next)
            ((⟨c0 i.next, c0 i⟩ : AShare (verifWidth K)).fromVerif K) (x - P.setWidth K) (y - Q.setWidth K)).a)))) ∨
      (out i).1 = x * y ∧ (out i.next).1 = x * y := by
  have hKV : K ≤ verifWidth K := by omega
  refine ⟨if e0.setWidth K = 0 then ∅ else (Finset.range (2 ^ verifWidth K)).filter
    fun r => BitVec.ofNat (verifWidth K) r * e0 = e1, ?_, ?_⟩
  · split
    · simp
    · next h => exact card_solutions hKV _ _ h
  intro i st st1 hP hq x y a b ha hb p p' q c0 c1 hd P P' Q hp hp' hq' rcvd sent out hv hm hbad
  rcases (mulOpen_pw (H := H) (i := i) hV hP hq ha hb hd hp hp' hq').views hv with
    ⟨m0, m1, m2, rest, e, h | ⟨z0, z1, rfl, h⟩ | h⟩ | ⟨o, o1, o2, z0, z1, rest, e, heq, h⟩
  · exact .inl ⟨m0, m1, m2, rest, e, .inl h⟩
  · obtain ⟨rfl, rfl⟩ := head_two hm e
    exact .inl ⟨_, m1, m2, rest, e, .inr (.inl h)⟩
  · exact .inl ⟨m0, m1, m2, rest, e, .inr (.inr h)⟩
  · obtain ⟨rfl, rfl⟩ := head_two hm e
    right
    have h1 := h i
    have h2 := h i.next
    beta_reduce at h1 h2
    rw [o1] at h1
    rw [o2] at h2
    rw [add_sub_cancel_left] at heq h1 h2
    rw [add_sub_cancel_left] at heq
    by_cases hz : e0.setWidth K = 0
    · rw [hz, add_zero] at h1 h2
      exact ⟨h1, h2⟩
    · rw [if_neg hz] at hbad
      exact absurd (Finset.mem_filter.2 ⟨Finset.mem_range.2 (BitVec.isLt _), by simpa using heq⟩) hbad

/-- `dot` followed by `open`: as `C59_run_mul_open`, for vectors of any length. -/
theorem C59_run_dot_open (hV : 40 ≤ verifWidth K - K) (e0 e1 : BitVec (verifWidth K)) :
    ∃ bad : Finset Nat, bad.card ≤ 2 ^ (K - 1) ∧
      ∀ (i : Party) (st st1 : Party → JmpSt G), (PrfOk fun k => (st k).prf) →
      (st i).rcvQueueNext.length = (st i.next).sendQueuePrev.length →
      ∀ (xs ys : List (BitVec K)) (x y : Party → List (AShare K)), Rels SharesOf xs x → Rels SharesOf ys y →
      xs.length = ys.length →
      ∀ (a' : Party → List (AShare (verifWidth K))) (c0 c1 : Party → BitVec (verifWidth K)),
      (∀ k, dotDraws (verifWidth K) ((x k).map (·.toVerif (verifWidth K))) ((y k).map (·.toVerif (verifWidth K))) (st k) =
        .ret ((a' k, [c0 k, c1 k]), st1 k)) →
      ∀ (X A' : List (BitVec (verifWidth K))), (Rels SharesOf X fun k => (x k).map (·.toVerif (verifWidth K))) →
      Rels SharesOf A' a' →
      ∀ (rcvd sent : Party → Party → List Bytes) (out : Party → BitVec K × JmpSt G),
      HonestViews (fun k => (dot H k (x k) (y k) >>= fun c => openShare H k c) (st k)) i.prev rcvd sent out →
      (rcvd i i.prev).head? = some (ringSliceToBytes [c0 i.prev + e0, c1 i.prev + e1]) →
      (coinVal (verifWidth K) st1).toNat ∉ bad →
      (∃ m0 m1 m2 rest, rcvd i i.prev = m0 :: m1 :: m2 :: rest ∧
        (Collision H ((st i).rcvQueueNext ++ m1 ++ m2)
          ((st i.next).sendQueuePrev ++ ringSliceToBytes (K := 8) (G.genSeed (st1 i.next).prf.my).1 ++
            ringSliceToBytes ((List.zipWith (fun x y => (x.mulConst (coinVal (verifWidth K) st1)).sub y)
              ((x i.next).map (·.toVerif (verifWidth K))) (a' i.next)).map (·.a))) ∨
        Collision H
          (zeroBytes i (dotCheckShare (coinVal (verifWidth K) st1)
            (List.zipWith (fun x y => x * coinVal (verifWidth K) st1 - y) X A')
            ((y i).map (·.toVerif (verifWidth K))) ⟨c0 i, c0 i.prev + e0⟩ ⟨c1 i, c1 i.prev + e1⟩))
          (zeroBytes i.next (dotCheckShare (coinVal (verifWidth K) st1)
            (List.zipWith (fun x y => x * coinVal (verifWidth K) st1 - y) X A')
            ((y i.next).map (·.toVerif (verifWidth K))) ⟨c0 i.next, c0 i⟩ ⟨c1 i.next, c1 i⟩)) ∨
        ∃ d m3 rest', rest = d :: m3 :: rest' ∧
          Collision H m3 (toBytes ((⟨c0 i.next, c0 i⟩ : AShare (verifWidth K)).fromVerif K).a))) ∨
      (out i).1 = (List.zipWith (· * ·) xs ys).sum ∧ (out i.next).1 = (List.zipWith (· * ·) xs ys).sum := by
  have hKV : K ≤ verifWidth K := by omega
  refine ⟨if e0.setWidth K = 0 then ∅ else (Finset.range (2 ^ verifWidth K)).filter
    fun r => BitVec.ofNat (verifWidth K) r * e0 = e1, ?_, ?_⟩
  · split
    · simp
    · next h => exact card_solutions hKV _ _ h
  intro i st st1 hP hq xs ys x y hx hy hl a' c0 c1 hd X A' hX ha' rcvd sent out hv hm hbad
  rcases (dotOpen_pw (H := H) (i := i) hV hP hq hx hy hl hd hX ha').views hv with
    ⟨m0, m1, m2, rest, e, h | ⟨z0, z1, rfl, h⟩ | h⟩ | ⟨o, o1, o2, z0, z1, rest, e, heq, h⟩
  · exact .inl ⟨m0, m1, m2, rest, e, .inl h⟩
  · obtain ⟨rfl, rfl⟩ := head_two hm e
    exact .inl ⟨_, m1, m2, rest, e, .inr (.inl h)⟩
  · exact .inl ⟨m0, m1, m2, rest, e, .inr (.inr h)⟩
  · obtain ⟨rfl, rfl⟩ := head_two hm e
    right
    have h1 := h i
    have h2 := h i.next
    beta_reduce at h1 h2
    rw [o1] at h1
    rw [o2] at h2
    rw [add_sub_cancel_left] at heq h1 h2
    rw [add_sub_cancel_left] at heq
    by_cases hz : e0.setWidth K = 0
    · rw [hz, add_zero] at h1 h2
      exact ⟨h1, h2⟩
    · rw [if_neg hz] at hbad
      exact absurd (Finset.mem_filter.2 ⟨Finset.mem_range.2 (BitVec.isLt _), by simpa using heq⟩) hbad

theorem head_many {l rest : List Bytes} {u z : List (BitVec V)} (h : l.head? = some (ringSliceToBytes u))
    (e : l = ringSliceToBytes z :: rest) (hl : z.length = u.length) : z = u := by
  rw [e] at h
  simp only [List.head?_cons, Option.some.injEq] at h
  exact ringSliceToBytes_inj' hl h

theorem errors_add : ∀ {κ es : List (BitVec V)}, κ.length = es.length → errors (List.zipWith (· + ·) κ es) κ = es
  | [], [], _ => rfl
  | k :: κ, e :: es, h => by
    have := errors_add (κ := κ) (es := es) (by simpa using h)
    simp only [errors] at this
    simp only [errors, List.zipWith_cons_cons, this, add_sub_cancel_left]

/-- The coins that solve all equations of the sacrifice are few, if one of the first errors is not zero modulo `2^K`. -/
theorem card_solutions_many (hKV : K ≤ V) (es es' : List (BitVec V)) (h : ∃ e ∈ es, e.setWidth K ≠ 0) :
    ((Finset.range (2 ^ V)).filter fun r => es' = es.map (BitVec.ofNat V r * ·)).card ≤ 2 ^ (K - 1) := by
  obtain ⟨e, he, hz⟩ := h
  obtain ⟨j, hj, rfl⟩ := List.getElem_of_mem he
  refine le_trans (Finset.card_le_card fun r hr => ?_) (card_solutions hKV es[j] (es'.getD j 0) hz)
  rw [Finset.mem_filter] at hr ⊢
  refine ⟨hr.1, ?_⟩
  rw [hr.2]
  simp [List.getD, hj]

theorem zipWith_add_zeros : ∀ {l es : List (BitVec K)}, l.length = es.length → (∀ e ∈ es, e = 0) →
    List.zipWith (· + ·) l es = l
  | [], [], _, _ => rfl
  | a :: l, e :: es, h, hz => by
    rw [List.zipWith_cons_cons, hz e (by simp), add_zero,
      zipWith_add_zeros (by simpa using h) fun e he => hz e (by simp [he])]

theorem dotManyDraws_length (hKV : K ≤ V) {st st1 : Party → JmpSt G} (hP : PrfOk fun k => (st k).prf)
    {xss yss : List (List (BitVec K))} {x y : Party → List (List (AShare K))} (hx : Rels (Rels SharesOf) xss x)
    (hy : Rels (Rels SharesOf) yss y) (hl : List.Forall₂ (fun xs ys => xs.length = ys.length) xss yss)
    {a' : Party → List (List (AShare V))} {cs : Party → List (BitVec V)}
    (hd : ∀ k, dotManyDraws V ((x k).map fun l => l.map (·.toVerif V)) ((y k).map fun l => l.map (·.toVerif V)) (st k) =
      .ret ((a' k, cs k), st1 k)) (k : Party) : (cs k).length = xss.length + xss.length := by
  obtain ⟨X, rfl, hX⟩ := hx.toVerifs hKV
  obtain ⟨Y, rfl, hY⟩ := hy.toVerifs hKV
  have hXY : List.Forall₂ (fun xs ys => xs.length = ys.length) X Y := by
    rw [List.forall₂_map_left_iff, List.forall₂_map_right_iff] at hl
    simpa using hl
  obtain ⟨A', lA', -, hcs, -⟩ := dotManyDraws_rel hP hX hY hXY hd
  have hn' : A'.length = Y.length := by simpa using congrArg List.length lA'
  rw [hcs.length, List.length_append, List.length_zipWith, List.length_zipWith, hXY.length_eq, hn', Nat.min_self]
  simp [hXY.length_eq]

/-- `dot_many` followed by `open_many`: for any number of vectors of any lengths, and any list of errors of the corrupt
party in the `2 n` components. -/
theorem C59_run_dot_many_open (hV : 40 ≤ verifWidth K - K) (es : List (BitVec (verifWidth K))) :
    ∃ bad : Finset Nat, bad.card ≤ 2 ^ (K - 1) ∧
      ∀ (i : Party) (st st1 : Party → JmpSt G), (PrfOk fun k => (st k).prf) →
      (st i).rcvQueueNext.length = (st i.next).sendQueuePrev.length →
      ∀ (xss yss : List (List (BitVec K))) (x y : Party → List (List (AShare K))), Rels (Rels SharesOf) xss x →
      Rels (Rels SharesOf) yss y → List.Forall₂ (fun xs ys => xs.length = ys.length) xss yss →
      es.length = xss.length + xss.length →
      ∀ (a' : Party → List (List (AShare (verifWidth K)))) (cs : Party → List (BitVec (verifWidth K))),
      (∀ k, dotManyDraws (verifWidth K) ((x k).map fun l => l.map (·.toVerif (verifWidth K)))
        ((y k).map fun l => l.map (·.toVerif (verifWidth K))) (st k) = .ret ((a' k, cs k), st1 k)) →
      ∀ (X A' : List (List (BitVec (verifWidth K)))),
      (Rels (Rels SharesOf) X fun k => (x k).map fun l => l.map (·.toVerif (verifWidth K))) →
      Rels (Rels SharesOf) A' a' →
      ∀ (rcvd sent : Party → Party → List Bytes) (out : Party → List (BitVec K) × JmpSt G),
      HonestViews (fun k => (dotMany H k (x k) (y k) >>= fun c => openMany H k c) (st k)) i.prev rcvd sent out →
      (rcvd i i.prev).head? = some (ringSliceToBytes (List.zipWith (· + ·) (cs i.prev) es)) →
      (coinVal (verifWidth K) st1).toNat ∉ bad →
      (∃ m0 m1 m2 rest, rcvd i i.prev = m0 :: m1 :: m2 :: rest ∧
        (Collision H ((st i).rcvQueueNext ++ m1 ++ m2)
          ((st i.next).sendQueuePrev ++ ringSliceToBytes (K := 8) (G.genSeed (st1 i.next).prf.my).1 ++
            ringSliceToBytes ((List.zipWith (List.zipWith fun x y => (x.mulConst (coinVal (verifWidth K) st1)).sub y)
              ((x i.next).map fun l => l.map (·.toVerif (verifWidth K))) (a' i.next)).flatten.map (·.a))) ∨
        Collision H
          ((dotCheckShares (coinVal (verifWidth K) st1)
            (List.zipWith (List.zipWith fun x y => x * coinVal (verifWidth K) st1 - y) X A')
            ((y i).map fun l => l.map (·.toVerif (verifWidth K)))
            ((List.zipWith AShare.mk (cs i) (List.zipWith (· + ·) (cs i.prev) es)).take xss.length)
            ((List.zipWith AShare.mk (cs i) (List.zipWith (· + ·) (cs i.prev) es)).drop xss.length)).flatMap (zeroBytes i))
          ((dotCheckShares (coinVal (verifWidth K) st1)
            (List.zipWith (List.zipWith fun x y => x * coinVal (verifWidth K) st1 - y) X A')
            ((y i.next).map fun l => l.map (·.toVerif (verifWidth K)))
            ((List.zipWith AShare.mk (cs i.next) (cs i)).take xss.length)
            ((List.zipWith AShare.mk (cs i.next) (cs i)).drop xss.length)).flatMap (zeroBytes i.next)) ∨
        ∃ d m3 rest', rest = d :: m3 :: rest' ∧
          Collision H m3 (ringSliceToBytes ((((List.zipWith AShare.mk (cs i.next) (cs i)).take xss.length).map
            (·.fromVerif K)).map (·.a))))) ∨
      (out i).1 = List.zipWith (fun xs ys => (List.zipWith (· * ·) xs ys).sum) xss yss ∧
        (out i.next).1 = List.zipWith (fun xs ys => (List.zipWith (· * ·) xs ys).sum) xss yss := by
  classical
  have hKV : K ≤ verifWidth K := by omega
  refine ⟨if ∃ e ∈ es.take (es.length / 2), e.setWidth K ≠ 0 then (Finset.range (2 ^ verifWidth K)).filter
    fun r => es.drop (es.length / 2) = (es.take (es.length / 2)).map (BitVec.ofNat (verifWidth K) r * ·) else ∅, ?_, ?_⟩
  · split
    · next h => exact card_solutions_many hKV _ _ h
    · simp
  intro i st st1 hP hq xss yss x y hx hy hl hn a' cs hd X A' hX ha' rcvd sent out hv hm hbad
  rw [show es.length / 2 = xss.length by omega] at hbad
  have hcs : (cs i.prev).length = xss.length + xss.length := by
    exact dotManyDraws_length hKV hP hx hy hl hd i.prev
  have hzl : (List.zipWith (· + ·) (cs i.prev) es).length = xss.length + xss.length := by
    rw [List.length_zipWith, hcs, hn, min_self]
  rcases (dotManyOpen_pw (H := H) (i := i) hV hP hq hx hy hl hd hX ha').views hv with
    ⟨m0, m1, m2, rest, e, h | ⟨z, rfl, hz, h⟩ | h⟩ | ⟨o, o1, o2, z, rest, e, hz, heq, h⟩
  · exact .inl ⟨m0, m1, m2, rest, e, .inl h⟩
  · obtain rfl := head_many hm e (hz.trans hzl.symm)
    exact .inl ⟨_, m1, m2, rest, e, .inr (.inl h)⟩
  · exact .inl ⟨m0, m1, m2, rest, e, .inr (.inr h)⟩
  · obtain rfl := head_many hm e (hz.trans hzl.symm)
    right
    have h1 := h i
    have h2 := h i.next
    beta_reduce at h1 h2
    rw [o1] at h1
    rw [o2] at h2
    rw [errors_add (hcs.trans hn.symm)] at heq h1 h2
    by_cases hex : ∃ e ∈ es.take xss.length, e.setWidth K ≠ 0
    · rw [if_pos hex] at hbad
      exact absurd (Finset.mem_filter.2 ⟨Finset.mem_range.2 (BitVec.isLt _), by simpa using heq⟩) hbad
    · push Not at hex
      rw [zipWith_add_zeros] at h1 h2
      · exact ⟨h1, h2⟩
      all_goals first
        | (simp only [List.length_zipWith, List.length_map, List.length_take, hl.length_eq, min_self, hn]; omega)
        | (intro e he
           obtain ⟨e', he', rfl⟩ := List.mem_map.1 he
           exact hex e' he')

/-! ## The hypotheses can be met -/

/-- An honest execution gives views, in which the first message from the predecessor is the honest one. -/
theorem honest_views {σ α : Type} {p : Party → Proto σ α} {st : Party → σ} {Q : (Party → α) → (Party → σ) → Prop}
    (h : WPS p st Q) : ∃ (rcvd sent : Party → Party → List Bytes) (out : Party → α × σ),
      (∀ k, Local (p k (st k)) (rcvd k) (sent k) (.ret (out k))) ∧ (∀ k l, rcvd l k <+: sent k l) ∧
      (∀ c, HonestViews (fun k => p k (st k)) c rcvd sent out) := by
  obtain ⟨o, ⟨n, hn⟩, -⟩ := h
  obtain ⟨r, s, hl, hc⟩ := Reaches.views ⟨n, hn.toSteps⟩
  have hp : ∀ k l, r l k <+: s k l := fun k l => by rw [hc k l]; exact List.prefix_append _ _
  exact ⟨r, s, o, hl, hp, fun c => ⟨fun k _ => hl k, fun k l _ _ _ => hp k l⟩⟩

theorem first_message {σ α β : Type} {D : Proto σ α} {k : Party} {f : α → List (BitVec V)}
    {F : α → List (BitVec V) → Proto σ β} {st st1 : σ} {t : α} (hd : D st = .ret (t, st1))
    {r s : Party → List Bytes} {o : β × σ}
    (h : Local ((D >>= fun t => Proto.net (sendSliceAndReceiveVec k (f t)) >>= F t) st) r s (.ret o)) :
    ∃ rest, s k.next = ringSliceToBytes (f t) :: rest := by
  have e : (D >>= fun t => Proto.net (sendSliceAndReceiveVec k (f t)) >>= F t) st =
      (Proto.net (sendSliceAndReceiveVec k (f t)) >>= F t) st1 := by
    show (D st >>= fun r => _) = _
    rw [hd]; rfl
  rw [e] at h
  change Local (.send k.next (ringSliceToBytes (f t)) _) r s _ at h
  obtain ⟨-, -, h0⟩ | ⟨s', rfl, h0⟩ := Local.send_inv h
  · exact absurd h0 (by simp)
  · exact ⟨_, by rw [push_same]⟩

/-- All hypotheses of `C59_run_mul_open` about the execution hold of the honest one, with no errors. -/
theorem run_mul_open_hyps (hV : 40 ≤ verifWidth K - K) (i : Party) (st : Party → JmpSt G) (hst : JmpOk st)
    (x y : BitVec K) (a b : Party → AShare K) (ha : SharesOf x a) (hb : SharesOf y b) :
    ∃ (p p' q : Party → AShare (verifWidth K)) (c0 c1 : Party → BitVec (verifWidth K)) (st1 : Party → JmpSt G)
      (P P' Q : BitVec (verifWidth K)) (rcvd sent : Party → Party → List Bytes) (out : Party → BitVec K × JmpSt G),
      (∀ k, tripleDraws (verifWidth K) (st k) = .ret ((p k, p' k, q k, [c0 k, c1 k]), st1 k)) ∧
      SharesOf P p ∧ SharesOf P' p' ∧ SharesOf Q q ∧
      HonestViews (fun k => (mul H k (a k) (b k) >>= fun c => openShare H k c) (st k)) i.prev rcvd sent out ∧
      (rcvd i i.prev).head? = some (ringSliceToBytes [c0 i.prev + 0, c1 i.prev + 0]) := by
  obtain ⟨p, p', q, c0, c1, st1, P, P', Q, hd, hp, hp', hq, -, -⟩ := C24_draws_total (verifWidth K) st hst.1
  have hw : WPS (fun k => mul H k (a k) (b k) >>= fun c => openShare H k c) st (fun _ _ => True) :=
    WPS.bind ((mul_wp hV hst ha hb).mono fun c s hc => (openShare_wp H hc.1 hc.2).mono fun _ _ _ => trivial)
  obtain ⟨r, s, o, hl, hp1, hv⟩ := honest_views hw
  refine ⟨p, p', q, c0, c1, st1, P, P', Q, r, s, o, hd, hp, hp', hq, hv _, ?_⟩
  have h1 : ∃ rest, s i.prev i = ringSliceToBytes [c0 i.prev, c1 i.prev] :: rest := by
    have := hl i.prev
    unfold mul getMulTriple abyMulMany at this
    rw [if_neg (by omega)] at this
    have e := first_message (D := tripleDraws (verifWidth K)) (k := i.prev) (f := fun t => t.2.2.2)
      (hd i.prev) (F := fun t bs => (do
        let c0 ← Proto.lift (idx (List.zipWith AShare.mk t.2.2.2 bs) 0)
        let c1 ← Proto.lift (idx (List.zipWith AShare.mk t.2.2.2 bs) 1)
        let rr ← coinElem (verifWidth K) i.prev
        let v ← reconstruct i.prev ((t.1.mulConst rr).sub t.2.1)
        jmpVerify H i.prev
        Proto.net (hashZeroVerify H i.prev [((t.2.2.1.mulConst v).sub (c0.mulConst rr)).add c1])
        let uv ← reconstructMany i.prev [(a i.prev).sub (t.1.fromVerif K), (b i.prev).sub (t.2.2.1.fromVerif K)]
        let u ← Proto.lift (idx uv 0)
        let v ← Proto.lift (idx uv 1)
        openShare H i.prev ((((c0.fromVerif K).add ((b i.prev).mulConst u)).add ((a i.prev).mulConst v)).subConst
          (u * v) i.prev))) (r := r i.prev) (s := s i.prev) (o := o i.prev) (by
        convert this using 2
        unfold tripleDraws
        simp only [bind_assoc, pure_bind])
    rwa [Party.next_prev] at e
  obtain ⟨rest, h1⟩ := h1
  have h2 : ∃ m0 rest, r i i.prev = m0 :: rest := by
    rcases (mulOpen_pw (H := H) (i := i) hV hst.1 (by rw [hst.2]) ha hb hd hp hp' hq).views (hv i.prev) with
      ⟨m0, m1, m2, rest, e, -⟩ | ⟨-, -, -, z0, z1, rest, e, -⟩
    · exact ⟨_, _, e⟩
    · exact ⟨_, _, e⟩
  obtain ⟨m0, rest', h2⟩ := h2
  have h3 := hp1 i.prev i
  rw [h1, h2, List.cons_prefix_cons] at h3
  rw [h2, add_zero, add_zero, h3.1]
  rfl

example : ∃ (p p' q : Party → AShare (verifWidth 16)) (c0 c1 : Party → BitVec (verifWidth 16))
      (st1 : Party → JmpSt exPrg) (P P' Q : BitVec (verifWidth 16)) (rcvd sent : Party → Party → List Bytes)
      (out : Party → BitVec 16 × JmpSt exPrg),
      (∀ k, tripleDraws (verifWidth 16) (exJmpSt k) = .ret ((p k, p' k, q k, [c0 k, c1 k]), st1 k)) ∧
      SharesOf P p ∧ SharesOf P' p' ∧ SharesOf Q q ∧
      HonestViews (fun k => (mul exHash k (exShare 7#16 k) (exShare 9#16 k) >>= fun c => openShare exHash k c)
        (exJmpSt k)) (1 : Party).prev rcvd sent out ∧
      (rcvd 1 (1 : Party).prev).head? = some (ringSliceToBytes [c0 (1 : Party).prev + 0, c1 (1 : Party).prev + 0]) :=
  run_mul_open_hyps (by decide) 1 exJmpSt exJmpSt_ok _ _ _ _ (exShare_ok _) (exShare_ok _)

end Verif
