import Verif.Spec.Pair
import Verif.Spec.Shuffle
import Verif.Proof.PairQueue
import Verif.Proof.Shuffle
import Verif.Props.Spdz
import Verif.Props.MalRuns

/-!
# C25, C32, C60: runs of the SPDZ-wise backend with a corrupt party

As in `Props/MalRuns.lean`, the corrupt party is `i.prev`, nothing is assumed about it, and the theorems speak about the
finished runs of the honest parties `i` and `i.next`.
-/

namespace Verif

open Jmp Spdz

variable {G : Prg} {H : Hash} {V K : Nat}

/-! ## C32: the shuffle is uniform -/

/-- Every permutation of `n` positions comes from exactly one of the `n!` sequences of draws. -/
theorem C32_uniform (n : Nat) :
    (drawSeqs n).card = n.factorial ∧
    ∀ π : Equiv.Perm Nat, (∀ k, n ≤ k → π k = k) → ∃! ds, ds ∈ drawSeqs n ∧ shuffleOf 0 ds = π :=
  ⟨card_drawSeqs n, fun π h => shuffleOf_bijective n 0 π (fun _ h => absurd h (by omega)) fun k hk => h k (by omega)⟩

/-- The shuffle with a given coin moves the bits as `shuffleOf` says, in both components of the shares; its draws are
among those counted in `C32_uniform`. -/
theorem C32_shuffled (seed : Bytes) (l : List (AShare 128)) (side : Bool) :
    shuffleDraws G (128 * l.length) (G.ofSeed seed) ∈ drawSeqs (128 * l.length) ∧
    (shuffled G seed l).length = l.length ∧
    ∀ k, wordBit ((shuffled G seed l).map (·.side side)) k =
      wordBit (l.map (·.side side)) (shuffleOf 0 (shuffleDraws G (128 * l.length) (G.ofSeed seed)) k) := by
  refine ⟨shuffleDraws_mem _ _, shuffled_length _ _, fun k => ?_⟩
  rw [shuffled_eq, side_mapLists _ (fun l => permC_length _ _ _ l), wordBit_permC _ _ _ _ (by simp; omega), permIdx_eq,
    Nat.mul_comm]

/-- The same for words. -/
theorem C32_shuffled_words (seed : Bytes) (l : List (BitVec 128)) (k : Nat) :
    wordBit (shuffledWords G seed l) k = wordBit l (shuffleOf 0 (shuffleDraws G (128 * l.length) (G.ofSeed seed)) k) := by
  rw [shuffledWords_eq, wordBit_permC _ _ _ _ (by omega), permIdx_eq, Nat.mul_comm]

example : shuffleOf 0 [2, 0, 0] 0 = 2 ∧ shuffleOf 0 [2, 0, 0] 2 = 0 ∧ [2, 0, 0] ∈ drawSeqs 3 ∧ [3, 0, 0] ∉ drawSeqs 3 := by
  decide

/-! ## C25: checking triples -/

/-- `verify_triples` of two families of `n` words of triples that the parties share correctly, but which need not be
valid: if the honest parties finish, the errors are the same in both families, unless one of two pairs of strings they
hashed is a collision. -/
theorem C25_run_verify (n : Nat) (i : Party) (st : Party → SpdzSt G V) (hP : PrfOk fun k => (st k).jmp.prf)
    (hq : (st i).jmp.rcvQueueNext.length = (st i.next).jmp.sendQueuePrev.length)
    (xs ys zs xs' ys' zs' : List (BitVec 128)) (l0 : xs.length = n) (l1 : ys.length = n)
    (l2 : zs.length = n) (l3 : xs'.length = n) (l4 : ys'.length = n) (l5 : zs'.length = n)
    (a b c x y z : Party → List (AShare 128)) (ha : Rels BinSharesOf xs a) (hb : Rels BinSharesOf ys b)
    (hc : Rels BinSharesOf zs c) (hx : Rels BinSharesOf xs' x) (hy : Rels BinSharesOf ys' y) (hz : Rels BinSharesOf zs' z)
    (rcvd sent : Party → Party → List Bytes) (out : Party → Unit × SpdzSt G V)
    (hv : HonestViews (fun k => verifyTriples H k (a k) (b k) (c k) (x k) (y k) (z k) (st k)) i.prev rcvd sent out) :
    ∃ m rest, rcvd i i.prev = m :: rest ∧
      (Collision H ((st i).jmp.rcvQueueNext ++ m) ((st i.next).jmp.sendQueuePrev ++
          ringSliceToBytes ((pqShares (a i.next) (b i.next) (x i.next) (y i.next)).map (·.a))) ∨
        Collision H
          ((tripleChecks i (a i) (b i) (c i) (z i) (List.zipWith (· ^^^ ·) xs xs')
            (List.zipWith (· ^^^ ·) ys ys')).flatMap (binZeroBytes i))
          ((tripleChecks i.next (a i.next) (b i.next) (c i.next) (z i.next) (List.zipWith (· ^^^ ·) xs xs')
            (List.zipWith (· ^^^ ·) ys ys')).flatMap (binZeroBytes i.next)) ∨
        (st i).jmp.rcvQueueNext = (st i.next).jmp.sendQueuePrev ∧ errorsOf xs ys zs = errorsOf xs' ys' zs') := by
  rcases (verifyTriples_pw (H := H) (i := i) (st := st) (n := n) (q := (st i).jmp.rcvQueueNext) (m := []) (sd := [])
    (q' := (st i.next).jmp.sendQueuePrev)
    (E := fun ms => ∃ m rest, ms = m :: rest ∧ Collision H ((st i).jmp.rcvQueueNext ++ m) ((st i.next).jmp.sendQueuePrev ++
          ringSliceToBytes ((pqShares (a i.next) (b i.next) (x i.next) (y i.next)).map (·.a))))
    (Q := fun ms _ _ => ∃ m rest, ms = m :: rest ∧ (Collision H
          ((tripleChecks i (a i) (b i) (c i) (z i) (List.zipWith (· ^^^ ·) xs xs')
            (List.zipWith (· ^^^ ·) ys ys')).flatMap (binZeroBytes i))
          ((tripleChecks i.next (a i.next) (b i.next) (c i.next) (z i.next) (List.zipWith (· ^^^ ·) xs xs')
            (List.zipWith (· ^^^ ·) ys ys')).flatMap (binZeroBytes i.next)) ∨
        (st i).jmp.rcvQueueNext = (st i.next).jmp.sendQueuePrev ∧ errorsOf xs ys zs = errorsOf xs' ys' zs'))
    l0 l1 l2 l3 l4 l5 ha hb hc hx hy hz (fun k => by rw [hx.length, l3]) (fun k => by rw [hy.length, l4])
    (fun k => by rw [hz.length, l5]) hq rfl (by simp) (by simp) hP ⟨rfl, rfl, rfl⟩ (fun _ => ⟨rfl, rfl, rfl⟩)
    (fun m' ms h => ⟨m', ms, rfl, by simpa using h⟩) (fun hqe _ m' d j _ h => ⟨m', [d], rfl, h.imp_right fun h =>
      ⟨hqe, (tripleErrors_zero (by omega) (by omega) (by omega) (by omega) (by omega)).1 h⟩⟩)).views hv with
    ⟨m, rest, e, h⟩ | ⟨_, -, -, m, rest, e, h⟩
  · exact ⟨m, rest, e, .inl h⟩
  · exact ⟨m, rest, e, .inr h⟩

/-! ## C60: generating triples -/

/-- The local code of `generate_triples` before the communication always finishes. -/
theorem C60_draws_total (n : Nat) (st : Party → JmpSt G) (hP : PrfOk fun k => (st k).prf) :
    ∃ (a b : Party → List (AShare 128)) (cs : Party → List (BitVec 128)) (st1 : Party → JmpSt G) (A B : List (BitVec 128)),
      (∀ k, andDraws n (st k) = .ret ((a k, b k, cs k), st1 k)) ∧ A.length = 2 * n + 1 ∧ B.length = 2 * n + 1 ∧
      Rels BinSharesOf A a ∧ Rels BinSharesOf B b ∧ ∀ k, (cs k).length = 2 * n + 1 := by
  obtain ⟨o, ⟨m, hm⟩, A, B, lA, lB, ha, hb, hcs, -⟩ := andDraws_wp n hP
  have hf : NetFree (andDraws n : Proto (JmpSt G) _) :=
    (netFree_genRandMany _).bind fun _ => (netFree_genRandMany _).bind fun _ =>
      (netFree_viaPrf (netFree_andLoop _)).bind fun _ => .pure _
  have heq := hm.toSteps.eq_of_stuck (Config.stuck_of_done fun k => hf (st k))
  exact ⟨_, _, _, _, A, B, fun k => congrArg (fun c => c.prog k) heq, lA, lB, ha, hb, fun k => by
    rw [hcs.length]; simp [lA, lB]⟩

/-- `generate_triples` with any corrupt party. With `E` the errors of the corrupt party's `2 n + 1` components, honest
parties that finish hold shares of `n` words of triples with the first `n` errors of `E`; and shuffling the other errors
with the common coin moves them to the same places, with none left in the last word; unless one of two pairs of strings
the honest parties hashed is a collision. -/
theorem C60_run_generate (num n : Nat) (hn : n = max num 8192) (i : Party) (st : Party → SpdzSt G V)
    (hP : PrfOk fun k => (st k).jmp.prf) (hq : (st i).jmp.rcvQueueNext.length = (st i.next).jmp.sendQueuePrev.length)
    (a b : Party → List (AShare 128)) (cs : Party → List (BitVec 128)) (st1 : Party → JmpSt G)
    (hd : ∀ k, andDraws n (st k).jmp = .ret ((a k, b k, cs k), st1 k))
    (A B : List (BitVec 128)) (ha : Rels BinSharesOf A a) (hb : Rels BinSharesOf B b) (seed : Bytes)
    (hseed : seed = coinOf fun k => (G.genSeed (st1 k).prf.my).1)
    (rcvd sent : Party → Party → List Bytes) (out : Party → Triples × SpdzSt G V)
    (hv : HonestViews (fun k => generateTriples H k num (st k)) i.prev rcvd sent out) :
    (∃ m0 m1 m2 m3 rest, rcvd i i.prev = m0 :: m1 :: m2 :: m3 :: rest ∧
      Collision H ((st i).jmp.rcvQueueNext ++ m1 ++ m3)
        ((st i.next).jmp.sendQueuePrev ++ ringSliceToBytes (K := 8) (G.genSeed (st1 i.next).prf.my).1 ++ ringSliceToBytes
          ((pqShares ((a i.next).take n) ((b i.next).take n) (shuffled G seed ((a i.next).drop n)).dropLast
            (shuffled G seed ((b i.next).drop n)).dropLast).map (·.a)))) ∨
    (st i).jmp.rcvQueueNext = (st i.next).jmp.sendQueuePrev ∧
    ∃ (z : List (BitVec 128)) (rest : List Bytes), rcvd i i.prev = ringSliceToBytes z :: rest ∧ z.length = 2 * n + 1 ∧
      (Collision H
          ((tripleChecks i ((a i).take n) ((b i).take n) ((List.zipWith AShare.mk (cs i) z).take n)
            (shuffled G seed ((List.zipWith AShare.mk (cs i) z).drop n)).dropLast
            (List.zipWith (· ^^^ ·) (A.take n) (shuffledWords G seed (A.drop n)).dropLast)
            (List.zipWith (· ^^^ ·) (B.take n) (shuffledWords G seed (B.drop n)).dropLast)).flatMap (binZeroBytes i))
          ((tripleChecks i.next ((a i.next).take n) ((b i.next).take n)
            ((List.zipWith AShare.mk (cs i.next) (cs i)).take n)
            (shuffled G seed ((List.zipWith AShare.mk (cs i.next) (cs i)).drop n)).dropLast
            (List.zipWith (· ^^^ ·) (A.take n) (shuffledWords G seed (A.drop n)).dropLast)
            (List.zipWith (· ^^^ ·) (B.take n) (shuffledWords G seed (B.drop n)).dropLast)).flatMap
              (binZeroBytes i.next)) ∨
        (∀ k, wordBit ((xorErrors z (cs i.prev)).take n ++ [0]) k = wordBit ((xorErrors z (cs i.prev)).drop n)
          (shuffleOf 0 (shuffleDraws G (128 * (n + 1)) (G.ofSeed seed)) k)) ∧
        (out i).1.bitsInLast = 128 ∧ (out i.next).1.bitsInLast = 128 ∧
        BinPairsOf i (A.take n) (out i).1.a (out i.next).1.a ∧ BinPairsOf i (B.take n) (out i).1.b (out i.next).1.b ∧
        BinPairsOf i (List.zipWith (· ^^^ ·) (List.zipWith (· &&& ·) (A.take n) (B.take n))
          ((xorErrors z (cs i.prev)).take n)) (out i).1.c (out i.next).1.c) := by
  obtain ⟨A₁, B₁, lA, lB, h1, h2, hcs, -⟩ := MalAby3.local_rel (p := fun _ => andDraws n) hd (andDraws_wp n hP)
  obtain rfl : A₁ = A := h1.uniqueBin ha
  obtain rfl : B₁ = B := h2.uniqueBin hb
  have e1 : 2 * n + 1 - n = n + 1 := by omega
  have hw : ∀ L : List (BitVec 128), L.length = 2 * n + 1 →
      shuffledWords G seed (L.drop n) = permC G ((n + 1) * 128) 0 (G.ofSeed seed) (L.drop n) := by
    intro L hL
    rw [shuffledWords_eq, List.length_drop, hL, e1]
  have hsd : coinOf (seeds st1) = seed := hseed.symm
  have hpw := generateTriples_pw (H := H) (i := i) num (n := n) hn.symm hP hq hd ha hb
  rw [hsd] at hpw
  rcases hpw.views hv with
    h | ⟨o, o1, o2, z, m1, m2, m3, d, j, e, hz, hqe, -, -, h⟩
  · exact .inl h
  · beta_reduce at h
    rw [o1, o2] at h
    refine .inr ⟨hqe, z, _, e, hz, ?_⟩
    rw [hw A₁ lA, hw B₁ lB]
    refine h.imp_right ?_
    rintro ⟨h, h'⟩
    rw [List.take_zipWith, List.take_zipWith] at h'
    refine ⟨fun k => ?_, h'⟩
    have lcs : (cs i.prev).length = 2 * n + 1 := by
      have := hcs.length i.prev
      simpa [lA, lB] using this
    rw [← h, wordBit_permC _ _ _ _ (by simp [xorErrors, hz, lcs]; omega), permIdx_eq, Nat.mul_comm]

theorem exists_wordBit {l : List (BitVec 128)} (h : ∃ e ∈ l, e ≠ 0) : ∃ k < 128 * l.length, wordBit l k = true := by
  obtain ⟨e, he, hne⟩ := h
  obtain ⟨j, hj, rfl⟩ := List.getElem_of_mem he
  obtain ⟨b, hb, hbit⟩ : ∃ b < 128, (l[j]).getLsbD b = true := by
    by_contra hcon
    push Not at hcon
    exact hne (BitVec.eq_of_getLsbD_eq fun b hb => by simpa using hcon b hb)
  refine ⟨128 * j + b, by omega, ?_⟩
  unfold wordBit
  rw [show (128 * j + b) / 128 = j by omega, show (128 * j + b) % 128 = b by omega]
  simpa [List.getD, hj] using hbit

theorem zipWith_xor_zeros : ∀ {l es : List (BitVec 128)}, l.length = es.length → (∀ e ∈ es, e = 0) →
    List.zipWith (· ^^^ ·) l es = l
  | [], [], _, _ => rfl
  | a :: l, e :: es, h, hz => by
    rw [List.zipWith_cons_cons, hz e (by simp), zipWith_xor_zeros (by simpa using h) fun e he => hz e (by simp [he])]
    congr 1
    exact BitVec.xor_zero

theorem xorErrors_xor : ∀ {κ es : List (BitVec 128)}, κ.length = es.length →
    xorErrors (List.zipWith (· ^^^ ·) κ es) κ = es
  | [], [], _ => rfl
  | k :: κ, e :: es, h => by
    have := xorErrors_xor (κ := κ) (es := es) (by simpa using h)
    simp only [xorErrors] at this
    simp only [xorErrors, List.zipWith_cons_cons, this]
    congr 1
    bitwise

/-- `generate_triples` with a corrupt party that has fixed the errors `E` of its components: with `N = 128 (n + 1)` the
number of shuffled bits there is a set of at most `N! / N` of the `N!` sequences of draws of the shuffle, such that
whenever the draws are not in that set, honest parties that finish hold shares of `n` words of valid triples; unless one
of two pairs of strings they have hashed is a collision. (`C32_uniform`: each permutation has one sequence of draws.) -/
theorem C60_run_valid (num n : Nat) (hn : n = max num 8192) (E : List (BitVec 128)) (hE : E.length = 2 * n + 1) :
    ∃ bad : Finset (List Nat), bad ⊆ drawSeqs (128 * (n + 1)) ∧ bad.card * (128 * (n + 1)) ≤ (128 * (n + 1)).factorial ∧
      ∀ (i : Party) (st : Party → SpdzSt G V), (PrfOk fun k => (st k).jmp.prf) →
      (st i).jmp.rcvQueueNext.length = (st i.next).jmp.sendQueuePrev.length →
      ∀ (a b : Party → List (AShare 128)) (cs : Party → List (BitVec 128)) (st1 : Party → JmpSt G),
      (∀ k, andDraws n (st k).jmp = .ret ((a k, b k, cs k), st1 k)) →
      ∀ (A B : List (BitVec 128)), Rels BinSharesOf A a → Rels BinSharesOf B b →
      ∀ seed : Bytes, seed = (coinOf fun k => (G.genSeed (st1 k).prf.my).1) →
      ∀ (rcvd sent : Party → Party → List Bytes) (out : Party → Triples × SpdzSt G V),
      HonestViews (fun k => generateTriples H k num (st k)) i.prev rcvd sent out →
      (rcvd i i.prev).head? = some (ringSliceToBytes (List.zipWith (· ^^^ ·) (cs i.prev) E)) →
      shuffleDraws G (128 * (n + 1)) (G.ofSeed seed) ∉ bad →
      (∃ m0 m1 m2 m3 rest, rcvd i i.prev = m0 :: m1 :: m2 :: m3 :: rest ∧
        Collision H ((st i).jmp.rcvQueueNext ++ m1 ++ m3)
          ((st i.next).jmp.sendQueuePrev ++ ringSliceToBytes (K := 8) (G.genSeed (st1 i.next).prf.my).1 ++ ringSliceToBytes
            ((pqShares ((a i.next).take n) ((b i.next).take n) (shuffled G seed ((a i.next).drop n)).dropLast
              (shuffled G seed ((b i.next).drop n)).dropLast).map (·.a)))) ∨
      Collision H
        ((tripleChecks i ((a i).take n) ((b i).take n)
          ((List.zipWith AShare.mk (cs i) (List.zipWith (· ^^^ ·) (cs i.prev) E)).take n)
          (shuffled G seed ((List.zipWith AShare.mk (cs i) (List.zipWith (· ^^^ ·) (cs i.prev) E)).drop n)).dropLast
          (List.zipWith (· ^^^ ·) (A.take n) (shuffledWords G seed (A.drop n)).dropLast)
          (List.zipWith (· ^^^ ·) (B.take n) (shuffledWords G seed (B.drop n)).dropLast)).flatMap (binZeroBytes i))
        ((tripleChecks i.next ((a i.next).take n) ((b i.next).take n)
          ((List.zipWith AShare.mk (cs i.next) (cs i)).take n)
          (shuffled G seed ((List.zipWith AShare.mk (cs i.next) (cs i)).drop n)).dropLast
          (List.zipWith (· ^^^ ·) (A.take n) (shuffledWords G seed (A.drop n)).dropLast)
          (List.zipWith (· ^^^ ·) (B.take n) (shuffledWords G seed (B.drop n)).dropLast)).flatMap (binZeroBytes i.next)) ∨
      (out i).1.bitsInLast = 128 ∧ (out i.next).1.bitsInLast = 128 ∧
        BinPairsOf i (A.take n) (out i).1.a (out i.next).1.a ∧ BinPairsOf i (B.take n) (out i).1.b (out i.next).1.b ∧
        BinPairsOf i (List.zipWith (· &&& ·) (A.take n) (B.take n)) (out i).1.c (out i.next).1.c := by
  classical
  have hN : (E.take n ++ [0]).length = n + 1 := by simp [hE]; omega
  refine ⟨if ∃ e ∈ E.take n, e ≠ 0 then movers (wordBit (E.take n ++ [0])) (wordBit (E.drop n)) 0 (128 * (n + 1)) else ∅,
    ?_, ?_, ?_⟩
  · split
    · exact Finset.filter_subset _ _
    · simp
  · split
    · next h =>
      refine movers_few ?_ ⟨128 * n, by omega, ?_⟩
      · obtain ⟨e, he, hne⟩ := h
        have := exists_wordBit (l := E.take n ++ [0]) ⟨e, by simp [he], hne⟩
        rwa [hN] at this
      · unfold wordBit
        rw [show 128 * n / 128 = n by omega, show 128 * n % 128 = 0 by omega]
        have hl : (E.take n).length = n := by simp [hE]; omega
        have : (E.take n ++ [0])[n]? = some (0 : BitVec 128) := by
          rw [List.getElem?_append_right (by omega), hl]; simp
        simp only [List.getD, this]
        simp
    · simp
  · intro i st hP hq a b cs st1 hd A B ha hb seed hseed rcvd sent out hv hm hbad
    obtain ⟨A₁, B₁, lA, lB, h1, h2, hcs, -⟩ := MalAby3.local_rel (p := fun _ => andDraws n) hd (andDraws_wp n hP)
    obtain rfl : A₁ = A := h1.uniqueBin ha
    obtain rfl : B₁ = B := h2.uniqueBin hb
    have lcs : (cs i.prev).length = 2 * n + 1 := by
      have := hcs.length i.prev
      simpa [lA, lB] using this
    rcases C60_run_generate num n hn i st hP hq a b cs st1 hd A₁ B₁ ha hb seed hseed rcvd sent out hv with
      h | ⟨-, z, rest, e, hz, h⟩
    · exact .inl h
    obtain rfl := head_many hm e (by simp [hz, lcs, hE])
    rw [xorErrors_xor (by rw [lcs, hE])] at h
    rcases h with h | ⟨hk, h3, h4, h5, h6, h7⟩
    · exact .inr (.inl h)
    right; right
    by_cases hz : ∃ e ∈ E.take n, e ≠ 0
    · rw [if_pos hz] at hbad
      exact absurd (Finset.mem_filter.2 ⟨shuffleDraws_mem _ _, fun k _ => hk k⟩) hbad
    · push Not at hz
      rw [zipWith_xor_zeros (by simp [lA, lB, hE]) hz] at h7
      exact ⟨h3, h4, h5, h6, h7⟩

theorem bind_of_ret {σ α β : Type} {p : Proto σ α} {f : α → Proto σ β} {s s' : σ} {a : α} (h : p s = .ret (a, s')) :
    (p >>= f) s = f a s' := by
  show (p s >>= fun r => f r.1 r.2) = _
  rw [h]; rfl

theorem bind_of_send {α β : Type} {p c : Prog α} {f : α → Prog β} {q : Party} {m : Bytes} (h : p = .send q m c) :
    ∃ c', (p >>= f) = .send q m c' := by
  subst h
  exact ⟨c >>= f, rfl⟩

/-- The first thing a party does in `generate_triples` is to send its components. -/
theorem generate_first (num n : Nat) (hn : n = max num 8192) (me : Party) (st : SpdzSt G V) {a b : List (AShare 128)}
    {cs : List (BitVec 128)} {st1 : JmpSt G} (hd : andDraws n st.jmp = .ret ((a, b, cs), st1)) (hl : a.length = b.length) :
    ∃ cont, generateTriples H me num st = .send me.next (ringSliceToBytes cs) cont := by
  obtain ⟨s1, s2, d1, d2, d3⟩ := andDraws_split hd
  obtain ⟨t3, d5, -⟩ := viaPrf_split d3
  unfold generateTriples
  simp only [show max num minTriples = n from hn.symm]
  rw [bind_of_ret (viaJmp_ret d1), bind_of_ret (s := { st with jmp := s1 }) (viaJmp_ret d2)]
  have e : ∀ s : SpdzSt G V, s.jmp = s2 → ∃ cont, viaAby (Aby3.andMany me a b) s = .send me.next (ringSliceToBytes cs) cont := by
    intro s hs
    have : ∃ cont, Aby3.andMany me a b ⟨s2.prf⟩ = .send me.next (ringSliceToBytes cs) cont := by
      unfold Aby3.andMany
      rw [if_neg (by simp [hl]), bind_of_ret d5]
      exact ⟨_, rfl⟩
    obtain ⟨cont, h⟩ := this
    obtain ⟨cont', h'⟩ : ∃ cont', Jmp.viaPrf (Aby3.andMany me a b) s.jmp = .send me.next (ringSliceToBytes cs) cont' :=
      bind_of_send (p := Aby3.andMany me a b ⟨s.jmp.prf⟩) (by rw [hs]; exact h)
    exact bind_of_send (p := Jmp.viaPrf (Aby3.andMany me a b) s.jmp) h'
  obtain ⟨cont, h⟩ := e { st with jmp := s2 } rfl
  exact bind_of_send (p := viaAby (Aby3.andMany me a b) { st with jmp := s2 }) h

/-- All hypotheses of `C60_run_valid` about the execution hold of the honest one, with no errors. -/
theorem run_generate_hyps (num n : Nat) (hn : n = max num 8192) (i : Party) (st : Party → SpdzSt G V)
    (hst : JmpOk fun k => (st k).jmp) :
    ∃ (a b : Party → List (AShare 128)) (cs : Party → List (BitVec 128)) (st1 : Party → JmpSt G) (A B : List (BitVec 128))
      (rcvd sent : Party → Party → List Bytes) (out : Party → Triples × SpdzSt G V),
      (∀ k, andDraws n (st k).jmp = .ret ((a k, b k, cs k), st1 k)) ∧ Rels BinSharesOf A a ∧ Rels BinSharesOf B b ∧
      HonestViews (fun k => generateTriples H k num (st k)) i.prev rcvd sent out ∧
      (rcvd i i.prev).head? = some (ringSliceToBytes (List.zipWith (· ^^^ ·) (cs i.prev) (List.replicate (2 * n + 1) 0))) := by
  obtain ⟨a, b, cs, st1, A, B, hd, lA, lB, ha, hb, lcs⟩ := C60_draws_total n (fun k => (st k).jmp) hst.1
  obtain ⟨r, s, o, hl, hp1, hv⟩ := honest_views (generateTriples_wp (H := H) num hst)
  refine ⟨a, b, cs, st1, A, B, r, s, o, hd, ha, hb, hv _, ?_⟩
  obtain ⟨cont, hc⟩ := generate_first (H := H) num n hn i.prev (st i.prev) (hd i.prev) (by rw [ha.length, hb.length, lA, lB])
  have h1 := hl i.prev
  rw [hc] at h1
  obtain ⟨s', e, -⟩ := Local.send_ret h1
  have e' : s i.prev i = ringSliceToBytes (cs i.prev) :: s' i := by rw [e, Party.next_prev, push_same]
  have h2 : ∃ m0 rest, r i i.prev = m0 :: rest := by
    rcases C60_run_generate num n hn i st hst.1 (by rw [hst.2]) a b cs st1 hd A B ha hb _ rfl r s o (hv _) with
      ⟨m0, m1, m2, m3, rest, e, -⟩ | ⟨-, z, rest, e, -⟩
    · exact ⟨_, _, e⟩
    · exact ⟨_, _, e⟩
  obtain ⟨m0, rest, h2⟩ := h2
  have h3 := hp1 i.prev i
  rw [h2, e'] at h3
  have h4 : m0 = ringSliceToBytes (cs i.prev) := (List.cons_prefix_cons.1 h3).1
  rw [h2, h4, List.head?_cons]
  have : List.zipWith (· ^^^ ·) (cs i.prev) (List.replicate (2 * n + 1) (0 : BitVec 128)) = cs i.prev :=
    zipWith_xor_zeros (by rw [lcs]; simp) (fun e he => (List.mem_replicate.1 he).2)
  rw [this]

example (H : Hash) : ∃ (a b : Party → List (AShare 128)) (cs : Party → List (BitVec 128)) (st1 : Party → JmpSt exPrg)
      (A B : List (BitVec 128)) (rcvd sent : Party → Party → List Bytes) (out : Party → Triples × SpdzSt exPrg 64),
      (∀ k, andDraws 10000 (exSpdzSt 77#64 k).jmp = .ret ((a k, b k, cs k), st1 k)) ∧ Rels BinSharesOf A a ∧
      Rels BinSharesOf B b ∧
      HonestViews (fun k => generateTriples H k 10000 (exSpdzSt 77#64 k)) (1 : Party).prev rcvd sent out ∧
      (rcvd 1 (1 : Party).prev).head? = some (ringSliceToBytes (List.zipWith (· ^^^ ·) (cs (1 : Party).prev)
        (List.replicate (2 * 10000 + 1) 0))) :=
  run_generate_hyps 10000 10000 (by decide) 1 _ exJmpSt_ok

end Verif
