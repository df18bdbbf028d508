import Verif.Proof.PairSpdz
import Verif.Spec.Shuffle

namespace Verif

variable {σ α β : Type} {G : Prg} {H : Hash} {K V : Nat} {i : Party} {E : List Bytes → Prop}

/-- Reading the state. -/
theorem PWS.get {st : Party → σ} {Q : List Bytes → (Party → σ) → (Party → σ) → Prop} (h : Q [] st st) :
    PWS i (fun _ => (MonadState.get : Proto σ σ)) st E Q := PWS.pure (a := st) (st := st) (E := E) (Q := Q) h

open Spdz

theorem side_mapLists (f : List (BitVec 128) → List (BitVec 128)) (hf : ∀ l, (f l).length = l.length)
    (l : List (AShare 128)) (side : Bool) : (AShare.mapLists f l).map (·.side side) = f (l.map (·.side side)) := by
  unfold AShare.mapLists
  have h : (f (l.map (·.a))).length = (f (l.map (·.b))).length := by rw [hf, hf]; simp
  rw [List.map_zipWith]
  cases side with
  | false => exact zipWith_fst h
  | true => exact zipWith_snd h

theorem shuffledWords_eq (seed : Bytes) (l : List (BitVec 128)) :
    shuffledWords G seed l = permC G (l.length * 128) 0 (G.ofSeed seed) l := by
  unfold shuffledWords
  rw [shuffled_eq]
  have := side_mapLists (permC G ((l.map fun w => (⟨w, w⟩ : AShare 128)).length * 128) 0 (G.ofSeed seed))
    (fun l => permC_length _ _ _ l) (l.map fun w => ⟨w, w⟩) false
  simp only [AShare.side, Bool.false_eq_true, if_false] at this
  rw [this, List.map_map, List.length_map]
  congr 1
  exact List.map_id _

namespace Spdz

open Jmp

variable {st : Party → SpdzSt G V}

/-- `verify_triple_queue` with a corrupt party: the errors of the buffered triples are those of the shuffled precomputed
triples, unless a named pair of strings is a collision. -/
theorem verifyTripleQueue_pw {w p n : Nat} (hw : w ≠ 0) (hn : max w minTriples = n) (hnp : n ≤ p)
    (hP : PrfOk fun k => (st k).jmp.prf)
    (hq : (st i).jmp.rcvQueueNext.length = (st i.next).jmp.sendQueuePrev.length)
    {xs ys zs xs' ys' zs' : List (BitVec 128)}
    (l0 : xs.length = w) (l1 : ys.length = w) (l2 : zs.length = w)
    (l3 : xs'.length = p) (l4 : ys'.length = p) (l5 : zs'.length = p)
    (ha : Rels BinSharesOf xs fun k => (st k).buffer.a) (hb : Rels BinSharesOf ys fun k => (st k).buffer.b)
    (hc : Rels BinSharesOf zs fun k => (st k).buffer.c)
    (hx : Rels BinSharesOf xs' fun k => (st k).prec.a) (hy : Rels BinSharesOf ys' fun k => (st k).prec.b)
    (hz : Rels BinSharesOf zs' fun k => (st k).prec.c) {seed : Bytes} (hseed : seed = coinOf (seeds fun k => (st k).jmp)) :
    PWS i (fun k => verifyTripleQueue H k) st
      (fun ms => ∃ m1 m2 rest, ms = m1 :: m2 :: rest ∧ 
        Collision H ((st i).jmp.rcvQueueNext ++ m1 ++ m2)
          ((st i.next).jmp.sendQueuePrev ++ ringSliceToBytes (K := 8) (seeds (fun k => (st k).jmp) i.next) ++ ringSliceToBytes
            ((pqShares (st i.next).buffer.a (st i.next).buffer.b
              ((shuffled G seed ((st i.next).prec.a.take n)).take w)
              ((shuffled G seed ((st i.next).prec.b.take n)).take w)).map (·.a))))
      (fun ms _ s => ∃ (m1 m2 d : Bytes) (j : Party → JmpSt G),
        ms = [m1, m2, d] ∧ 
        (st i).jmp.rcvQueueNext = (st i.next).jmp.sendQueuePrev ∧ Fresh j ∧
        s = (fun k => { st k with
          jmp := j k
          buffer := Triples.empty
          prec := ⟨(st k).prec.a.drop n, (st k).prec.b.drop n, (st k).prec.c.drop n, 128⟩ }) ∧
        (Collision H
          ((tripleChecks i (st i).buffer.a (st i).buffer.b (st i).buffer.c
            ((shuffled G seed ((st i).prec.c.take n)).take w)
            (List.zipWith (· ^^^ ·) xs ((permC G (n * 128) 0 (G.ofSeed seed) (xs'.take n)).take w))
            (List.zipWith (· ^^^ ·) ys ((permC G (n * 128) 0 (G.ofSeed seed) (ys'.take n)).take w))).flatMap (binZeroBytes i))
          ((tripleChecks i.next (st i.next).buffer.a (st i.next).buffer.b (st i.next).buffer.c
            ((shuffled G seed ((st i.next).prec.c.take n)).take w)
            (List.zipWith (· ^^^ ·) xs ((permC G (n * 128) 0 (G.ofSeed seed) (xs'.take n)).take w))
            (List.zipWith (· ^^^ ·) ys ((permC G (n * 128) 0 (G.ofSeed seed) (ys'.take n)).take w))).flatMap
              (binZeroBytes i.next)) ∨
        errorsOf xs ys zs = (permC G (n * 128) 0 (G.ofSeed seed) ((errorsOf xs' ys' zs').take n)).take w)) := by
  subst hseed
  have hwn : w ≤ n := by rw [← hn]; exact le_max_left _ _
  have hlen : ∀ k, (st k).buffer.len = w := fun k => by rw [Triples.len, ha.length, l0]
  have hplen : ∀ k, (st k).prec.len = p := fun k => by rw [Triples.len, hx.length, l3]
  unfold verifyTripleQueue
  refine PWS.bind (PWS.get ?_)
  simp only [hlen]
  refine PWS.ite_neg (fun k => hw) ?_
  refine PWS.bind (PWS.step ?_)
  refine PWS.bind (PWS.get ?_)
  refine PWS.bind (PWS.lift_ok (a := fun k => (((st k).prec.a.take n, (st k).prec.b.take n, (st k).prec.c.take n),
      (⟨(st k).prec.a.drop n, (st k).prec.b.drop n, (st k).prec.c.drop n, 128⟩ : Triples))) (fun k => ?_) ?_)
  · rw [hn, Triples.get, if_neg]
    rw [hplen]; omega
  refine PWS.bind (PWS.step ?_)
  simp only [hn]
  have lx : ∀ k, ((st k).prec.a.take n).length = n := fun k => by rw [List.length_take, hx.length, l3]; omega
  have ly : ∀ k, ((st k).prec.b.take n).length = n := fun k => by rw [List.length_take, hy.length, l4]; omega
  have lz : ∀ k, ((st k).prec.c.take n).length = n := fun k => by rw [List.length_take, hz.length, l5]; omega
  refine PWS.bind (permute_pw (n := n) (by exact hP) lx ly lz ?_)
  intro zc hzc sd j2 sj si hP2 hr2 hs2
  have lS : ∀ {l : List (AShare 128)}, l.length = n → ∀ s, ((shuffled G s l).take w).length = w := fun hl s => by
    rw [List.length_take, shuffled_length, hl]; omega
  refine PWS.congr (q := fun k => verifyTriples H k (st k).buffer.a (st k).buffer.b (st k).buffer.c
    ((shuffled G (sd k) ((st k).prec.a.take n)).take w) ((shuffled G (sd k) ((st k).prec.b.take n)).take w)
    ((shuffled G (sd k) ((st k).prec.c.take n)).take w)) (fun k => ?_) ?_
  · show (if n > w then _ else _) = _
    by_cases h : n > w
    · rw [if_pos h]
      rfl
    · rw [if_neg h]
      have : n = w := by omega
      have e : ∀ {l : List (AShare 128)}, l.length = n → (shuffled G (sd k) l).take w = shuffled G (sd k) l := fun hl =>
        List.take_of_length_le (by rw [shuffled_length, hl]; omega)
      rw [e (lx k), e (ly k), e (lz k)]
      rfl
  set seed := coinOf (seeds fun k => (st k).jmp) with hsd
  have hrel : ∀ {L : List (BitVec 128)} {l : Party → List (AShare 128)}, L.length = p → Rels BinSharesOf L l →
      Rels BinSharesOf ((permC G (n * 128) 0 (G.ofSeed seed) (L.take n)).take w)
        (fun k => (shuffled G seed ((l k).take n)).take w) := by
    intro L l hL hl
    have hll : ∀ k, ((l k).take n).length = n := fun k => by rw [List.length_take, hl.length, hL]; omega
    simp only [shuffled_eq, hll]
    exact (BinSharesOf.mapLists (permC_linear n _) (by rw [List.length_take, hL]; omega) (hl.take n)).take w
  have hinj : ringSliceToBytes (K := 8) zc = ringSliceToBytes (K := 8) (seeds (fun k => (st k).jmp) i.next) → sd i = seed :=
    fun h => si (ringSliceToBytes_inj' (by rw [hzc]; simp only [seeds]; rw [G.genSeed_length]) h)
  have lP : ∀ {L : List (BitVec 128)}, L.length = p → ((permC G (n * 128) 0 (G.ofSeed seed) (L.take n)).take w).length = w :=
    fun hL => by rw [List.length_take, permC_length, List.length_take, hL]; omega
  refine verifyTriples_pw (n := w) (q := (st i).jmp.rcvQueueNext) (q' := (st i.next).jmp.sendQueuePrev)
    (m := ringSliceToBytes (K := 8) zc) (sd := ringSliceToBytes (K := 8) (seeds (fun k => (st k).jmp) i.next))
    l0 l1 l2 (lP l3) (lP l4) (lP l5) ha hb hc (hrel l3 hx) (hrel l4 hy) (hrel l5 hz)
    (fun k => lS (lx k) _) (fun k => lS (ly k) _) (fun k => lS (lz k) _) hq
    (by rw [ringSliceToBytes_length, ringSliceToBytes_length, hzc]; simp only [seeds]; rw [G.genSeed_length])
    (by exact hr2) (by exact hs2) (by exact hP2) ⟨by rw [sj], by rw [sj], by rw [sj]⟩
    (fun h => by rw [hinj h]; exact ⟨rfl, rfl, rfl⟩) ?_ ?_
  · intro m' ms hcol
    exact ⟨_, _, _, rfl, hcol⟩
  · intro hqq hmm m' d j hF hres
    refine ⟨_, _, _, j, rfl, hqq, hF, rfl, hres.imp_right fun hres => ?_⟩
    have h1 := (tripleErrors_zero (by omega) (by omega) (by rw [l0, lP l3]) (by rw [l0, lP l4]) (by rw [l0, lP l5])).1 hres
    rw [h1]
    unfold errorsOf
    rw [← List.take_zipWith, ← List.take_zipWith]
    rw [show (List.zipWith (· ^^^ ·) zs' (List.zipWith (· &&& ·) xs' ys')).take n = List.zipWith (· ^^^ ·) (zs'.take n)
        (List.zipWith (· &&& ·) (xs'.take n) (ys'.take n)) by rw [List.take_zipWith, List.take_zipWith],
      ← permC_and n _ (by rw [List.length_take, l3]; omega) (by rw [List.length_take, l4]; omega)]
    congr 1
    exact ((permC_linear n _).xor _ _ (by rw [List.length_take, l5]; omega) (by simp [l3, l4]; omega)).symm

end Spdz
end Verif
