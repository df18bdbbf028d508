import Verif.Proof.Swift3Cheat
import Verif.Props.Swift3Verify

/-!
# C76: wrong AND gates that the verification of the Swift3 backend does not find

The first challenges of the verification, theta, are drawn from the generator that all three parties have in common, so
a corrupt party knows them before it computes its gates. (The soundness of the proof, C56, counts challenges theta that
are independent of the gates.)
-/

namespace Verif

open Swift3

variable {G : Prg} {K : Nat}

/-- For every state `pp` of the common generator, every corrupt party `p` and every number `n > 4096` of AND gates there
are errors `e`, not all zero, that `p` can compute in advance: if `p` adds `e` to its shares in one call of `and_many` on
`n` shared bits and follows the protocol otherwise, then for all inputs, all their sharings, all other generators and all
schedules, `verify` succeeds at all three parties and they all open the same wrong results, wrong at exactly the positions
where `e` is 1. -/
theorem C76_undetected (H : Hash) (hG : G.Lively K) (n : Nat) (hn : 4096 < n) (hn' : n ≤ 2 ^ 44) (pp : G.S) (p : Party) :
    ∃ e : List (BitVec 1), e.length = n ∧ 1 ∈ e ∧
      ∀ st : Party → S3St G K, S3Ok 0 0 ⟨0, 0⟩ st → (∀ i, (st i).prf.pp = pp) →
      ∀ (xs ys : List (BitVec 1)) (a b : Party → List (S3Share 1)), xs.length = n → ys.length = n →
      Rels S3BinSharesOf xs a → Rels S3BinSharesOf ys b → ∀ rngMul rngAnd rngDot : Party → G.S,
      EverySchedule (fun i => do
        let c ← if i = p then andManyWith (List.zipWith (· ^^^ ·) e) i (a i) (b i) else andMany i (a i) (b i)
        verify H i (rngMul i) (rngAnd i) (rngDot i)
        openBitMany H i c) st
        (fun r _ => ∀ i, r i = (List.zipWith (· ^^^ ·) (List.zipWith (· &&& ·) xs ys) e).map bitVal ∧
          r i ≠ (List.zipWith (· &&& ·) xs ys).map bitVal) := by
  obtain ⟨e, h1, h2, h⟩ := and_cheat (H := H) hG hn hn' pp p
  refine ⟨e, h1, h2, fun st hI hpp xs ys a b hx hy ha hb r1 r2 r3 => ?_⟩
  refine ((h st hI hpp xs ys a b hx hy ha hb r1 r2 r3).mono ?_).allSchedules
  intro r st' hr i
  refine ⟨hr i, fun hc => ?_⟩
  rw [hr i] at hc
  have hinj : ∀ x y : BitVec 1, bitVal x = bitVal y → x = y := by decide +kernel
  have hc := (List.map_injective_iff.2 fun x y => hinj x y) hc
  obtain ⟨q, hq⟩ := List.getElem?_of_mem h2
  have hz : (List.zipWith (· &&& ·) xs ys).length = n := by simp [hx, hy]
  have hql : q < n := by rw [← h1]; exact (List.getElem?_eq_some_iff.1 hq).1
  have := congrArg (fun l => l[q]?) hc
  simp only [List.getElem?_zipWith, hq] at this
  have hx' : xs[q]? = some (xs[q]'(by omega)) := List.getElem?_eq_getElem _
  have hy' : ys[q]? = some (ys[q]'(by omega)) := List.getElem?_eq_getElem _
  simp only [hx', hy', Option.some.injEq] at this
  revert this
  generalize (xs[q]'(by omega)) &&& (ys[q]'(by omega)) = z
  revert z
  decide +kernel

/-- With the identity in place of the errors the program of the corrupt party is the program of an honest party. -/
theorem C76_honest (me : Party) (a b : List (S3Share 1)) :
    (andManyWith id me a b : Proto (S3St G K) _) = andMany me a b := rfl

/-- The hypotheses hold for 5000 conjunctions of new parties, whichever party is corrupt. -/
example : stuckPrg.Lively 16 ∧ S3Ok 0 0 ⟨0, 0⟩ (exFreshSt 16) ∧
    (∀ i, (exFreshSt 16 i).prf.pp = (exFreshSt 16 0).prf.pp) ∧ 4096 < 5000 ∧
    Rels S3BinSharesOf (List.replicate 5000 1#1) (fun i => (List.replicate 5000 1#1).map (exS3Bin · i)) :=
  ⟨stuckPrg_lively, exFreshSt_ok 16, fun i => (exFreshSt_ok 16).prf.2 i 0, by norm_num, exS3Bins_ok _⟩

end Verif
