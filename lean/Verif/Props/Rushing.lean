import Verif.Proof.RushingIris
import Verif.Spec.Adversary
import Verif.Props.MalAby3

/-!
# C57: a corrupt party that waits for the coin defeats the check of products

Negative results about the maliciously secure ABY3 backend: the programs of the corrupt party are in
`Spec/Rushing.lean`; they use only what that party knows (its own shares, its own state, the messages it receives).
The other two parties run the code of the repository.
-/

namespace Verif

open Jmp MalAby3

attribute [local irreducible] hammingDistance commonBits encode

variable {G : Prg} {H : Hash} {K : Nat}

theorem corrupt_run {σ α : Type} {p p' q : Party → Proto σ α} {st : Party → σ} {Q : (Party → α) → (Party → σ) → Prop}
    (h : WPS p st Q) (h0 : p 0 = q 0) (h1 : ∀ i, i ≠ 0 → p i = p' i) :
    ∃ (a : Party → α) (st' : Party → σ),
      AllSchedules (corrupt (fun i => p' i (st i)) 0 (q 0 (st 0))) (fun i => (a i, st' i)) ∧ Q a st' := by
  obtain ⟨a, st', h, hq⟩ := h.allSchedules
  refine ⟨a, st', ?_, hq⟩
  convert h.1 using 1
  funext i
  unfold corrupt
  by_cases hi : i = 0
  · subst hi; rw [if_pos rfl, h0]
  · rw [if_neg hi, h1 i hi]

/-- **Products.** Party 0 runs `rushDotMany` and then follows the protocol; parties 1 and 2 run `dot_many` and then
open the results. Whatever error `es` party 0 chooses, under every schedule no check fails, and parties 1 and 2 accept
the inner products changed by these errors. -/
theorem C57_dot_many (hV : 40 ≤ verifWidth K - K) (xss yss : List (List (BitVec K)))
    (hl : List.Forall₂ (fun xs ys => xs.length = ys.length) xss yss)
    (a b : Party → List (List (AShare K))) (ha : Rels (Rels SharesOf) xss a) (hb : Rels (Rels SharesOf) yss b)
    (es : List (BitVec (verifWidth K))) (he : es.length = xss.length) (st : Party → JmpSt G) (hst : JmpOk st) :
    ∃ (r : Party → List (BitVec K)) (st' : Party → JmpSt G),
      AllSchedules
        (corrupt (fun i => (do let c ← dotMany H i (a i) (b i); openMany H i c : Proto (JmpSt G) _) (st i)) 0
          ((do let c ← rushDotMany H 0 es (a 0) (b 0); openMany H 0 c : Proto (JmpSt G) _) (st 0)))
        (fun i => (r i, st' i)) ∧
      ∀ i, r i = List.zipWith (fun d (e : BitVec (verifWidth K)) => d + e.setWidth K)
        (List.zipWith (fun xs ys => (List.zipWith (· * ·) xs ys).sum) xss yss) es := by
  refine corrupt_run (p := fun i => do
      let c ← (if i = 0 then rushDotMany H i es (a i) (b i) else dotMany H i (a i) (b i))
      openMany H i c) (p' := fun i => do let c ← dotMany H i (a i) (b i); openMany H i c)
    (q := fun i => do let c ← rushDotMany H i es (a i) (b i); openMany H i c)
    (Q := fun r _ => ∀ i, r i = List.zipWith (fun d (e : BitVec (verifWidth K)) => d + e.setWidth K)
        (List.zipWith (fun xs ys => (List.zipWith (· * ·) xs ys).sum) xss yss) es) ?_ rfl
    (fun i hi => by simp only [if_neg hi])
  refine WPS.bind ((rushDotMany_wp hV hst ha hb hl es he).mono ?_)
  rintro c st' ⟨hc, hI⟩
  exact (openMany_wp H hc hI).mono fun r st'' h => h.1

/-- The products of honest parties are the inner products (C34), so the results above are wrong whenever some error
does not vanish: for one product and `e = 1` both honest parties accept the product plus one. -/
theorem C57_dot_wrong (hV : 40 ≤ verifWidth K - K) (hK : K ≠ 0) (xs ys : List (BitVec K)) (hl : xs.length = ys.length)
    (a b : Party → List (AShare K)) (ha : Rels SharesOf xs a) (hb : Rels SharesOf ys b) (st : Party → JmpSt G)
    (hst : JmpOk st) :
    ∃ (r : Party → List (BitVec K)) (st' : Party → JmpSt G),
      AllSchedules
        (corrupt (fun i => (do let c ← dotMany H i [a i] [b i]; openMany H i c : Proto (JmpSt G) _) (st i)) 0
          ((do let c ← rushDotMany H 0 [1] [a 0] [b 0]; openMany H 0 c : Proto (JmpSt G) _) (st 0)))
        (fun i => (r i, st' i)) ∧
      (∀ i, r i = [(List.zipWith (· * ·) xs ys).sum + 1]) ∧ ∀ i, r i ≠ [(List.zipWith (· * ·) xs ys).sum] := by
  obtain ⟨r, st', h, hr⟩ := C57_dot_many (H := H) hV [xs] [ys] (.cons hl .nil) (fun i => [a i]) (fun i => [b i])
    (.singleton ha) (.singleton hb) [1] rfl st hst
  have h1 : ∀ i, r i = [(List.zipWith (· * ·) xs ys).sum + 1] := by
    intro i
    rw [hr i]
    have : (1 : BitVec (verifWidth K)).setWidth K = 1 := by
      apply BitVec.eq_of_toNat_eq
      rw [BitVec.toNat_setWidth]
      show (1 % 2 ^ verifWidth K) % 2 ^ K = 1 % 2 ^ K
      rw [Nat.mod_mod_of_dvd _ (Nat.pow_dvd_pow 2 (by omega))]
    simp only [List.zipWith_cons_cons, List.zipWith_nil_left, this]
  refine ⟨r, st', h, h1, fun i hi => ?_⟩
  rw [h1 i] at hi
  have h2 : (1 : BitVec K) = 0 := by
    have := (List.cons.inj hi).1
    rwa [add_eq_left] at this
  have h3 := congrArg BitVec.toNat h2
  have : (1 : BitVec K).toNat = 1 := by
    show 1 % 2 ^ K = 1
    exact Nat.mod_eq_of_lt (Nat.one_lt_two_pow hK)
  rw [this] at h3
  simp at h3

/-- **Queries.** Party 0 runs `iris_in_db` with dot products changed by `2^(K-2)`, which inverts every comparison;
parties 1 and 2 run `iris_in_db` of the repository. Under every schedule all checks pass, and parties 1 and 2 return
whether some entry of the database does *not* match the query. -/
theorem C57_query (hK : 15 ≤ K) (hV : 40 ≤ verifWidth K - K) (signed : Bool) (q : IrisCode) (db : List IrisCode)
    (hne : db ≠ []) (hm : ∀ c ∈ db, 8960 ≤ commonBits c q) (a : Party → List (AShare K))
    (b : Party → List (List (AShare K))) (ha : Rels SharesOf (encode K q.code) a)
    (hb : Rels (Rels SharesOf) (db.map fun c => encode K c.code) b)
    (cs : Nat) (hcs : cs ≠ 0) (hcs' : cs * 128 < 2 ^ 64) (hov : (db.length + cs) * (2 * K) < 2 ^ 64)
    (st : Party → JmpSt G) (hst : JmpOk st) :
    ∃ (r : Party → Bool) (st' : Party → JmpSt G),
      AllSchedules
        (corrupt (fun i => Iris.irisInDb (MalAby3.ops G H K signed i) (a i) (b i) q.mask (db.map fun c => c.mask) cs (st i))
          0 (Iris.irisInDb (rushOps G H K signed (BitVec.twoPow _ (K - 2)) 0) (a 0) (b 0) q.mask
            (db.map fun c => c.mask) cs (st 0)))
        (fun i => (r i, st' i)) ∧
      ∀ i, r i = db.any fun c => !decide (hammingDistance c q < 34 * commonBits c q / 100) := by
  refine corrupt_run (p := fun i => Iris.irisInDb (if i = 0 then rushOps G H K signed (BitVec.twoPow _ (K - 2)) i
      else MalAby3.ops G H K signed i) (a i) (b i) q.mask (db.map fun c => c.mask) cs)
    (p' := fun i => Iris.irisInDb (MalAby3.ops G H K signed i) (a i) (b i) q.mask (db.map fun c => c.mask) cs)
    (q := fun i => Iris.irisInDb (rushOps G H K signed (BitVec.twoPow _ (K - 2)) i) (a i) (b i) q.mask
      (db.map fun c => c.mask) cs)
    (Q := fun r _ => ∀ i, r i = db.any fun c => !decide (hammingDistance c q < 34 * commonBits c q / 100)) ?_ rfl
    (fun i hi => by simp only [if_neg hi])
  refine ((MalAby3.mpcLawful G H hV (by omega) signed).irisInDb_off hK (rush_off G H hV signed _) ha hne hm hb hcs hcs' hov
    (fun _ _ => trivial) hst).mono ?_
  rintro r st' ⟨h, -⟩ i
  rw [h i]
  congr 1
  funext c
  have hw : (BitVec.twoPow (verifWidth K) (K - 2)).setWidth K = BitVec.twoPow K (K - 2) := by
    apply BitVec.eq_of_toNat_eq
    rw [BitVec.toNat_setWidth, BitVec.toNat_twoPow, BitVec.toNat_twoPow,
      Nat.mod_mod_of_dvd _ (Nat.pow_dvd_pow 2 (by omega))]
  rw [hw, offBit_flip hK, MpcLawful.closeBit, MpcLawful.hammingDistance_comm, MpcLawful.commonBits_comm]

/-- With one entry in the database both honest parties return exactly the wrong answer. -/
theorem C57_query_inverted (hK : 15 ≤ K) (hV : 40 ≤ verifWidth K - K) (signed : Bool) (q c : IrisCode)
    (hm : 8960 ≤ commonBits c q) (a b : Party → List (AShare K)) (ha : Rels SharesOf (encode K q.code) a)
    (hb : Rels SharesOf (encode K c.code) b) (cs : Nat) (hcs : cs ≠ 0) (hcs' : cs * 128 < 2 ^ 64)
    (hov : (1 + cs) * (2 * K) < 2 ^ 64) (st : Party → JmpSt G) (hst : JmpOk st) :
    ∃ (r : Party → Bool) (st' : Party → JmpSt G),
      AllSchedules
        (corrupt (fun i => Iris.irisInDb (MalAby3.ops G H K signed i) (a i) [b i] q.mask [c.mask] cs (st i))
          0 (Iris.irisInDb (rushOps G H K signed (BitVec.twoPow _ (K - 2)) 0) (a 0) [b 0] q.mask [c.mask] cs (st 0)))
        (fun i => (r i, st' i)) ∧
      ∀ i, r i = !inDb q [c] := by
  obtain ⟨r, st', h, hr⟩ := C57_query (H := H) hK hV signed q [c] (by simp) (by simpa using hm) a (fun i => [b i]) ha
    (.singleton hb) cs hcs hcs' hov st hst
  exact ⟨r, st', h, fun i => by rw [hr i]; simp [inDb]⟩

example (c : IrisCodeArray) : let e : IrisCode := ⟨c, IrisCodeArray.ones⟩
    15 ≤ 16 ∧ 40 ≤ verifWidth 16 - 16 ∧ 8960 ≤ commonBits e e ∧
    Rels SharesOf (encode 16 e.code) (fun i => (encode 16 e.code).map (exShare · i)) ∧ 128 * 128 < 2 ^ 64 ∧
    (1 + 128) * (2 * 16) < 2 ^ 64 ∧ JmpOk exJmpSt :=
  ⟨by omega, by decide, by rw [fullMask_common]; omega, exShares_ok _, by norm_num, by norm_num, exJmpSt_ok⟩

example : Rels (Rels SharesOf) [[1, 2], [(3 : BitVec 16)]] (fun i => [[1, 2].map (exShare · i), [(3 : BitVec 16)].map (exShare · i)]) ∧
    ([1, 2] : List (BitVec (verifWidth 16))).length = [[1, 2], [(3 : BitVec 16)]].length :=
  ⟨Rels.cons (exShares_ok [1, 2]) (.singleton (exShares_ok [3])), rfl⟩

end Verif
