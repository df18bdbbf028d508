import Verif.Proof.Spdz

/-! # The iris protocol over the SPDZ-wise backend with three honest parties -/

namespace Verif

variable {G : Prg} {V K : Nat} {r : BitVec V} {p u : Nat}

namespace SShare

theorem filterSum_rel (m : IrisCodeArray) {xs : List (BitVec V)} {a : Party → List (SShare V)}
    (ha : Rels (MacSharesOf r) xs a) :
    MacSharesOf r (maskedSum (IrisCodeArray.bitList m) xs) (fun i => filterSum m (a i)) := by
  unfold filterSum
  rw [C17_bits]
  have key : ∀ (bs : List Bool) (xs : List (BitVec V)) (a : Party → List (SShare V)) (w : BitVec V) (acc : Party → SShare V),
      Rels (MacSharesOf r) xs a → MacSharesOf r w acc →
      MacSharesOf r (w + maskedSum bs xs) (fun i => ((a i).zip bs).foldl
        (fun acc (p : SShare V × Bool) => if p.2 then acc.add p.1 else acc) (acc i)) := by
    intro bs xs
    induction xs generalizing bs with
    | nil => intro a w acc ha hacc; rw [ha.eq_nil]; simpa [maskedSum] using hacc
    | cons x xs ih =>
      intro a w acc ha hacc
      obtain ⟨a1, a2, h1, h2, rfl⟩ := ha.uncons
      cases bs with
      | nil => simpa [maskedSum] using hacc
      | cons b bs =>
        have hacc' : MacSharesOf r (w + if b then x else 0) (fun i => if b then (acc i).add (a1 i) else acc i) := by
          cases b
          · simpa using hacc
          · simpa using hacc.add h1
        have := ih bs a2 _ _ h2 hacc'
        simp only [List.zip_cons_cons, List.foldl_cons]
        convert this using 1
        simp [maskedSum, add_assoc]
  have := key (IrisCodeArray.bitList m) xs a 0 (fun _ => SShare.zero V) ha (MacSharesOf.zero r)
  rwa [zero_add] at this

theorem filterReduce_rel (m : IrisCodeArray) {xs ys : List (BitVec V)} {a b : Party → List (SShare V)}
    (ha : Rels (MacSharesOf r) xs a) (hb : Rels (MacSharesOf r) ys b) (hx : xs.length = irisCodeSize)
    (hy : ys.length = irisCodeSize) :
    ∃ c d : Party → SShare V, MacSharesOf r (maskedSum (IrisCodeArray.bitList m) xs) c ∧
      MacSharesOf r (maskedSum (IrisCodeArray.bitList m) ys) d ∧
      ∀ i, filterReduceAddTwice (a i) (b i) m = .ok (c i, d i) := by
  refine ⟨_, _, filterSum_rel m ha, filterSum_rel m hb, fun i => ?_⟩
  unfold filterReduceAddTwice
  have l1 : (a i).length = irisCodeSize := by rw [ha.length, hx]
  have l2 : (b i).length = irisCodeSize := by rw [hb.length, hy]
  rw [if_neg]
  rw [l1, l2, List.isEmpty_iff]
  rintro (h | h)
  · rw [h] at l1; simp [irisCodeSize] at l1
  · exact h rfl

end SShare

namespace Spdz

open Jmp

theorem verifWidth_ge (hK : K ≤ 128) : K ≤ verifWidth K := by unfold verifWidth; split <;> omega

theorem toVerifShare_small (sg : Bool) (hKV : K ≤ V) (c : BitVec K) (hc : c.toNat < 2 ^ (K - 1)) :
    toVerifShare sg V c = BitVec.ofNat V c.toNat := by
  have hs : c.setWidth V = BitVec.ofNat V c.toNat := (BitVec.ofNat_toNat V c).symm
  unfold toVerifShare
  cases sg
  · exact hs
  · rw [if_pos rfl, BitVec.signExtend_eq_setWidth_of_msb_false, hs]
    rw [BitVec.msb_eq_false_iff_two_mul_lt]
    have : 2 ^ K = 2 * 2 ^ (K - 1) ∨ K = 0 := by
      rcases K with _ | k
      · right; rfl
      · left; rw [Nat.pow_succ']; rfl
    rcases this with h | h
    · omega
    · subst h; have := c.isLt; simp at this hc ⊢; omega

/-- Words of precomputed triples available after a request for `n` AND gates with `p` words left over. -/
def avail (p n : Nat) : Nat := if p ≤ (n + 127) / 128 then p + max ((n + 127) / 128 - p) minTriples else p

/-- Bits of AND gates used for the most significant bits of `n` values of `K` bits. -/
def msbCost (K n : Nat) : Nat := 128 * ((2 * K - 3) * ((n + 127) / 128))

/-- Bits of AND gates used for the disjunction of `n` bits. -/
def orCost (n : Nat) : Nat := 128 * ((n + 127) / 128 - 1) + 127

theorem mpcLawful (G : Prg) (H : Hash) (hK : 3 ≤ K) (hK2 : K ≤ 128) (sg : Bool) (r : BitVec (verifWidth K)) (p u : Nat)
    (P : Nat) :
    MpcLawful (Spdz.ops G H K sg) (MacSharesOf r) BinSharesOf (SpdzOk r p u) (SpdzOk r P 0)
      (fun n v st => SpdzOk r (avail p n) (u + v) st)
      (fun n v => usedWords (u + v) ≤ avail p n ∧ avail p n - usedWords (u + v) = P) (msbCost K) orCost (fun _ => True) where
  maskedDotMany := by
    intro n v st xs a yss masks b hI hx ha hb hl hm _
    exact maskedDotMany_wp hx ha hI hb hl hm
  filter := by
    intro p q m a b ha hb
    exact SShare.filterReduce_rel m ha hb (MpcLawful.encode_length p) (MpcLawful.encode_length q)
  add := fun ha hb => ha.add hb
  sub := fun ha hb => ha.sub hb
  mulConst := fun c hc ha => by
    have := ha.mulConst sg c
    rw [toVerifShare_small sg (verifWidth_ge hK2) c hc] at this
    exact this
  subConst := fun c hc hI ha => by
    have := ha.subConst hI.2.1 sg c
    rw [toVerifShare_small sg (verifWidth_ge hK2) c hc] at this
    exact this
  getMsb := fun {n v st x a} hI ha => (getMsb_wp (by omega) hK2 (verifWidth_ge hK2) hI ha).mono fun b st' ⟨h, hI'⟩ =>
    ⟨h, v + K * (2 + 2 * ceilLog2 K), by rw [Nat.add_assoc] at hI'; exact hI'⟩
  getMsbMany := fun {n v st xs a} hne hI ha => (getMsbMany_wp hK (verifWidth_ge hK2) hne hI ha).mono fun b st' ⟨h, hI'⟩ =>
    ⟨h, by rw [Nat.add_assoc] at hI'; exact hI'⟩
  reduceBinaryOr := fun {n v st bits a cs} hcs _ hne hI ha => (reduceBinaryOr_wp hcs hne hI ha).mono fun b st' ⟨h, hI'⟩ =>
    ⟨h, by rw [Nat.add_assoc] at hI'; exact hI'⟩
  precompute := fun hI => precompute_wp hI _
  verify := fun hI hc => by
    have := verify_wp (H := H) hI hc.1
    rw [hc.2] at this
    exact this
  openBit := fun hI hs => openBit_wp hI hs

end Spdz
end Verif
