import Verif.Proof.SpdzLockRun

/-!
# The tape of the generation of AND triples

The triples that are opened with a shuffled difference to the AND gates of the circuit are chosen according to the gates.
-/

namespace Verif

open Jmp Spdz

variable {f : Bytes → List Bool} {V K : Nat} {i : Party}

/-- The inverse of `shuf`. -/
def unshuf (f : Bytes → List Bool) (n : Nat) (σ : List Bool) (l : List (BitVec 128)) : List (BitVec 128) :=
  unshuffle (idealPrg f) (n * 128) 0 σ l

theorem unshuf_length (n : Nat) (σ : List Bool) (l : List (BitVec 128)) : (unshuf f n σ l).length = l.length := unshuffle_length _ _ _ l

theorem shuf_unshuf {n : Nat} {l : List (BitVec 128)} (h : l.length = n) (σ : List Bool) : shuf f n σ (unshuf f n σ l) = l :=
  permC_unshuffle _ _ _ l (by rw [h]; omega)

theorem shuf_xor {n : Nat} {x y : List (BitVec 128)} (hx : x.length = n) (hy : y.length = n) (σ : List Bool) :
    shuf f n σ (List.zipWith (· ^^^ ·) x y) = List.zipWith (· ^^^ ·) (shuf f n σ x) (shuf f n σ y) := (permC_linear n _).xor x y hx hy

theorem zipWith_xor_comm (x y : List (BitVec K)) : List.zipWith (· ^^^ ·) x y = List.zipWith (· ^^^ ·) y x := by
  rw [List.zipWith_comm]
  congr 1
  funext a b
  exact BitVec.xor_comm _ _

theorem zipWith_xor_inj {x y z : List (BitVec K)} (hx : x.length = z.length) (hy : y.length = z.length)
    (h : List.zipWith (· ^^^ ·) x z = List.zipWith (· ^^^ ·) y z) : x = y := by
  rw [zipWith_xor_comm x, zipWith_xor_comm y] at h
  rw [← zipWith_xor_cancel hx, h, zipWith_xor_cancel hy]

/-- The words whose first `k` are shuffled to `b`, with zeros at the end. -/
def pad (f : Bytes → List Bool) (σ : List Bool) (k n : Nat) (b : List (BitVec 128)) : List (BitVec 128) :=
  unshuf f k σ (b ++ List.replicate (k - b.length) 0) ++ List.replicate (n - k) 0

theorem pad_length {σ : List Bool} {k n : Nat} {b : List (BitVec 128)} (h : b.length ≤ k) (hk : k ≤ n) : (pad f σ k n b).length = n := by
  simp only [pad, List.length_append, unshuf_length, List.length_replicate]
  omega

theorem pad_take {σ : List Bool} {k n m : Nat} {b x : List (BitVec 128)} (hm : b.length = m) (h : m ≤ k) (hk : k ≤ n) (hx : x.length = n) :
    (shuf f k σ ((List.zipWith (· ^^^ ·) x (pad f σ k n b)).take k)).take m =
      List.zipWith (· ^^^ ·) b ((shuf f k σ (x.take k)).take m) := by
  have hl : (b ++ List.replicate (k - b.length) 0).length = k := by
    simp only [List.length_append, List.length_replicate]; omega
  have e : (pad f σ k n b).take k = unshuf f k σ (b ++ List.replicate (k - b.length) 0) := by
    rw [pad, List.take_left' (by rw [unshuf_length, hl])]
  rw [List.take_zipWith, e, shuf_xor (by rw [List.length_take]; omega) (by rw [unshuf_length, hl]), shuf_unshuf hl, List.take_zipWith,
    List.take_left' hm, zipWith_xor_comm]

/-- Words `x` shifted by `S`, and further words that are shuffled to words that differ from `x` by given ones. -/
def twist (f : Bytes → List Bool) (σ : List Bool) (n : Nat) (S r : List (BitVec 128)) : List (BitVec 128) :=
  List.zipWith (· ^^^ ·) (r.take n) S ++
    unshuf f (n + 1) σ (List.zipWith (· ^^^ ·) (List.zipWith (· ^^^ ·) (r.take n) S) ((r.drop n).take n) ++ r.drop (2 * n))

section

variable {σ : List Bool} {n : Nat} {S r r' : List (BitVec 128)}

theorem twist_x (hS : S.length = n) (hr : r.length = 2 * n + 1) : (List.zipWith (· ^^^ ·) (r.take n) S).length = n := by
  simp only [List.length_zipWith, List.length_take]; omega

theorem twist_y (hS : S.length = n) (hr : r.length = 2 * n + 1) :
    (List.zipWith (· ^^^ ·) (List.zipWith (· ^^^ ·) (r.take n) S) ((r.drop n).take n) ++ r.drop (2 * n)).length = n + 1 := by
  simp only [List.length_append, List.length_zipWith, List.length_take, List.length_drop]; omega

theorem twist_length (hS : S.length = n) (hr : r.length = 2 * n + 1) : (twist f σ n S r).length = 2 * n + 1 := by
  rw [twist, List.length_append, unshuf_length, twist_x hS hr, twist_y hS hr]; omega

theorem twist_take (hS : S.length = n) (hr : r.length = 2 * n + 1) : (twist f σ n S r).take n = List.zipWith (· ^^^ ·) (r.take n) S :=
  List.take_left' (twist_x hS hr)

theorem twist_drop (hS : S.length = n) (hr : r.length = 2 * n + 1) : shuf f (n + 1) σ ((twist f σ n S r).drop n) =
    List.zipWith (· ^^^ ·) ((twist f σ n S r).take n) ((r.drop n).take n) ++ r.drop (2 * n) := by
  rw [twist_take hS hr, twist, List.drop_left' (twist_x hS hr), shuf_unshuf (twist_y hS hr)]

theorem twist_inj (hS : S.length = n) (hr : r.length = 2 * n + 1) (hr' : r'.length = 2 * n + 1)
    (h : twist f σ n S r = twist f σ n S r') : r = r' := by
  have h1 : List.zipWith (· ^^^ ·) (r.take n) S = List.zipWith (· ^^^ ·) (r'.take n) S := by
    rw [← twist_take (f := f) (σ := σ) hS hr, h, twist_take hS hr']
  have h2 := twist_drop (f := f) (σ := σ) hS hr
  rw [h, twist_drop hS hr'] at h2
  obtain ⟨h3, h4⟩ := List.append_inj h2 (by
    rw [twist_take hS hr']
    simp only [List.length_zipWith, List.length_take, List.length_drop]; omega)
  have e1 : r.take n = r'.take n := zipWith_xor_inj (by rw [List.length_take]; omega) (by rw [List.length_take]; omega) h1
  have e2 : (r.drop n).take n = (r'.drop n).take n := by
    rw [zipWith_xor_comm, zipWith_xor_comm _ ((r.drop n).take n)] at h3
    have hl : ((twist f σ n S r').take n).length = n := by rw [List.length_take, twist_length hS hr']; omega
    exact (zipWith_xor_inj (by simp only [List.length_take, List.length_drop] at hl ⊢; omega)
      (by simp only [List.length_take, List.length_drop] at hl ⊢; omega) h3).symm
  rw [← List.take_append_drop n r, ← List.take_append_drop n r', e1, ← List.take_append_drop n (r.drop n), ← List.take_append_drop n (r'.drop n), e2,
    List.drop_drop, List.drop_drop]
  have : n + n = 2 * n := by omega
  rw [this, h4]

end

/-- The seed that the other two parties toss together. -/
def firstSeed (n : Nat) (U : List Bool) : Bytes := words 8 32 (U.drop (128 * (2 * n + 1) * 3))

/-- The tape of `generate_triples`. -/
def firstTape (i : Party) (n : Nat) (Sa Sb : List (BitVec 128)) (st₀ st : Party → SpdzSt (idealPrg f) V) (U : List Bool) : List Bool :=
  tapesOf (twist f (genSeedOf i (2 * n + 1) (firstSeed n U) st₀) n Sa (words 128 (2 * n + 1) U)) ++
    (tapesOf (twist f (genSeedOf i (2 * n + 1) (firstSeed n U) st₀) n Sb (words 128 (2 * n + 1) (U.drop (128 * (2 * n + 1))))) ++
      (tapesOf (genZ i (2 * n + 1) (twist f (genSeedOf i (2 * n + 1) (firstSeed n U) st₀) n Sa (words 128 (2 * n + 1) U))
        (twist f (genSeedOf i (2 * n + 1) (firstSeed n U) st₀) n Sb (words 128 (2 * n + 1) (U.drop (128 * (2 * n + 1)))))
        (words 128 (2 * n + 1) (U.drop (128 * (2 * n + 1) * 2))) st) ++ tapesOf (firstSeed n U)))

section

variable {n : Nat} {Sa Sb : List (BitVec 128)} {st₀ st : Party → SpdzSt (idealPrg f) V} {U U' : List Bool}

theorem firstTape_length (ha : Sa.length = n) (hb : Sb.length = n) : (firstTape i n Sa Sb st₀ st U).length = genBits (2 * n + 1) := by
  have h1 : ∀ σ : List Bool, ∀ t : List Bool, (twist f σ n Sa (words 128 (2 * n + 1) t)).length = 2 * n + 1 := fun σ t =>
    twist_length ha (words_length _ _ _)
  have h2 : ∀ σ : List Bool, ∀ t : List Bool, (twist f σ n Sb (words 128 (2 * n + 1) t)).length = 2 * n + 1 := fun σ t =>
    twist_length hb (words_length _ _ _)
  rw [firstTape]
  simp only [List.length_append, tapesOf_length, h1, h2, genZ_length (h1 _ _) (h2 _ _) (words_length _ _ _), firstSeed, words_length]
  rfl

theorem firstTape_inj (ha : Sa.length = n) (hb : Sb.length = n) (hU : U.length = genBits (2 * n + 1)) (hU' : U'.length = genBits (2 * n + 1))
    (h : firstTape i n Sa Sb st₀ st U = firstTape i n Sa Sb st₀ st U') : U = U' := by
  have h1 : ∀ σ : List Bool, ∀ t : List Bool, (twist f σ n Sa (words 128 (2 * n + 1) t)).length = 2 * n + 1 := fun σ t =>
    twist_length ha (words_length _ _ _)
  have h2 : ∀ σ : List Bool, ∀ t : List Bool, (twist f σ n Sb (words 128 (2 * n + 1) t)).length = 2 * n + 1 := fun σ t =>
    twist_length hb (words_length _ _ _)
  rw [firstTape, firstTape] at h
  obtain ⟨e1, h⟩ := List.append_inj h (by rw [tapesOf_length, tapesOf_length, h1, h1])
  obtain ⟨e2, h⟩ := List.append_inj h (by rw [tapesOf_length, tapesOf_length, h2, h2])
  obtain ⟨e3, e4⟩ := List.append_inj h (by
    rw [tapesOf_length, tapesOf_length, genZ_length (h1 _ _) (h2 _ _) (words_length _ _ _), genZ_length (h1 _ _) (h2 _ _) (words_length _ _ _)])
  have e4 := tapesOf_inj (by simp only [firstSeed, words_length]) e4
  have e1 := tapesOf_inj (by rw [h1, h1]) e1
  have e2 := tapesOf_inj (by rw [h2, h2]) e2
  have e3 := tapesOf_inj (by rw [genZ_length (h1 _ _) (h2 _ _) (words_length _ _ _), genZ_length (h1 _ _) (h2 _ _) (words_length _ _ _)]) e3
  have e3' := congrArg (maskBits (((rnd i (2 * n + 1) (twist f (genSeedOf i (2 * n + 1) (firstSeed n U') st₀) n Sa (words 128 (2 * n + 1) U'))
    (fun j => (st j).jmp) i.prev).zip (rnd i (2 * n + 1) (twist f (genSeedOf i (2 * n + 1) (firstSeed n U') st₀) n Sb
      (words 128 (2 * n + 1) (U'.drop (128 * (2 * n + 1))))) (fun j => ((st j).adv (128 * (2 * n + 1))).jmp) i.prev)).map
    fun p => (p.1.andLocal p.2).a) (words 128 (2 * n + 1) (((st i.prev).adv (128 * (2 * n + 1))).adv (128 * (2 * n + 1))).jmp.tapeA)) e3
  rw [genZ_mask (h1 _ _) (h2 _ _) (words_length _ _ _), e1, e2, genZ_mask (h1 _ _) (h2 _ _) (words_length _ _ _)] at e3'
  rw [e4] at e1 e2
  have e1 := twist_inj ha (words_length _ _ _) (words_length _ _ _) e1
  have e2 := twist_inj hb (words_length _ _ _) (words_length _ _ _) e2
  clear h e3
  generalize hm : 2 * n + 1 = m at *
  have hg : genBits m = 128 * m + (128 * m + (128 * m + 256)) := rfl
  rw [hg] at hU hU'
  have hs : firstSeed n U = words 8 32 (U.drop (128 * m * 3)) := by rw [← hm]; rfl
  have hs' : firstSeed n U' = words 8 32 (U'.drop (128 * m * 3)) := by rw [← hm]; rfl
  rw [hs, hs'] at e4
  generalize hX : 128 * m = X at *
  have split : ∀ U : List Bool, U.length = X + (X + (X + 256)) → U = U.take X ++ ((U.drop X).take X ++ ((U.drop (X * 2)).take X ++ U.drop (X * 3))) := by
    intro U _
    have e1 : X * 2 = X + X := by omega
    have e2 : X * 3 = X + X + X := by omega
    simp only [e1, e2, ← List.drop_drop, List.take_append_drop]
  have hw : ∀ t : List Bool, X ≤ t.length → words 128 m t = words 128 m (t.take X) := fun t ht => by
    have := words_append (K := 128) (n := m) (t := t.take X) (by rw [hX, List.length_take]; omega) (t.drop X)
    rwa [List.take_append_drop] at this
  have part : ∀ t t' : List Bool, X ≤ t.length → X ≤ t'.length → words 128 m t = words 128 m t' → t.take X = t'.take X := by
    intro t t' ht ht' e
    rw [hw t ht, hw t' ht'] at e
    exact words_inj (by rw [hX, List.length_take]; omega) (by rw [hX, List.length_take]; omega) e
  rw [split U hU, split U' hU', part U U' (by omega) (by omega) e1,
    part (U.drop X) (U'.drop X) (by rw [List.length_drop]; omega) (by rw [List.length_drop]; omega) e2,
    part (U.drop (X * 2)) (U'.drop (X * 2)) (by rw [List.length_drop]; omega) (by rw [List.length_drop]; omega) e3',
    words_inj (by rw [List.length_drop]; omega) (by rw [List.length_drop]; omega) e4]

end

end Verif
