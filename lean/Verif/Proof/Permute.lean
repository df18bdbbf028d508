import Verif.Proof.Triples
import Verif.Model.Spdz
import Mathlib.Logic.Equiv.Basic
import Mathlib.GroupTheory.Perm.Basic
import Mathlib.Logic.Equiv.Defs

/-! # Permuting the bits of triples -/

namespace Verif

variable {G : Prg}

open Spdz

theorem getD_eq_getElem?_elim {α : Type} (l : List α) (n : Nat) (d : α) : l.getD n d = (l[n]?).getD d := by
  simp [List.getD]

theorem wordBit_modify (l : List (BitVec 128)) (i : Nat) (hi : i < 128 * l.length) (y : BitVec 128) (b : Bool)
    (hy : ∀ m, m < 128 → y.getLsbD m = (decide (m = i % 128) && b)) (k : Nat) :
    wordBit (l.modify (i / 128) (· ^^^ y)) k = (wordBit l k ^^ (decide (k = i) && b)) := by
  unfold wordBit
  rw [getD_eq_getElem?_elim, getD_eq_getElem?_elim, List.getElem?_modify]
  have hm : k % 128 < 128 := Nat.mod_lt _ (by omega)
  by_cases h : i / 128 = k / 128
  · have hlt : k / 128 < l.length := by rw [← h]; omega
    rw [List.getElem?_eq_getElem hlt]
    simp only [h, if_true, Option.map_eq_map, Option.map_some, Option.getD_some, BitVec.getLsbD_xor]
    rw [hy _ hm]
    congr 2
    rw [decide_eq_decide]
    constructor
    · intro h2; omega
    · intro h2; rw [h2]
  · have hk : k ≠ i := fun e => h (by rw [e])
    simp [h, hk]

theorem swapX_getLsbD (b c : Bool) (x : BitVec 128) (hx : ∀ m, x.getLsbD m = (decide (m = 0) && (b ^^ c))) (n : Nat)
    (hn : n < 128) (m : Nat) (hm : m < 128) : (ringShl x n).getLsbD m = (decide (m = n) && (b ^^ c)) := by
  rw [ringShl_lt x hn, BitVec.getLsbD_shiftLeft, hx]
  by_cases h : m < n
  · simp [h, show m ≠ n by omega]
  · by_cases h2 : m = n
    · simp [h2, hn]
    · simp [h2, show m - n ≠ 0 by omega]

theorem getBit_getLsbD (w : BitVec 128) (n m : Nat) : (getBit w n).getLsbD m = (decide (m = 0) && w.getLsbD n) := by
  unfold getBit
  rw [BitVec.getLsbD_and, BitVec.getLsbD_ushiftRight]
  by_cases h : m = 0
  · subst h; simp
  · simp [h]

theorem swapBitC_length (l : List (BitVec 128)) (i j : Nat) : (swapBitC l i j).length = l.length := by
  simp [swapBitC]

theorem wordBit_swap (l : List (BitVec 128)) {i j : Nat} (hi : i < 128 * l.length) (hj : j < 128 * l.length) (k : Nat) :
    wordBit (swapBitC l i j) k = wordBit l (Equiv.swap i j k) := by
  unfold swapBitC
  have hx : ∀ m, (getBit (l.getD (i / 128) 0) (i % 128) ^^^ getBit (l.getD (j / 128) 0) (j % 128)).getLsbD m
      = (decide (m = 0) && (wordBit l i ^^ wordBit l j)) := by
    intro m
    rw [BitVec.getLsbD_xor, getBit_getLsbD, getBit_getLsbD]
    cases decide (m = 0) <;> simp [wordBit]
  have hmi : i % 128 < 128 := Nat.mod_lt _ (by omega)
  have hmj : j % 128 < 128 := Nat.mod_lt _ (by omega)
  rw [wordBit_modify _ j (by rw [List.length_modify]; exact hj) _ _ (swapX_getLsbD _ _ _ hx _ hmj),
    wordBit_modify _ i hi _ _ (swapX_getLsbD _ _ _ hx _ hmi)]
  by_cases h1 : k = i
  · subst h1
    rw [Equiv.swap_apply_left]
    by_cases h2 : k = j
    · subst h2; simp
    · simp [h2]
  · by_cases h2 : k = j
    · subst h2
      rw [Equiv.swap_apply_right]
      simp only [h1, decide_false, Bool.false_and, Bool.xor_false, decide_true, Bool.true_and]
      cases wordBit l k <;> cases wordBit l i <;> rfl
    · rw [Equiv.swap_apply_of_ne_of_ne h1 h2]; simp [h1, h2]

theorem wordBit_ext {l m : List (BitVec 128)} (hl : l.length = m.length) (h : ∀ k, wordBit l k = wordBit m k) : l = m := by
  apply List.ext_getElem hl
  intro n h1 h2
  apply BitVec.eq_of_getLsbD_eq
  intro b hb
  have := h (128 * n + b)
  unfold wordBit at this
  rw [show (128 * n + b) / 128 = n by omega, show (128 * n + b) % 128 = b by omega] at this
  simpa [List.getD, List.getElem?_eq_getElem h1, List.getElem?_eq_getElem h2] using this

theorem wordBit_zipWith {f : BitVec 128 → BitVec 128 → BitVec 128} {g : Bool → Bool → Bool}
    (hf : ∀ x y k, k < 128 → (f x y).getLsbD k = g (x.getLsbD k) (y.getLsbD k)) (hg : g false false = false)
    {l m : List (BitVec 128)} (hl : l.length = m.length) (k : Nat) :
    wordBit (List.zipWith f l m) k = g (wordBit l k) (wordBit m k) := by
  unfold wordBit
  simp only [List.getD, List.getElem?_zipWith]
  by_cases h : k / 128 < l.length
  · rw [List.getElem?_eq_getElem h, List.getElem?_eq_getElem (hl ▸ h)]
    exact hf _ _ _ (Nat.mod_lt _ (by omega))
  · rw [List.getElem?_eq_none (by omega), List.getElem?_eq_none (by omega)]
    simp [hg]

/-- The loop of `permute` on one component. -/
def permC (G : Prg) : Nat → Nat → G.S → List (BitVec 128) → List (BitVec 128)
  | 0, _, _, l => l
  | n + 1, j, s, l => permC G n (j + 1) (G.genRange (n + 1) s).2 (swapBitC l (j + (G.genRange (n + 1) s).1) j)

/-- The permutation of positions it performs. -/
def permIdx (G : Prg) : Nat → Nat → G.S → Equiv.Perm Nat
  | 0, _, _ => 1
  | n + 1, j, s => Equiv.swap (j + (G.genRange (n + 1) s).1) j * permIdx G n (j + 1) (G.genRange (n + 1) s).2

theorem permC_length (n j : Nat) (s : G.S) (l : List (BitVec 128)) : (permC G n j s l).length = l.length := by
  induction n generalizing j s l with
  | zero => rfl
  | succ n ih => rw [permC, ih, swapBitC_length]

theorem wordBit_permC (n j : Nat) (s : G.S) (l : List (BitVec 128)) (h : n + j = 128 * l.length) (k : Nat) :
    wordBit (permC G n j s l) k = wordBit l (permIdx G n j s k) := by
  induction n generalizing j s l with
  | zero => rfl
  | succ n ih =>
    have hlt := G.genRange_lt (n + 1) s (by omega)
    rw [permC, ih _ _ _ (by rw [swapBitC_length]; omega), wordBit_swap _ (by omega) (by omega)]
    rfl

theorem permIdx_fix (n j : Nat) (s : G.S) (k : Nat) (h : n + j ≤ k) : permIdx G n j s k = k := by
  induction n generalizing j s with
  | zero => rfl
  | succ n ih =>
    have hlt := G.genRange_lt (n + 1) s (by omega)
    rw [permIdx, Equiv.Perm.mul_apply, ih _ _ (by omega), Equiv.swap_apply_of_ne_of_ne (by omega) (by omega)]

theorem zipWith_fst {α β : Type} {l : List α} {m : List β} (h : l.length = m.length) :
    List.zipWith (fun a _ => a) l m = l := by
  induction l generalizing m with
  | nil => rfl
  | cons x l ih => cases m with
    | nil => simp at h
    | cons y m => simp only [List.zipWith_cons_cons, ih (by simpa using h)]

theorem zipWith_snd {α β : Type} {l : List α} {m : List β} (h : l.length = m.length) :
    List.zipWith (fun _ b => b) l m = m := by
  induction l generalizing m with
  | nil => cases m with
    | nil => rfl
    | cons y m => simp at h
  | cons x l ih => cases m with
    | nil => simp at h
    | cons y m => simp only [List.zipWith_cons_cons, ih (by simpa using h)]

theorem mapLists_comp {f g : List (BitVec 128) → List (BitVec 128)} (hf : ∀ l, (f l).length = l.length)
    (a : List (AShare 128)) : AShare.mapLists g (AShare.mapLists f a) = AShare.mapLists (fun l => g (f l)) a := by
  unfold AShare.mapLists
  have h : (f (a.map (·.a))).length = (f (a.map (·.b))).length := by rw [hf, hf]; simp
  congr 2
  · rw [List.map_zipWith]
    exact zipWith_fst h
  · rw [List.map_zipWith]
    exact zipWith_snd h

theorem permuteLoop_eq (n j : Nat) (s : G.S) (a b c : List (AShare 128)) :
    permuteLoop G n j s (a, b, c) = (AShare.mapLists (permC G n j s) a, AShare.mapLists (permC G n j s) b,
      AShare.mapLists (permC G n j s) c) := by
  have hid : ∀ a : List (AShare 128), AShare.mapLists (fun l => l) a = a := by
    intro a
    unfold AShare.mapLists
    induction a with
    | nil => rfl
    | cons x a ih => simp only [List.map_cons, List.zipWith_cons_cons, ih]
  induction n generalizing j s a b c with
  | zero => simp only [permuteLoop]; rw [show permC G 0 j s = fun l => l from rfl, hid, hid, hid]
  | succ n ih =>
    rw [permuteLoop]
    rw [ih]
    simp only [swapBit]
    rw [mapLists_comp (fun l => swapBitC_length l _ _), mapLists_comp (fun l => swapBitC_length l _ _),
      mapLists_comp (fun l => swapBitC_length l _ _)]
    rfl

theorem permC_linear (n : Nat) (s : G.S) : XorLinear n (permC G (n * 128) 0 s) where
  len xs ys hx hy := by rw [permC_length, permC_length, hx, hy]
  xor xs ys hx hy := by
    apply wordBit_ext
    · simp [permC_length]
    · intro k
      rw [wordBit_permC _ _ _ _ (by simp [hx, hy]; omega),
        wordBit_zipWith (g := Bool.xor) (fun x y k _ => BitVec.getLsbD_xor) rfl (by rw [hx, hy]),
        wordBit_zipWith (g := Bool.xor) (fun x y k _ => BitVec.getLsbD_xor) rfl (by simp [permC_length, hx, hy]),
        wordBit_permC _ _ _ _ (by rw [hx]; omega), wordBit_permC _ _ _ _ (by rw [hy]; omega)]

theorem permC_and (n : Nat) (s : G.S) {xs ys : List (BitVec 128)} (hx : xs.length = n) (hy : ys.length = n) :
    permC G (n * 128) 0 s (List.zipWith (· &&& ·) xs ys) =
      List.zipWith (· &&& ·) (permC G (n * 128) 0 s xs) (permC G (n * 128) 0 s ys) := by
  apply wordBit_ext
  · simp [permC_length]
  · intro k
    rw [wordBit_permC _ _ _ _ (by simp [hx, hy]; omega),
      wordBit_zipWith (g := Bool.and) (fun x y k _ => BitVec.getLsbD_and) rfl (by rw [hx, hy]),
      wordBit_zipWith (g := Bool.and) (fun x y k _ => BitVec.getLsbD_and) rfl (by simp [permC_length, hx, hy]),
      wordBit_permC _ _ _ _ (by rw [hx]; omega), wordBit_permC _ _ _ _ (by rw [hy]; omega)]

/-- Valid triples stay valid. -/
theorem TriplesOf.perm {n : Nat} {a b c : Party → List (AShare 128)} (h : TriplesOf n a b c) (s : G.S) :
    TriplesOf n (fun i => AShare.mapLists (permC G (n * 128) 0 s) (a i))
      (fun i => AShare.mapLists (permC G (n * 128) 0 s) (b i)) (fun i => AShare.mapLists (permC G (n * 128) 0 s) (c i)) := by
  obtain ⟨xs, ys, hx, hy, ha, hb, hc⟩ := h
  refine ⟨permC G (n * 128) 0 s xs, permC G (n * 128) 0 s ys, by rw [permC_length, hx], by rw [permC_length, hy],
    BinSharesOf.mapLists (permC_linear n s) hx ha, BinSharesOf.mapLists (permC_linear n s) hy hb, ?_⟩
  rw [← permC_and n s hx hy]
  exact BinSharesOf.mapLists (permC_linear n s) (by simp [hx, hy]) hc

end Verif
