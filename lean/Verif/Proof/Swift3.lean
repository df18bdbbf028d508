import Verif.Spec.Swift3
import Verif.Proof.MalAby3Iris

/-! # Swift3: local operations on shares -/

namespace Verif

variable {K L : Nat}

namespace S3SharesOf

variable {x y : BitVec K} {s t : Party → S3Share K}

theorem b_eq (h : S3SharesOf x s) : (s 0).b = (s 2).a ∧ (s 1).b = (s 0).a ∧ (s 2).b = (s 1).a := forall_party.1 h.2

theorem c_eq (h : S3SharesOf x s) : (s 0).c = x + (s 0).a + (s 1).a + (s 2).a ∧
    (s 1).c = x + (s 0).a + (s 1).a + (s 2).a ∧ (s 2).c = x + (s 0).a + (s 1).a + (s 2).a := forall_party.1 h.1

theorem mk' (h0 : (s 0).c = x + (s 0).a + (s 1).a + (s 2).a) (h1 : (s 1).c = x + (s 0).a + (s 1).a + (s 2).a)
    (h2 : (s 2).c = x + (s 0).a + (s 1).a + (s 2).a) (k0 : (s 0).b = (s 2).a) (k1 : (s 1).b = (s 0).a)
    (k2 : (s 2).b = (s 1).a) : S3SharesOf x s := ⟨forall_party.2 ⟨h0, h1, h2⟩, forall_party.2 ⟨k0, k1, k2⟩⟩

theorem zero : S3SharesOf (0 : BitVec K) (fun _ => S3Share.zero K) :=
  ⟨fun _ => by simp [S3Share.zero], fun _ => rfl⟩

theorem add (h : S3SharesOf x s) (h' : S3SharesOf y t) : S3SharesOf (x + y) (fun i => (s i).add (t i)) := by
  refine ⟨fun i => ?_, fun i => by simp only [S3Share.add, h.2, h'.2]⟩
  simp only [S3Share.add, h.1 i, h'.1 i]; ring

theorem sub (h : S3SharesOf x s) (h' : S3SharesOf y t) : S3SharesOf (x - y) (fun i => (s i).sub (t i)) := by
  refine ⟨fun i => ?_, fun i => by simp only [S3Share.sub, h.2, h'.2]⟩
  simp only [S3Share.sub, h.1 i, h'.1 i]; ring

theorem neg (h : S3SharesOf x s) : S3SharesOf (-x) (fun i => (s i).neg) := by
  refine ⟨fun i => ?_, fun i => by simp only [S3Share.neg, h.2]⟩
  simp only [S3Share.neg, h.1 i]; ring

theorem mulConst (h : S3SharesOf x s) (c : BitVec K) : S3SharesOf (x * c) (fun i => (s i).mulConst c) := by
  refine ⟨fun i => ?_, fun i => by simp only [S3Share.mulConst, h.2]⟩
  simp only [S3Share.mulConst, h.1 i]; ring

theorem addConst (h : S3SharesOf x s) (c : BitVec K) : S3SharesOf (x + c) (fun i => (s i).addConst c) := by
  refine ⟨fun i => ?_, fun i => by simp only [S3Share.addConst, h.2]⟩
  simp only [S3Share.addConst, h.1 i]; ring

theorem subConst (h : S3SharesOf x s) (c : BitVec K) : S3SharesOf (x - c) (fun i => (s i).subConst c) := by
  refine ⟨fun i => ?_, fun i => by simp only [S3Share.subConst, h.2]⟩
  simp only [S3Share.subConst, h.1 i]; ring

theorem toAby (h : S3SharesOf x s) : SharesOf ((s 0).a + (s 1).a + (s 2).a) (fun i => (s i).toAby) :=
  ⟨rfl, fun i => h.2 i⟩

end S3SharesOf

namespace S3BinSharesOf

variable {x y : BitVec K} {s t : Party → S3Share K}

theorem b_eq (h : S3BinSharesOf x s) : (s 0).b = (s 2).a ∧ (s 1).b = (s 0).a ∧ (s 2).b = (s 1).a :=
  forall_party.1 h.2

theorem mk' (h0 : (s 0).c = x ^^^ (s 0).a ^^^ (s 1).a ^^^ (s 2).a) (h1 : (s 1).c = x ^^^ (s 0).a ^^^ (s 1).a ^^^ (s 2).a)
    (h2 : (s 2).c = x ^^^ (s 0).a ^^^ (s 1).a ^^^ (s 2).a) (k0 : (s 0).b = (s 2).a) (k1 : (s 1).b = (s 0).a)
    (k2 : (s 2).b = (s 1).a) : S3BinSharesOf x s := ⟨forall_party.2 ⟨h0, h1, h2⟩, forall_party.2 ⟨k0, k1, k2⟩⟩

theorem zero : S3BinSharesOf (0 : BitVec K) (fun _ => S3Share.zero K) :=
  ⟨fun _ => by simp [S3Share.zero], fun _ => rfl⟩

theorem xor (h : S3BinSharesOf x s) (h' : S3BinSharesOf y t) : S3BinSharesOf (x ^^^ y) (fun i => (s i).xor (t i)) := by
  refine ⟨fun i => ?_, fun i => by simp only [S3Share.xor, h.2, h'.2]⟩
  simp only [S3Share.xor, h.1 i, h'.1 i]; bitwise

theorem andConst (h : S3BinSharesOf x s) (c : BitVec K) : S3BinSharesOf (x &&& c) (fun i => (s i).andConst c) := by
  refine ⟨fun i => ?_, fun i => by simp only [S3Share.andConst, h.2]⟩
  simp only [S3Share.andConst, h.1 i]; bitwise

theorem ringShl_xor (x y : BitVec K) (n : Nat) : ringShl (x ^^^ y) n = ringShl x n ^^^ ringShl y n := by
  unfold ringShl
  split
  · split <;> simp
  · rw [BitVec.shiftLeft_xor_distrib]

theorem shl (h : S3BinSharesOf x s) (n : Nat) : S3BinSharesOf (ringShl x n) (fun i => (s i).shl n) := by
  refine ⟨fun i => ?_, fun i => by simp only [S3Share.shl, h.2]⟩
  simp only [S3Share.shl, h.1 i, ringShl_xor]

theorem getMsb (hK : 0 < K) (h : S3BinSharesOf x s) : S3BinSharesOf (bitOf x.msb) (fun i => (s i).getMsb) := by
  refine ⟨fun i => ?_, fun i => by simp only [S3Share.getMsb, h.2]⟩
  simp only [S3Share.getMsb, Verif.getMsb_eq hK, bitOf_xor, h.1 i, BitVec.msb_xor]

/-- All components complemented: the secret is the same as before. -/
theorem not (h : S3BinSharesOf x s) : S3BinSharesOf x (fun i => (s i).not) := by
  refine ⟨fun i => ?_, fun i => by simp only [S3Share.not, h.2]⟩
  simp only [S3Share.not, h.1 i]
  apply BitVec.eq_of_getLsbD_eq
  intro j hj
  simp only [BitVec.getLsbD_xor, BitVec.getLsbD_not, hj, decide_true, Bool.true_and]
  grind

theorem toAby (h : S3BinSharesOf x s) : BinSharesOf ((s 0).a ^^^ (s 1).a ^^^ (s 2).a) (fun i => (s i).toAby) :=
  ⟨rfl, fun i => h.2 i⟩

/-- The sharing determines the secret. -/
theorem unique (h : S3BinSharesOf x s) (h' : S3BinSharesOf y s) : x = y := by
  have e : x ^^^ ((s 0).a ^^^ (s 1).a ^^^ (s 2).a) = y ^^^ ((s 0).a ^^^ (s 1).a ^^^ (s 2).a) := by
    have := (h.1 0).symm.trans (h'.1 0)
    simpa [BitVec.xor_assoc] using this
  calc x = x ^^^ ((s 0).a ^^^ (s 1).a ^^^ (s 2).a) ^^^ ((s 0).a ^^^ (s 1).a ^^^ (s 2).a) := by simp [BitVec.xor_assoc]
    _ = y := by rw [e]; simp [BitVec.xor_assoc]

/-- XOR-linear rearrangements act on binary shares. -/
theorem mapLists {n : Nat} {f : List (BitVec K) → List (BitVec L)} {xs : List (BitVec K)}
    {a : Party → List (S3Share K)} (hf : XorLinear n f) (hn : xs.length = n)
    (h : Rels S3BinSharesOf xs a) : Rels S3BinSharesOf (f xs) (fun i => S3Share.mapLists f (a i)) := by
  obtain ⟨js, hjs, rfl⟩ := h
  have hlen : js.length = n := by rw [← hjs.length_eq, hn]
  have hA : ∀ i : Party, (js.map fun s => (s i).a).length = n := fun i => by simpa using hlen
  have hb : ∀ i : Party, (js.map fun s => (s i).b) = js.map fun s => (s i.prev).a := by
    intro i
    clear hn hlen hA
    induction hjs with
    | nil => rfl
    | cons hx _ ih => simp only [List.map_cons, ih]; congr 1; exact hx.2 i
  have hc : ∀ i : Party, (js.map fun s => (s i).c) = List.zipWith (· ^^^ ·) (List.zipWith (· ^^^ ·)
      (List.zipWith (· ^^^ ·) xs (js.map fun s => (s 0).a)) (js.map fun s => (s 1).a)) (js.map fun s => (s 2).a) := by
    intro i
    clear hn hlen hA hb
    induction hjs with
    | nil => rfl
    | cons hx _ ih => simp only [List.map_cons, List.zipWith_cons_cons]; rw [← ih]; congr 1; exact hx.1 i
  have hfc : ∀ i : Party, f (js.map fun s => (s i).c) = List.zipWith (· ^^^ ·) (List.zipWith (· ^^^ ·)
      (List.zipWith (· ^^^ ·) (f xs) (f (js.map fun s => (s 0).a))) (f (js.map fun s => (s 1).a)))
      (f (js.map fun s => (s 2).a)) := by
    intro i
    rw [hc i, hf.xor _ _ _ (hA 2), hf.xor _ _ _ (hA 1), hf.xor _ _ hn (hA 0)]
    · simp [hn, hlen]
    · simp [hn, hlen]
  have l0 : ∀ i : Party, (f (js.map fun s => (s i).a)).length = (f xs).length := fun i => hf.len _ _ (hA i) hn
  have hm : ∀ i : Party, S3Share.mapLists f (js.map fun s => s i) = List.zipWith
      (fun a (p : BitVec L × BitVec L) => ⟨a, p.1, p.2⟩) (f (js.map fun s => (s i).a))
      ((f (js.map fun s => (s i.prev).a)).zip (List.zipWith (· ^^^ ·) (List.zipWith (· ^^^ ·)
      (List.zipWith (· ^^^ ·) (f xs) (f (js.map fun s => (s 0).a))) (f (js.map fun s => (s 1).a)))
      (f (js.map fun s => (s 2).a)))) := by
    intro i
    simp only [S3Share.mapLists, List.map_map, Function.comp_def, hb, hfc]
  simp only [hm]
  apply Rels.of_get?
  · intro i; simp [l0]
  intro m y hy
  have hlt : m < (f xs).length := by rw [List.getElem?_eq_some_iff] at hy; exact hy.1
  rw [List.getElem?_eq_some_iff] at hy
  obtain ⟨hm', hy⟩ := hy
  let α : Party → BitVec L := fun i => (f (js.map fun s => (s i).a))[m]'(by rw [l0]; exact hlt)
  refine ⟨fun i => ⟨α i, α i.prev, y ^^^ α 0 ^^^ α 1 ^^^ α 2⟩, ⟨fun _ => rfl, fun _ => rfl⟩, fun i => ?_⟩
  rw [List.getElem?_eq_getElem (by simp [l0, hlt])]
  simp only [List.getElem_zipWith, List.getElem_zip, hy]
  rfl

end S3BinSharesOf

end Verif
