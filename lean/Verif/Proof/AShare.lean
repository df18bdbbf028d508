import Verif.Spec.Sharing
import Verif.Proof.MsbAdder

/-! # Lemmas on replicated shares, zero shares and resharing -/

namespace Verif

variable {σ : Type} {K L : Nat} {G : Prg}

theorem forall_party {P : Party → Prop} : (∀ i, P i) ↔ P 0 ∧ P 1 ∧ P 2 := by
  refine ⟨fun h => ⟨h 0, h 1, h 2⟩, fun h i => ?_⟩
  match i with
  | 0 => exact h.1
  | 1 => exact h.2.1
  | 2 => exact h.2.2

theorem party_ext {α : Type} {f g : Party → α} (h0 : f 0 = g 0) (h1 : f 1 = g 1) (h2 : f 2 = g 2) : f = g :=
  funext (forall_party.2 ⟨h0, h1, h2⟩)

@[simp] theorem Party.prev_zero : Party.prev 0 = 2 := rfl
@[simp] theorem Party.prev_one : Party.prev 1 = 0 := rfl
@[simp] theorem Party.prev_two : Party.prev 2 = 1 := rfl
@[simp] theorem Party.next_zero : Party.next 0 = 1 := rfl
@[simp] theorem Party.next_one : Party.next 1 = 2 := rfl
@[simp] theorem Party.next_two : Party.next 2 = 0 := rfl
@[simp] theorem Party.next_prev (i : Party) : i.prev.next = i := by
  match i with | 0 => rfl | 1 => rfl | 2 => rfl
@[simp] theorem Party.prev_next (i : Party) : i.next.prev = i := by
  match i with | 0 => rfl | 1 => rfl | 2 => rfl

/-- Three components that add up to `x`. -/
def SumsTo (x : BitVec K) (c : Party → BitVec K) : Prop := c 0 + c 1 + c 2 = x

/-- Three components whose exclusive or is `x`. -/
def XorsTo (x : BitVec K) (c : Party → BitVec K) : Prop := c 0 ^^^ c 1 ^^^ c 2 = x

theorem SumsTo.shares {x : BitVec K} {c : Party → BitVec K} (h : SumsTo x c) :
    SharesOf x (fun i => ⟨c i, c i.prev⟩) := ⟨h, fun _ => rfl⟩

theorem XorsTo.shares {x : BitVec K} {c : Party → BitVec K} (h : XorsTo x c) :
    BinSharesOf x (fun i => ⟨c i, c i.prev⟩) := ⟨h, fun _ => rfl⟩

theorem Rels.reshare {X D : Type} {R : X → (Party → BitVec K) → Prop} {S : X → (Party → D) → Prop}
    {mk : BitVec K → BitVec K → D}
    (hRS : ∀ x c, R x c → S x (fun i => mk (c i) (c (Party.prev i)))) {xs : List X} {cs : Party → List (BitVec K)}
    (h : Rels R xs cs) : Rels S xs (fun i => List.zipWith mk (cs i) (cs i.prev)) := by
  induction xs generalizing cs with
  | nil =>
    rw [h.eq_nil]; exact Rels.nil
  | cons x xs ih =>
    obtain ⟨c, cs', hc, h', rfl⟩ := h.uncons
    exact Rels.cons (hRS _ _ hc) (ih h')

/-! ## Share arithmetic -/

namespace SharesOf

variable {x y : BitVec K} {s t : Party → AShare K}

theorem b_eq (h : SharesOf x s) : (s 0).b = (s 2).a ∧ (s 1).b = (s 0).a ∧ (s 2).b = (s 1).a :=
  forall_party.1 h.2

theorem mk' (h : (s 0).a + (s 1).a + (s 2).a = x) (h0 : (s 0).b = (s 2).a) (h1 : (s 1).b = (s 0).a)
    (h2 : (s 2).b = (s 1).a) : SharesOf x s := ⟨h, forall_party.2 ⟨h0, h1, h2⟩⟩

theorem zero : SharesOf (0 : BitVec K) (fun _ => AShare.zero K) := ⟨by simp [AShare.zero], fun _ => rfl⟩

theorem add (h : SharesOf x s) (h' : SharesOf y t) : SharesOf (x + y) (fun i => (s i).add (t i)) := by
  refine ⟨?_, fun i => by simp only [AShare.add, h.2, h'.2]⟩
  rw [← h.1, ← h'.1]; simp only [AShare.add]; ring

theorem sub (h : SharesOf x s) (h' : SharesOf y t) : SharesOf (x - y) (fun i => (s i).sub (t i)) := by
  refine ⟨?_, fun i => by simp only [AShare.sub, h.2, h'.2]⟩
  rw [← h.1, ← h'.1]; simp only [AShare.sub]; ring

theorem neg (h : SharesOf x s) : SharesOf (-x) (fun i => (s i).neg) := by
  refine ⟨?_, fun i => by simp only [AShare.neg, h.2]⟩
  rw [← h.1]; simp only [AShare.neg]; ring

theorem mulConst (h : SharesOf x s) (c : BitVec K) : SharesOf (x * c) (fun i => (s i).mulConst c) := by
  refine ⟨?_, fun i => by simp only [AShare.mulConst, h.2]⟩
  rw [← h.1]; simp only [AShare.mulConst]; ring

theorem addConst (h : SharesOf x s) (c : BitVec K) : SharesOf (x + c) (fun i => (s i).addConst c i) := by
  obtain ⟨h0, h1, h2⟩ := h.b_eq
  refine mk' ?_ ?_ ?_ ?_
  · rw [← h.1]; simp only [AShare.addConst]; ring
  all_goals simp only [AShare.addConst, h0, h1, h2]

theorem subConst (h : SharesOf x s) (c : BitVec K) : SharesOf (x - c) (fun i => (s i).subConst c i) := by
  obtain ⟨h0, h1, h2⟩ := h.b_eq
  refine mk' ?_ ?_ ?_ ?_
  · rw [← h.1]; simp only [AShare.subConst]; ring
  all_goals simp only [AShare.subConst, h0, h1, h2]

theorem mulLocal (h : SharesOf x s) (h' : SharesOf y t) :
    SumsTo (x * y) (fun i => ((s i).mulLocal (t i)).a) := by
  obtain ⟨h0, h1, h2⟩ := h.b_eq
  obtain ⟨k0, k1, k2⟩ := h'.b_eq
  rw [SumsTo, ← h.1, ← h'.1]
  simp only [AShare.mulLocal, h0, h1, h2, k0, k1, k2]
  ring

/-- What `open` computes: own two components and the missing one. -/
theorem open_eq (h : SharesOf x s) (i : Party) : (s i).a + (s i).b + (s i.prev).b = x := by
  obtain ⟨h0, h1, h2⟩ := h.b_eq
  rw [← h.1]
  match i with
  | 0 => simp only [Party.prev_zero, h0, h2]; ring
  | 1 => simp only [Party.prev_one, h1, h0]; ring
  | 2 => simp only [Party.prev_two, h1, h2]; ring

end SharesOf

/-- Decide an identity between exclusive ors (and ANDs) bit by bit. -/
macro "bitwise" : tactic =>
  `(tactic| (apply BitVec.eq_of_getLsbD_eq; intro j _; simp only [BitVec.getLsbD_xor, BitVec.getLsbD_and, BitVec.getLsbD_not]; first | grind | simp [Bool.xor_assoc, Bool.xor_left_comm, Bool.xor_comm]))

namespace BinSharesOf

variable {x y : BitVec K} {s t : Party → AShare K}

theorem b_eq (h : BinSharesOf x s) : (s 0).b = (s 2).a ∧ (s 1).b = (s 0).a ∧ (s 2).b = (s 1).a :=
  forall_party.1 h.2

theorem mk' (h : (s 0).a ^^^ (s 1).a ^^^ (s 2).a = x) (h0 : (s 0).b = (s 2).a) (h1 : (s 1).b = (s 0).a)
    (h2 : (s 2).b = (s 1).a) : BinSharesOf x s := ⟨h, forall_party.2 ⟨h0, h1, h2⟩⟩

theorem zero : BinSharesOf (0 : BitVec K) (fun _ => AShare.zero K) := ⟨by simp [AShare.zero], fun _ => rfl⟩

theorem xor (h : BinSharesOf x s) (h' : BinSharesOf y t) : BinSharesOf (x ^^^ y) (fun i => (s i).xor (t i)) := by
  refine ⟨?_, fun i => by simp only [AShare.xor, h.2, h'.2]⟩
  rw [← h.1, ← h'.1]; simp only [AShare.xor]; bitwise

theorem xorConst (h : BinSharesOf x s) (c : BitVec K) : BinSharesOf (x ^^^ c) (fun i => (s i).xorConst c i) := by
  obtain ⟨h0, h1, h2⟩ := h.b_eq
  refine mk' ?_ ?_ ?_ ?_
  · rw [← h.1]; simp only [AShare.xorConst]; bitwise
  all_goals simp only [AShare.xorConst, h0, h1, h2]

theorem andConst (h : BinSharesOf x s) (c : BitVec K) : BinSharesOf (x &&& c) (fun i => (s i).andConst c) := by
  refine ⟨?_, fun i => by simp only [AShare.andConst, h.2]⟩
  rw [← h.1]; simp only [AShare.andConst]; bitwise

theorem not (h : BinSharesOf x s) : BinSharesOf (~~~x) (fun i => (s i).not) := by
  refine ⟨?_, fun i => by simp only [AShare.not, h.2]⟩
  rw [← h.1]; simp only [AShare.not]
  apply BitVec.eq_of_getLsbD_eq
  intro j hj
  simp only [BitVec.getLsbD_xor, BitVec.getLsbD_not, hj, decide_true, Bool.true_and]
  grind

theorem andLocal (h : BinSharesOf x s) (h' : BinSharesOf y t) :
    XorsTo (x &&& y) (fun i => ((s i).andLocal (t i)).a) := by
  obtain ⟨h0, h1, h2⟩ := h.b_eq
  obtain ⟨k0, k1, k2⟩ := h'.b_eq
  rw [XorsTo, ← h.1, ← h'.1]
  simp only [AShare.andLocal, h0, h1, h2, k0, k1, k2]
  bitwise

theorem open_eq (h : BinSharesOf x s) (i : Party) : (s i).a ^^^ (s i).b ^^^ (s i.prev).b = x := by
  obtain ⟨h0, h1, h2⟩ := h.b_eq
  rw [← h.1]
  match i with
  | 0 => simp only [Party.prev_zero, h0, h2]; bitwise
  | 1 => simp only [Party.prev_one, h1, h0]; bitwise
  | 2 => simp only [Party.prev_two, h1, h2]; bitwise

theorem shl (h : BinSharesOf x s) (n : Nat) : BinSharesOf (ringShl x n) (fun i => (s i).shl n) := by
  refine ⟨?_, fun i => by simp only [AShare.shl, h.2]⟩
  rw [← h.1]; simp only [AShare.shl]
  unfold ringShl
  split
  · split <;> simp
  · rw [BitVec.shiftLeft_xor_distrib, BitVec.shiftLeft_xor_distrib]

end BinSharesOf

/-- XOR-linear rearrangements act on binary shares. -/
theorem BinSharesOf.mapLists {n : Nat} {f : List (BitVec K) → List (BitVec L)} {xs : List (BitVec K)}
    {a : Party → List (AShare K)} (hf : XorLinear n f) (hn : xs.length = n)
    (h : Rels BinSharesOf xs a) : Rels BinSharesOf (f xs) (fun i => AShare.mapLists f (a i)) := by
  obtain ⟨js, hjs, rfl⟩ := h
  have hlen : js.length = n := by rw [← hjs.length_eq, hn]
  have hA : ∀ i : Party, (js.map fun s => (s i).a).length = n := fun i => by simpa using hlen
  have hx : xs = List.zipWith (· ^^^ ·) (List.zipWith (· ^^^ ·) (js.map fun s => (s 0).a)
      (js.map fun s => (s 1).a)) (js.map fun s => (s 2).a) := by
    clear hn hlen hA
    induction hjs with
    | nil => rfl
    | cons hx _ ih => simp only [List.map_cons, List.zipWith_cons_cons]; rw [← ih]; congr 1; exact hx.1.symm
  have hb : ∀ i : Party, (js.map fun s => (s i).b) = js.map fun s => (s i.prev).a := by
    intro i
    clear hn hlen hA hx
    induction hjs with
    | nil => rfl
    | cons hx _ ih => simp only [List.map_cons, ih]; congr 1; exact hx.2 i
  have hl01 : (List.zipWith (· ^^^ ·) (js.map fun s => (s 0).a) (js.map fun s => (s 1).a)).length = n := by
    simpa using hlen
  have hfx : f xs = List.zipWith (· ^^^ ·) (List.zipWith (· ^^^ ·) (f (js.map fun s => (s 0).a))
      (f (js.map fun s => (s 1).a))) (f (js.map fun s => (s 2).a)) := by
    rw [hx, hf.xor _ _ hl01 (hA 2), hf.xor _ _ (hA 0) (hA 1)]
  have key : Rels XorsTo (f xs) (fun i => f (js.map fun s => (s i).a)) := by
    have l0 : ∀ i : Party, (f (js.map fun s => (s i).a)).length = (f xs).length := fun i =>
      hf.len _ _ (hA i) hn
    apply Rels.of_get? l0
    intro m y hy
    have hm : m < (f xs).length := by
      rw [List.getElem?_eq_some_iff] at hy; exact hy.1
    refine ⟨fun i => (f (js.map fun s => (s i).a))[m]'(by rw [l0]; exact hm), ?_, fun i =>
      List.getElem?_eq_getElem _⟩
    rw [List.getElem?_eq_some_iff] at hy
    obtain ⟨hm', hy⟩ := hy
    rw [XorsTo, ← hy]
    simp only [hfx, List.getElem_zipWith]
  have h2 := Rels.reshare (mk := AShare.mk) (S := BinSharesOf) (fun _ _ h => h.shares) key
  have e : (fun i => AShare.mapLists f (js.map fun s => s i))
      = fun i : Party => List.zipWith AShare.mk (f (js.map fun s => (s i).a)) (f (js.map fun s => (s i.prev).a)) := by
    funext i
    simp only [AShare.mapLists, List.map_map, Function.comp_def, hb]
  rw [e]
  exact h2

/-! ## Zero shares -/

theorem PrfOk.genRands (K : Nat) {p : Party → Prf G} (h : PrfOk p) :
    PrfOk (fun i => ((p i).genRands K).2) ∧
      ∀ i, (((p i).genRands K).1).2 = (((p i.prev).genRands K).1).1 := by
  refine ⟨fun i => ?_, fun i => ?_⟩ <;> simp only [Prf.genRands, h i]

theorem PrfOk.genZero (K : Nat) {p : Party → Prf G} (h : PrfOk p) :
    PrfOk (fun i => ((p i).genZeroShare K).2) ∧ SumsTo 0 (fun i => ((p i).genZeroShare K).1) := by
  obtain ⟨h1, h2⟩ := h.genRands K
  refine ⟨h1, ?_⟩
  have e0 := h2 0
  have e1 := h2 1
  have e2 := h2 2
  simp only [Party.prev_zero, Party.prev_one, Party.prev_two] at e0 e1 e2
  simp only [SumsTo, Prf.genZeroShare, e0, e1, e2]
  ring

theorem PrfOk.genBinZero (K : Nat) {p : Party → Prf G} (h : PrfOk p) :
    PrfOk (fun i => ((p i).genBinaryZeroShare K).2) ∧ XorsTo 0 (fun i => ((p i).genBinaryZeroShare K).1) := by
  obtain ⟨h1, h2⟩ := h.genRands K
  refine ⟨h1, ?_⟩
  have e0 := h2 0
  have e1 := h2 1
  have e2 := h2 2
  simp only [Party.prev_zero, Party.prev_one, Party.prev_two] at e0 e1 e2
  simp only [XorsTo, Prf.genBinaryZeroShare, e0, e1, e2]
  bitwise

/-! ## Exchanges -/

theorem WP.sendAndReceive {m : Party → Bytes} {Q : (Party → Bytes) → Prop} (h : Q (fun i => m i.prev)) :
    WP (fun i => sendAndReceive i (m i)) Q :=
  WP.ring (k := fun _ => .ret) (WP.ret h)

theorem WP.ofExcept {α : Type} {r : Party → Except Err α} {a : Party → α} {Q : (Party → α) → Prop}
    (hr : ∀ i, r i = .ok (a i)) (h : Q a) : WP (fun i => Prog.ofExcept (r i)) Q := by
  have : r = fun i => .ok (a i) := funext hr
  subst this
  exact WP.ret h

theorem WP.exchangeValue {x : Party → BitVec K} {Q : (Party → BitVec K) → Prop} (h : Q (fun i => x i.prev)) :
    WP (fun i => sendAndReceiveValue i (x i)) Q := by
  unfold sendAndReceiveValue
  exact WP.bind (WP.sendAndReceive (WP.ofExcept (fun i => fromBytes_toBytes _) h))

theorem WP.exchangeSlice {x : Party → List (BitVec K)} {Q : (Party → List (BitVec K)) → Prop}
    (hl : ∀ i, (x i).length = (x i.prev).length) (h : Q (fun i => x i.prev)) :
    WP (fun i => sendSliceAndReceiveIter i (x i)) Q := by
  unfold sendSliceAndReceiveIter
  refine WP.bind (WP.sendAndReceive (WP.ofExcept (fun i => ?_) h))
  rw [hl i]; exact ringIterFromBytes_roundtrip _

theorem WP.exchangeVec {x : Party → List (BitVec K)} {Q : (Party → List (BitVec K)) → Prop}
    (hl : ∀ i, (x i).length = (x i.prev).length) (h : Q (fun i => x i.prev)) :
    WP (fun i => sendSliceAndReceiveVec i (x i)) Q := by
  unfold sendSliceAndReceiveVec
  refine WP.bind (WP.sendAndReceive (WP.ofExcept (fun i => ?_) h))
  rw [hl i]; exact ringVecFromBytes_roundtrip _

theorem Rels.length_prev {X B : Type} {R : X → (Party → B) → Prop} {xs : List X} {ls : Party → List B}
    (h : Rels R xs ls) (i : Party) : (ls i).length = (ls i.prev).length := by
  rw [h.length, h.length]

end Verif
