import Verif.Spec.App
import Verif.Spec.Sharing
import Verif.Spec.Swift3
import Verif.Spec.Spdz
import Verif.Proof.Bincode
import Verif.Proof.Aby3
import Verif.Props.Plain

/-! # The programs: lemmas -/

namespace Verif

/-! ## Raw bytes of iris code arrays -/

theorem leBytes_ofLe (bs : Bytes) : leBytes bs.length (ofLe bs) = bs := by
  induction bs with
  | nil => rfl
  | cons b bs ih =>
    simp only [List.length_cons, leBytes, ofLe]
    have hb := b.isLt
    congr 1
    · apply BitVec.eq_of_toNat_eq
      rw [BitVec.toNat_ofNat]; omega
    · rw [show (b.toNat + 256 * ofLe bs) / 256 = ofLe bs by omega, ih]

theorem ofLe_lt (bs : Bytes) : ofLe bs < 256 ^ bs.length := by
  induction bs with
  | nil => simp [ofLe]
  | cons b bs ih =>
    have hb := b.isLt
    simp only [ofLe, List.length_cons, pow_succ]
    omega

theorem getLsbD_leBytes (n v i : Nat) (h : i < 8 * n) :
    ∃ b, (leBytes n v)[i / 8]? = some b ∧ b.getLsbD (i % 8) = v.testBit i := by
  induction n generalizing v i with
  | zero => omega
  | succ n ih =>
    simp only [leBytes]
    by_cases hi : i < 8
    · refine ⟨BitVec.ofNat 8 v, by rw [show i / 8 = 0 by omega]; rfl, ?_⟩
      rw [BitVec.getLsbD_ofNat, Nat.mod_eq_of_lt hi, decide_eq_true hi, Bool.true_and]
    · obtain ⟨b, h1, h2⟩ := ih (v / 256) (i - 8) (by omega)
      refine ⟨b, ?_, ?_⟩
      · rw [show i / 8 = (i - 8) / 8 + 1 by omega, List.getElem?_cons_succ, h1]
      · rw [show i % 8 = (i - 8) % 8 by omega, h2, show 256 = 2 ^ 8 from rfl, Nat.testBit_div_two_pow]
        congr 1; omega

/-- Pieces of equal length: what `flatMap` puts at the position of piece `i`. -/
theorem drop_flatMap {α β : Type} {m : Nat} (f : α → List β) (hf : ∀ x, (f x).length = m) (xs : List α) (i : Nat)
    (h : i < xs.length) : ((xs.flatMap f).drop (m * i)).take m = f xs[i] := by
  induction xs generalizing i with
  | nil => simp at h
  | cons x xs ih =>
    rw [List.flatMap_cons]
    cases i with
    | zero => rw [Nat.mul_zero, List.drop_zero, List.take_left' (hf x)]; rfl
    | succ i =>
      rw [Nat.mul_succ, Nat.add_comm, List.drop_append, hf x, List.drop_eq_nil_of_le (by rw [hf x]; omega),
        List.nil_append, show m + m * i - m = m * i by omega, ih i (by simpa using h)]
      rfl

theorem flatten_pieces {β : Type} (m n : Nat) (l : List β) (h : l.length = m * n) :
    (List.ofFn fun i : Fin n => (l.drop (m * i.val)).take m).flatten = l := by
  induction n generalizing l with
  | zero =>
    have : l = [] := List.length_eq_zero_iff.1 (by simpa using h)
    rw [List.ofFn_zero, this]; rfl
  | succ n ih =>
    rw [List.ofFn_succ, List.flatten_cons]
    have hn : (l.drop m).length = m * n := by rw [List.length_drop, h, Nat.mul_succ]; omega
    have e : (fun i : Fin n => (l.drop (m * (i.succ : Fin (n + 1)).val)).take m) =
        fun i : Fin n => ((l.drop m).drop (m * i.val)).take m := by
      funext i
      rw [List.drop_drop, Fin.val_succ, Nat.mul_succ, Nat.add_comm]
    rw [e, ih _ hn]
    simp

namespace IrisCodeArray

theorem raw_length (c : IrisCodeArray) : c.raw.length = 1600 := by
  unfold raw
  rw [List.length_flatMap]
  simp only [leBytes_length]
  rw [List.map_const', List.sum_replicate, Vector.length_toList]; rfl

theorem ofRaw_raw (c : IrisCodeArray) : ofRaw c.raw = .ok c := by
  unfold ofRaw
  rw [if_neg (by rw [raw_length]; simp)]
  refine congrArg Except.ok ?_
  apply Vector.ext
  intro i hi
  rw [Vector.getElem_ofFn]
  unfold raw
  rw [drop_flatMap (fun w : BitVec 64 => leBytes 8 w.toNat) (fun w => leBytes_length 8 w.toNat) _ i (by rw [Vector.length_toList]; exact hi), ofLe_leBytes,
    Vector.getElem_toList, show 256 ^ 8 = 2 ^ 64 from by norm_num, Nat.mod_eq_of_lt (c[i]).isLt, BitVec.ofNat_toNat,
    BitVec.setWidth_eq]

theorem raw_ofRaw {bs : Bytes} (h : bs.length = 1600) : ∃ c, ofRaw bs = .ok c ∧ c.raw = bs := by
  unfold ofRaw
  rw [if_neg (by rw [h]; simp)]
  refine ⟨_, rfl, ?_⟩
  unfold raw
  rw [List.flatMap_def]
  conv_rhs => rw [← flatten_pieces 8 200 bs (by rw [h])]
  refine congrArg List.flatten ?_
  rw [← Vector.toList_map, Vector.map_ofFn, Vector.toList_ofFn]
  refine congrArg List.ofFn (funext fun i => ?_)
  have hl : ((bs.drop (8 * i.val)).take 8).length = 8 := by
    rw [List.length_take, List.length_drop, h]; have := i.isLt; omega
  have hlt := ofLe_lt ((bs.drop (8 * i.val)).take 8)
  rw [hl] at hlt
  show leBytes 8 (BitVec.ofNat 64 _).toNat = _
  rw [BitVec.toNat_ofNat, Nat.mod_eq_of_lt (lt_of_lt_of_eq hlt (by norm_num))]
  conv_lhs => rw [← hl]
  rw [hl]
  exact (congrArg (fun n => leBytes n (ofLe ((bs.drop (8 * i.val)).take 8))) hl).symm.trans (leBytes_ofLe _)

theorem ofRaw_short {bs : Bytes} (h : bs.length ≠ 1600) : ofRaw bs = .error .panic := by
  unfold ofRaw; rw [if_pos h]

/-- Bit `i` is bit `i % 8` of byte `i / 8`. -/
theorem raw_bit (c : IrisCodeArray) (i : Fin 12800) :
    ∃ b, c.raw[i.val / 8]? = some b ∧ b.getLsbD (i.val % 8) = c.bitAt i := by
  have hi : i.val / 64 < 200 := by omega
  obtain ⟨b, h1, h2⟩ := getLsbD_leBytes 8 (c[i.val / 64]'hi).toNat (i.val % 64) (by omega)
  refine ⟨b, ?_, ?_⟩
  · have := drop_flatMap (fun w : BitVec 64 => leBytes 8 w.toNat) (fun w => leBytes_length 8 w.toNat) c.toList (i.val / 64)
      (by rw [Vector.length_toList]; exact hi)
    rw [Vector.getElem_toList] at this
    rw [← this, List.getElem?_take_of_lt (by omega), List.getElem?_drop] at h1
    rw [← h1]; unfold raw; congr 1; omega
  · rw [show i.val % 8 = i.val % 64 % 8 by omega, h2]; rfl

end IrisCodeArray

/-! ## Random irises -/

variable {R : AppRng}

theorem after_add {S α : Type} (f : S → α × S) (m n : Nat) (s : S) : after f (m + n) s = after f n (after f m s) := by
  induction m generalizing s with
  | zero => rw [Nat.zero_add]; rfl
  | succ m ih => rw [Nat.succ_add]; exact ih (f s).2

namespace IrisCode

theorem thinLoop_succ (n i : Nat) (m : IrisCodeArray) (s : R.S) : thinLoop R (n + 1) i m s =
    (if (R.bern10 s).1 = true then m.setBit i false else .ok m) >>= fun m => thinLoop R n (i + 1) m (R.bern10 s).2 := by
  simp only [thinLoop]; split <;> rfl

theorem similarLoop_succ (n i : Nat) (c : IrisCode) (s : R.S) : similarLoop R (n + 1) i c s =
    (if (R.bern05 s).1 = true then c.code.flipBit i else .ok c.code) >>= fun code =>
      (if (R.bern05 (R.bern05 s).2).1 = true then c.mask.flipBit i else .ok c.mask) >>= fun mask =>
        similarLoop R n (i + 1) ⟨code, mask⟩ (R.bern05 (R.bern05 s).2).2 := by
  simp only [similarLoop]; split <;> split <;> rfl

theorem thinLoop_ok (n i : Nat) (h : i + n ≤ 12800) (m : IrisCodeArray) (s : R.S) :
    ∃ m', thinLoop R n i m s = .ok (m', after R.bern10 n s) ∧
      ∀ j : Fin 12800, m'.bitAt j =
        if i ≤ j.val ∧ j.val < i + n then m.bitAt j && !drawAt R.bern10 (j.val - i) s else m.bitAt j := by
  induction n generalizing i m s with
  | zero => exact ⟨m, rfl, fun j => by rw [if_neg (by omega)]⟩
  | succ n ih =>
    rw [thinLoop_succ]
    obtain ⟨m1, e1, b1⟩ : ∃ m1, (if (R.bern10 s).1 = true then m.setBit i false else .ok m) = .ok m1 ∧
        ∀ j : Fin 12800, m1.bitAt j = if j.val = i then m.bitAt j && !(R.bern10 s).1 else m.bitAt j := by
      cases hb : (R.bern10 s).1 with
      | false => exact ⟨m, rfl, fun j => by simp⟩
      | true =>
        obtain ⟨m1, e, b⟩ := C17_set_bit m ⟨i, by omega⟩ false
        refine ⟨m1, by rw [if_pos rfl]; exact e, fun j => ?_⟩
        rw [b j]
        by_cases hj : j.val = i
        · rw [if_pos hj, if_pos (Fin.ext hj)]; simp
        · rw [if_neg hj, if_neg (fun h => hj (by rw [h]))]
    rw [e1]
    obtain ⟨m', e2, b2⟩ := ih (i + 1) (by omega) m1 (R.bern10 s).2
    refine ⟨m', e2, fun j => ?_⟩
    rw [b2 j, b1 j]
    by_cases hj : j.val = i
    · rw [if_neg (by omega), if_pos hj, if_pos (by omega), hj, Nat.sub_self]; rfl
    · rw [if_neg hj]
      by_cases hj' : i + 1 ≤ j.val ∧ j.val < i + 1 + n
      · rw [if_pos hj', if_pos (by omega)]
        have : j.val - i = (j.val - (i + 1)) + 1 := by omega
        rw [this]; rfl
      · rw [if_neg hj', if_neg (by omega)]

theorem randomRng_ok (R : AppRng) (s : R.S) :
    ∃ c, randomRng R s = .ok (c, after R.bern10 12800 (R.fill s).2) ∧ c.code.raw = (R.fill s).1.toList ∧
      ∀ i : Fin 12800, c.mask.bitAt i = !drawAt R.bern10 i.val (R.fill s).2 := by
  obtain ⟨code, h1, h2⟩ := IrisCodeArray.raw_ofRaw (bs := (R.fill s).1.toList) (by simp)
  obtain ⟨mask, e, b⟩ := thinLoop_ok 12800 0 (by omega) IrisCodeArray.ones (R.fill s).2
  refine ⟨⟨code, mask⟩, ?_, h2, fun i => ?_⟩
  · unfold randomRng IrisCodeArray.randomRng
    simp only [h1, bind, Except.bind, pure, Except.pure, irisCodeSize, e]
  · rw [b i, if_pos (by have := i.isLt; omega), (C17_bitwise IrisCodeArray.zero IrisCodeArray.zero i).2.2.2]; simp

theorem flip_if (m : IrisCodeArray) (i : Nat) (hi : i < 12800) (b : Bool) :
    ∃ m1, (if b = true then m.flipBit i else .ok m) = .ok m1 ∧
      ∀ j : Fin 12800, m1.bitAt j = if j.val = i then m.bitAt j ^^ b else m.bitAt j := by
  cases b with
  | false => exact ⟨m, rfl, fun j => by simp⟩
  | true =>
    obtain ⟨m1, e, b⟩ := C17_flip_bit m ⟨i, hi⟩
    refine ⟨m1, by rw [if_pos rfl]; exact e, fun j => ?_⟩
    rw [b j]
    by_cases hj : j.val = i
    · rw [if_pos hj, if_pos (Fin.ext hj)]; simp
    · rw [if_neg hj, if_neg (fun h => hj (by rw [h]))]

theorem similarLoop_ok (n i : Nat) (h : i + n ≤ 12800) (c : IrisCode) (s : R.S) :
    ∃ c', similarLoop R n i c s = .ok (c', after R.bern05 (2 * n) s) ∧
      ∀ j : Fin 12800,
        (c'.code.bitAt j = if i ≤ j.val ∧ j.val < i + n then c.code.bitAt j ^^ drawAt R.bern05 (2 * (j.val - i)) s
          else c.code.bitAt j) ∧
        (c'.mask.bitAt j = if i ≤ j.val ∧ j.val < i + n then c.mask.bitAt j ^^ drawAt R.bern05 (2 * (j.val - i) + 1) s
          else c.mask.bitAt j) := by
  induction n generalizing i c s with
  | zero => exact ⟨c, rfl, fun j => by rw [if_neg (by omega), if_neg (by omega)]; exact ⟨rfl, rfl⟩⟩
  | succ n ih =>
    rw [similarLoop_succ]
    obtain ⟨c1, e1, b1⟩ := flip_if c.code i (by omega) (R.bern05 s).1
    obtain ⟨m1, e2, b2⟩ := flip_if c.mask i (by omega) (R.bern05 (R.bern05 s).2).1
    rw [e1, e2]
    obtain ⟨c', e3, b3⟩ := ih (i + 1) (by omega) ⟨c1, m1⟩ (R.bern05 (R.bern05 s).2).2
    refine ⟨c', e3, fun j => ?_⟩
    by_cases hj : j.val = i
    · have n1 : ¬ (i + 1 ≤ j.val ∧ j.val < i + 1 + n) := by omega
      have n2 : i ≤ j.val ∧ j.val < i + (n + 1) := by omega
      constructor
      · rw [(b3 j).1, b1 j, if_neg n1, if_pos hj, if_pos n2, hj, Nat.sub_self]; rfl
      · rw [(b3 j).2, b2 j, if_neg n1, if_pos hj, if_pos n2, hj, Nat.sub_self]; rfl
    · by_cases hj' : i + 1 ≤ j.val ∧ j.val < i + 1 + n
      · have n2 : i ≤ j.val ∧ j.val < i + (n + 1) := by omega
        have : 2 * (j.val - i) = (2 * (j.val - (i + 1))) + 1 + 1 := by omega
        constructor
        · rw [(b3 j).1, b1 j, if_pos hj', if_neg hj, if_pos n2, this]; rfl
        · rw [(b3 j).2, b2 j, if_pos hj', if_neg hj, if_pos n2, this]; rfl
      · have n2 : ¬ (i ≤ j.val ∧ j.val < i + (n + 1)) := by omega
        constructor
        · rw [(b3 j).1, b1 j, if_neg hj', if_neg hj, if_neg n2]
        · rw [(b3 j).2, b2 j, if_neg hj', if_neg hj, if_neg n2]

theorem similar_ok (R : AppRng) (c : IrisCode) (s : R.S) :
    ∃ c', c.similar R s = .ok (c', after R.bern05 25600 s) ∧
      ∀ i : Fin 12800, c'.code.bitAt i = (c.code.bitAt i ^^ drawAt R.bern05 (2 * i.val) s) ∧
        c'.mask.bitAt i = (c.mask.bitAt i ^^ drawAt R.bern05 (2 * i.val + 1) s) := by
  obtain ⟨c', e, b⟩ := similarLoop_ok 12800 0 (by omega) c s
  refine ⟨c', e, fun i => ?_⟩
  rw [(b i).1, (b i).2, if_pos (by have := i.isLt; omega), if_pos (by have := i.isLt; omega), Nat.sub_zero]
  exact ⟨rfl, rfl⟩

end IrisCode

/-! ## Loops with a generator -/

namespace App

theorem mapRng_ok {α β : Type} {P : α → β → Prop} {f : α → R.S → Except Err (β × R.S)} (xs : List α)
    (h : ∀ x ∈ xs, ∀ s, ∃ y s', f x s = .ok (y, s') ∧ P x y) (s : R.S) :
    ∃ ys s', mapRng f xs s = .ok (ys, s') ∧ List.Forall₂ P xs ys := by
  induction xs generalizing s with
  | nil => exact ⟨[], s, rfl, .nil⟩
  | cons x xs ih =>
    obtain ⟨y, s1, e1, p1⟩ := h x (by simp) s
    obtain ⟨ys, s2, e2, p2⟩ := ih (fun x hx => h x (by simp [hx])) s1
    refine ⟨y :: ys, s2, ?_, .cons p1 p2⟩
    simp only [mapRng, e1, e2, bind, Except.bind, pure, Except.pure]

/-- The same loop at three parties whose generators are in the same state. -/
theorem mapRng_rel {α β X : Type} {Q : X → (Party → β) → Prop} {g : α → X} {f : Party → α → R.S → Except Err (β × R.S)}
    (xs : List α) (h : ∀ x ∈ xs, ∀ s, ∃ y s', (∀ i, f i x s = .ok (y i, s')) ∧ Q (g x) y) (s : R.S) :
    ∃ ys s', (∀ i, mapRng (f i) xs s = .ok (ys i, s')) ∧ Rels Q (xs.map g) ys := by
  induction xs generalizing s with
  | nil => exact ⟨fun _ => [], s, fun _ => rfl, Rels.nil⟩
  | cons x xs ih =>
    obtain ⟨y, s1, e1, p1⟩ := h x (by simp) s
    obtain ⟨ys, s2, e2, p2⟩ := ih (fun x hx => h x (by simp [hx])) s1
    refine ⟨fun i => y i :: ys i, s2, fun i => ?_, Rels.cons p1 p2⟩
    simp only [mapRng, e1, e2, bind, Except.bind, pure, Except.pure]

theorem randomCodes_ok (n : Nat) (s : R.S) : ∃ cs s', randomCodes R n s = .ok (cs, s') ∧ cs.length = n := by
  induction n generalizing s with
  | zero => exact ⟨[], s, rfl, rfl⟩
  | succ n ih =>
    obtain ⟨c, e, -⟩ := IrisCode.randomRng_ok R s
    obtain ⟨cs, s', e2, h⟩ := ih (after R.bern10 12800 (R.fill s).2)
    refine ⟨c :: cs, s', ?_, by simp [h]⟩
    simp only [randomCodes, e, e2, bind, Except.bind, pure, Except.pure]

theorem readRows_ok {α β : Type} {f : α → Except Err β} {rs : List α} {xs : List β}
    (h : List.Forall₂ (fun r x => f r = .ok x) rs xs) : readRows f rs = .ok xs := by
  induction h with
  | nil => rfl
  | cons h _ ih => simp only [readRows, h, ih, bind, Except.bind, pure, Except.pure]

theorem readCode_raw (c : IrisCode) : readCode ⟨c.code.raw, c.mask.raw⟩ = .ok c := by
  unfold readCode
  simp only [IrisCodeArray.ofRaw_raw, bind, Except.bind, pure, Except.pure]

theorem readCodes_raw (cs : List IrisCode) : readCodes (cs.map fun c => ⟨c.code.raw, c.mask.raw⟩) = .ok cs := by
  induction cs with
  | nil => rfl
  | cons c cs ih =>
    simp only [List.map_cons, readCodes, readCode_raw, ih, bind, Except.bind, pure, Except.pure]

theorem queryIris_ok (R : AppRng) (seed : BitVec 64) (sm : Bool) (cs : List IrisCode) (hne : sm = true → cs ≠ []) :
    ∃ q s, queryIris R seed sm (cs.map fun c => ⟨c.code.raw, c.mask.raw⟩) = .ok (q, s) := by
  unfold queryIris
  cases sm with
  | false =>
    obtain ⟨c, e, -⟩ := IrisCode.randomRng_ok R (R.ofU64 seed)
    exact ⟨c, _, e⟩
  | true =>
    cases cs with
    | nil => exact absurd rfl (hne rfl)
    | cons c cs =>
      obtain ⟨c', e, -⟩ := IrisCode.similar_ok R c (R.ofU64 seed)
      refine ⟨c', after R.bern05 25600 (R.ofU64 seed), ?_⟩
      simp only [List.map_cons, List.head?_cons, readCode_raw, if_true, bind, Except.bind]
      exact e

/-! ## Common parts -/

theorem ofFn_range {α : Type} (n : Nat) (f : Fin n → α) (d : α) :
    List.ofFn f = (List.range n).map fun x => if h : x < n then f ⟨x, h⟩ else d := by
  apply List.ext_getElem
  · simp
  · intro i h1 h2
    rw [List.length_ofFn] at h1
    simp [h1]

/-- Bit `x` of a code, for the loop over `0..IRIS_CODE_SIZE`. -/
def bitNo (c : IrisCodeArray) (x : Nat) : Bool := if h : x < 12800 then c.bitAt ⟨x, h⟩ else false

theorem bitNo_get (c : IrisCodeArray) {x : Nat} (h : x ∈ List.range irisCodeSize) : c.getBit x = .ok (bitNo c x) := by
  have hx : x < 12800 := by simpa [irisCodeSize] using h
  rw [bitNo, dif_pos hx]
  exact C17_get_bit c ⟨x, hx⟩

theorem bitNo_range (c : IrisCodeArray) : (List.range irisCodeSize).map (bitNo c) = c.bitList := by
  unfold IrisCodeArray.bitList
  rw [ofFn_range 12800 c.bitAt false]
  rfl

theorem encode_ofBit (c : IrisCodeArray) : encode 16 c = c.bitList.map ofBit := rfl

theorem encode_ofBit64 (c : IrisCodeArray) : encode 64 c = c.bitList.map fun b => (ofBit b).setWidth 64 := by
  unfold encode
  refine List.map_congr_left fun b _ => ?_
  cases b <;> rfl

theorem bits_length (c : IrisCodeArray) : c.bitList.length = irisCodeSize := by
  unfold IrisCodeArray.bitList
  rw [List.length_ofFn]; rfl

theorem deserialize_list {K : Nat} (xs : List (BitVec K)) (h : xs.length = irisCodeSize) :
    Bincode.deserialize (List (BitVec K)) (Bincode.enc xs) = .ok xs := by
  refine LawfulBincode.deserialize_enc xs ⟨?_, fun _ _ => trivial⟩
  rw [h]; unfold irisCodeSize; omega

theorem forall₂_map_rel {α β X B : Type} {P : α → β → Prop} {Q : X → (Party → B) → Prop} {g : α → X} {f : β → Party → B}
    (hPQ : ∀ x y, P x y → Q (g x) (f y)) {xs : List α} {ys : List β} (h : List.Forall₂ P xs ys) :
    Rels Q (xs.map g) (fun i => ys.map fun y => f y i) := by
  induction h with
  | nil => exact Rels.nil
  | cons h _ ih => exact Rels.cons (hPQ _ _ h) ih

/-- What one row of a database must satisfy: codes and masks are those of `c`, and the parties read shares of it. -/
structure RowHolds {Row S X : Type} (cols : Row → CodeCols) (sel : Party → Row → Except Err (List S × IrisCodeArray))
    (Q : X → (Party → S) → Prop) (enc : IrisCodeArray → List X) (c : IrisCode) (r : Row) : Prop where
  plain : cols r = ⟨c.code.raw, c.mask.raw⟩
  read : ∃ sh, Rels Q (enc c.code) sh ∧ ∀ i, sel i r = .ok (sh i, c.mask)

theorem RowHolds.cols_eq {Row S X : Type} {cols : Row → CodeCols} {sel : Party → Row → Except Err (List S × IrisCodeArray)}
    {Q : X → (Party → S) → Prop} {enc : IrisCodeArray → List X} {cs : List IrisCode} {db : List Row}
    (h : List.Forall₂ (RowHolds cols sel Q enc) cs db) : db.map cols = cs.map fun c => ⟨c.code.raw, c.mask.raw⟩ := by
  induction h with
  | nil => rfl
  | cons h _ ih => rw [List.map_cons, List.map_cons, h.plain, ih]

theorem RowHolds.reads {Row S X : Type} {cols : Row → CodeCols} {sel : Party → Row → Except Err (List S × IrisCodeArray)}
    {Q : X → (Party → S) → Prop} {enc : IrisCodeArray → List X} {cs : List IrisCode} {db : List Row}
    (h : List.Forall₂ (RowHolds cols sel Q enc) cs db) :
    ∃ (rows : Party → List (List S × IrisCodeArray)), (∀ i, readRows (sel i) db = .ok (rows i)) ∧
      Rels (Rels Q) (cs.map fun c => enc c.code) (fun i => (rows i).map (·.1)) ∧
      ∀ i, (rows i).map (·.2) = cs.map fun c => c.mask := by
  induction h with
  | nil => exact ⟨fun _ => [], fun _ => rfl, Rels.nil, fun _ => rfl⟩
  | @cons c r cs db h _ ih =>
    obtain ⟨sh, h1, h2⟩ := h.read
    obtain ⟨rows, e, h3, h4⟩ := ih
    refine ⟨fun i => (sh i, c.mask) :: rows i, fun i => ?_, Rels.cons h1 h3, fun i => ?_⟩
    · simp only [readRows, h2, e, bind, Except.bind, pure, Except.pure]
    · rw [List.map_cons, h4]; rfl

/-! ## ABY3 -/

/-- The shares of the parties in the components pushed for one bit. -/
def abyParts (t : BitVec 16 × BitVec 16 × BitVec 16) (i : Party) : AShare 16 :=
  match i with
  | 0 => ⟨t.1, t.2.2⟩
  | 1 => ⟨t.2.1, t.1⟩
  | 2 => ⟨t.2.2, t.2.1⟩

theorem abyBit_ok (b : Bool) (s : R.S) : ∃ y s', abyBit R b s = .ok (y, s') ∧ SharesOf (ofBit b) (abyParts y) := by
  refine ⟨_, _, rfl, .mk' ?_ rfl rfl rfl⟩
  simp only [abyParts]; ring

/-- What party `i` reads of a row. -/
def abySel (i : Party) (r : AbyRow) : Except Err (List (AShare 16) × IrisCodeArray) :=
  (abyCols i.val).bind fun sel => abyReadRow sel r

/-- A row with the shares of an iris. -/
abbrev AbyHolds := RowHolds AbyRow.toCodeCols abySel SharesOf (encode 16)

theorem zipWith_cols {α β γ δ : Type} (f : α → β → γ) (g : δ → α) (h : δ → β) (l : List δ) :
    List.zipWith f (l.map g) (l.map h) = l.map fun x => f (g x) (h x) := by
  induction l with
  | nil => rfl
  | cons x l ih => simp only [List.map_cons, List.zipWith_cons_cons, ih]

theorem zip_cols {α β δ : Type} (g : δ → α) (h : δ → β) (l : List δ) :
    List.zip (l.map g) (l.map h) = l.map fun x => (g x, h x) := zipWith_cols Prod.mk g h l

theorem abyReadRow_ok (sel : AbyRow → Bytes × Bytes) {r : AbyRow} {m : IrisCodeArray} {a b : List (BitVec 16)}
    (hm : r.mask = m.raw) (ha : (sel r).1 = Bincode.enc a) (hb : (sel r).2 = Bincode.enc b) (la : a.length = irisCodeSize)
    (lb : b.length = irisCodeSize) : abyReadRow sel r = .ok (List.zipWith AShare.mk a b, m) := by
  unfold abyReadRow
  rw [hm, IrisCodeArray.ofRaw_raw, ha, hb, deserialize_list a la, deserialize_list b lb]
  simp only [bind, Except.bind]
  rw [if_neg (by rw [la, lb]; simp)]
  rfl

theorem abyRow_ok (c : IrisCode) (s : R.S) : ∃ r s', abyRow R c s = .ok (r, s') ∧ AbyHolds c r := by
  obtain ⟨cols, s', e, h⟩ := mapRng_ok (f := abyBit R) c.code.bits (fun b _ s => abyBit_ok b s) s
  have hl : cols.length = irisCodeSize := by rw [← h.length_eq, C17_bits, bits_length]
  refine ⟨_, s', by unfold abyRow; rw [e]; rfl, rfl, fun i => cols.map fun t => abyParts t i, ?_, fun i => ?_⟩
  · rw [encode_ofBit, ← C17_bits]
    exact forall₂_map_rel (P := fun b y => SharesOf (ofBit b) (abyParts y)) (fun _ _ h => h) h
  · match i with
    | 0 =>
      refine (abyReadRow_ok (fun r => (r.shareA, r.shareC)) (m := c.mask) (a := cols.map (·.1)) (b := cols.map (·.2.2)) rfl rfl rfl (by rw [List.length_map, hl]) (by rw [List.length_map, hl])).trans ?_
      rw [zipWith_cols]; rfl
    | 1 =>
      refine (abyReadRow_ok (fun r => (r.shareB, r.shareA)) (m := c.mask) (a := cols.map (·.2.1)) (b := cols.map (·.1)) rfl rfl rfl (by rw [List.length_map, hl]) (by rw [List.length_map, hl])).trans ?_
      rw [zipWith_cols]; rfl
    | 2 =>
      refine (abyReadRow_ok (fun r => (r.shareC, r.shareB)) (m := c.mask) (a := cols.map (·.2.2)) (b := cols.map (·.2.1)) rfl rfl rfl (by rw [List.length_map, hl]) (by rw [List.length_map, hl])).trans ?_
      rw [zipWith_cols]; rfl

theorem createAby3_ok (n : Nat) (s : R.S) (db : List AbyRow) :
    ∃ cs rows s', createAby3 R n s db = .ok (db ++ rows, s') ∧ cs.length = n ∧ List.Forall₂ AbyHolds cs rows ∧
      ∃ s'', randomCodes R n s = .ok (cs, s'') := by
  obtain ⟨cs, s1, e1, hl⟩ := randomCodes_ok n s
  obtain ⟨rows, s2, e2, h⟩ := mapRng_ok (f := abyRow R) cs (fun c _ s => abyRow_ok c s) s1
  refine ⟨cs, rows, s2, ?_, hl, h, s1, e1⟩
  unfold createAby3
  simp only [e1, e2, bind, Except.bind, pure, Except.pure]

theorem Aby3Db.holds {db : List AbyRow} (h : Aby3Db R db) : ∃ cs, List.Forall₂ AbyHolds cs db := by
  induction h with
  | empty => exact ⟨[], .nil⟩
  | @create n s s' db db' _ hc ih =>
    obtain ⟨cs, h⟩ := ih
    obtain ⟨cs', rows, s'', e, -, h', -⟩ := createAby3_ok n s db
    rw [hc] at e
    obtain ⟨rfl, -⟩ := Prod.mk.inj (Except.ok.inj e)
    exact ⟨cs ++ cs', List.rel_append h h'⟩

theorem readAby3_ok {cs : List IrisCode} {db : List AbyRow} (h : List.Forall₂ AbyHolds cs db) :
    ∃ sh : Party → List (List (AShare 16)), (∀ i : Party, readAby3 i.val db = .ok (sh i, cs.map fun c => c.mask)) ∧
      Rels (Rels SharesOf) (cs.map fun c => encode 16 c.code) sh := by
  obtain ⟨rows, e, h1, h2⟩ := RowHolds.reads h
  refine ⟨_, fun i => ?_, h1⟩
  obtain ⟨sel, hsel⟩ : ∃ sel, abyCols i.val = .ok sel := by
    match i with
    | 0 => exact ⟨_, rfl⟩
    | 1 => exact ⟨_, rfl⟩
    | 2 => exact ⟨_, rfl⟩
  have e' : readRows (abyReadRow sel) db = .ok (rows i) := by
    rw [← e i]; congr 1; funext r; unfold abySel; rw [hsel]; rfl
  unfold readAby3
  simp only [hsel, e', bind, Except.bind, pure, Except.pure, h2]

theorem abyIris_ok (c : IrisCodeArray) (s : R.S) :
    ∃ sh s', (∀ i : Party, mapRng (abyIrisBit R i.val c) (List.range irisCodeSize) s = .ok (sh i, s')) ∧
      Rels SharesOf (encode 16 c) sh := by
  obtain ⟨sh, s', e, h⟩ := mapRng_rel (Q := SharesOf) (g := fun x => ofBit (bitNo c x))
    (f := fun i : Party => abyIrisBit R i.val c) (List.range irisCodeSize) (by
      intro x hx s
      refine ⟨abyParts ((R.gen 16 s).1, (R.gen 16 (R.gen 16 s).2).1,
        ofBit (bitNo c x) - (R.gen 16 s).1 - (R.gen 16 (R.gen 16 s).2).1), (R.gen 16 (R.gen 16 s).2).2, fun i => ?_,
        .mk' ?_ rfl rfl rfl⟩
      · unfold abyIrisBit
        rw [bitNo_get c hx]
        match i with
        | 0 => rfl
        | 1 => rfl
        | 2 => rfl
      · simp only [abyParts]; ring) s
  refine ⟨sh, s', e, ?_⟩
  rw [encode_ofBit, ← bitNo_range, List.map_map]
  exact h

theorem irisShareAby3_ok {db : List AbyRow} {seed : BitVec 64}
    {sm : Bool} {q : IrisCode} {s : R.S} (hq : queryIris R seed sm (db.map (·.toCodeCols)) = .ok (q, s)) :
    ∃ sh : Party → List (AShare 16), (∀ i : Party, irisShareAby3 R seed sm i.val db = .ok (sh i, q.mask)) ∧
      Rels SharesOf (encode 16 q.code) sh := by
  obtain ⟨sh, s', e, hr⟩ := abyIris_ok q.code s
  refine ⟨sh, fun i => ?_, hr⟩
  unfold irisShareAby3
  simp only [hq, IrisCodeArray.ofRaw_raw, e, bind, Except.bind, pure, Except.pure]

/-! ## Swift3 -/

/-- The shares of the parties in the components pushed for one bit. -/
def swift3Parts (t : BitVec 16 × BitVec 16 × BitVec 16 × BitVec 16) (i : Party) : S3Share 16 :=
  match i with
  | 0 => ⟨t.1, t.2.2.1, t.2.2.2⟩
  | 1 => ⟨t.2.1, t.1, t.2.2.2⟩
  | 2 => ⟨t.2.2.1, t.2.1, t.2.2.2⟩

theorem s3_mk {K : Nat} {x : BitVec K} {s : Party → S3Share K} (hc : ∀ i, (s i).c = x + (s 0).a + (s 1).a + (s 2).a)
    (h0 : (s 0).b = (s 2).a) (h1 : (s 1).b = (s 0).a) (h2 : (s 2).b = (s 1).a) : S3SharesOf x s :=
  ⟨hc, fun i => match i with | 0 => h0 | 1 => h1 | 2 => h2⟩

theorem swift3Bit_ok (b : Bool) (s : R.S) :
    ∃ y s', swift3Bit R b s = .ok (y, s') ∧ S3SharesOf (ofBit b) (swift3Parts y) := by
  refine ⟨_, _, rfl, s3_mk (fun i => ?_) rfl rfl rfl⟩
  match i with
  | 0 => rfl
  | 1 => rfl
  | 2 => rfl

/-- What party `i` reads of a row. -/
def swift3Sel (i : Party) (r : Swift3Row) : Except Err (List (S3Share 16) × IrisCodeArray) :=
  (swift3Cols i.val).bind fun sel => swift3ReadRow sel r

/-- A row with the shares of an iris. -/
abbrev Swift3Holds := RowHolds Swift3Row.toCodeCols swift3Sel S3SharesOf (encode 16)

theorem swift3ReadRow_ok (sel : Swift3Row → Bytes × Bytes × Bytes) {r : Swift3Row} {m : IrisCodeArray}
    {a b c : List (BitVec 16)} (hm : r.mask = m.raw) (ha : (sel r).1 = Bincode.enc a) (hb : (sel r).2.1 = Bincode.enc b)
    (hc : (sel r).2.2 = Bincode.enc c) (la : a.length = irisCodeSize) (lb : b.length = irisCodeSize)
    (lc : c.length = irisCodeSize) : swift3ReadRow sel r =
      .ok (List.zipWith (fun (p : BitVec 16 × BitVec 16) c => S3Share.mk p.1 p.2 c) (a.zip b) c, m) := by
  unfold swift3ReadRow
  rw [hm, IrisCodeArray.ofRaw_raw, ha, hb, hc, deserialize_list a la, deserialize_list b lb, deserialize_list c lc]
  simp only [bind, Except.bind]
  rw [if_neg (by rw [la, lb, lc]; simp)]
  rfl

theorem swift3Row_ok (c : IrisCode) (s : R.S) : ∃ r s', swift3Row R c s = .ok (r, s') ∧ Swift3Holds c r := by
  obtain ⟨cols, s', e, h⟩ := mapRng_ok (f := swift3Bit R) c.code.bits (fun b _ s => swift3Bit_ok b s) s
  have hl : cols.length = irisCodeSize := by rw [← h.length_eq, C17_bits, bits_length]
  refine ⟨_, s', by unfold swift3Row; rw [e]; rfl, rfl, fun i => cols.map fun t => swift3Parts t i, ?_, fun i => ?_⟩
  · rw [encode_ofBit, ← C17_bits]
    exact forall₂_map_rel (P := fun b y => S3SharesOf (ofBit b) (swift3Parts y)) (fun _ _ h => h) h
  · match i with
    | 0 =>
      refine (swift3ReadRow_ok (fun r => (r.shareA, r.shareC, r.shareD)) (m := c.mask) (a := cols.map (·.1)) (b := cols.map (·.2.2.1)) (c := cols.map (·.2.2.2)) rfl rfl rfl rfl (by rw [List.length_map, hl]) (by rw [List.length_map, hl]) (by rw [List.length_map, hl])).trans ?_
      rw [zip_cols, zipWith_cols]; rfl
    | 1 =>
      refine (swift3ReadRow_ok (fun r => (r.shareB, r.shareA, r.shareD)) (m := c.mask) (a := cols.map (·.2.1)) (b := cols.map (·.1)) (c := cols.map (·.2.2.2)) rfl rfl rfl rfl (by rw [List.length_map, hl]) (by rw [List.length_map, hl]) (by rw [List.length_map, hl])).trans ?_
      rw [zip_cols, zipWith_cols]; rfl
    | 2 =>
      refine (swift3ReadRow_ok (fun r => (r.shareC, r.shareB, r.shareD)) (m := c.mask) (a := cols.map (·.2.2.1)) (b := cols.map (·.2.1)) (c := cols.map (·.2.2.2)) rfl rfl rfl rfl (by rw [List.length_map, hl]) (by rw [List.length_map, hl]) (by rw [List.length_map, hl])).trans ?_
      rw [zip_cols, zipWith_cols]; rfl

theorem createSwift3_ok (n : Nat) (s : R.S) (db : List Swift3Row) :
    ∃ cs rows s', createSwift3 R n s db = .ok (db ++ rows, s') ∧ cs.length = n ∧ List.Forall₂ Swift3Holds cs rows ∧
      ∃ s'', randomCodes R n s = .ok (cs, s'') := by
  obtain ⟨cs, s1, e1, hl⟩ := randomCodes_ok n s
  obtain ⟨rows, s2, e2, h⟩ := mapRng_ok (f := swift3Row R) cs (fun c _ s => swift3Row_ok c s) s1
  refine ⟨cs, rows, s2, ?_, hl, h, s1, e1⟩
  unfold createSwift3
  simp only [e1, e2, bind, Except.bind, pure, Except.pure]

theorem Swift3Db.holds {db : List Swift3Row} (h : Swift3Db R db) : ∃ cs, List.Forall₂ Swift3Holds cs db := by
  induction h with
  | empty => exact ⟨[], .nil⟩
  | @create n s s' db db' _ hc ih =>
    obtain ⟨cs, h⟩ := ih
    obtain ⟨cs', rows, s'', e, -, h', -⟩ := createSwift3_ok n s db
    rw [hc] at e
    obtain ⟨rfl, -⟩ := Prod.mk.inj (Except.ok.inj e)
    exact ⟨cs ++ cs', List.rel_append h h'⟩

theorem readSwift3_ok {cs : List IrisCode} {db : List Swift3Row} (h : List.Forall₂ Swift3Holds cs db) :
    ∃ sh : Party → List (List (S3Share 16)), (∀ i : Party, readSwift3 i.val db = .ok (sh i, cs.map fun c => c.mask)) ∧
      Rels (Rels S3SharesOf) (cs.map fun c => encode 16 c.code) sh := by
  obtain ⟨rows, e, h1, h2⟩ := RowHolds.reads h
  refine ⟨_, fun i => ?_, h1⟩
  obtain ⟨sel, hsel⟩ : ∃ sel, swift3Cols i.val = .ok sel := by
    match i with
    | 0 => exact ⟨_, rfl⟩
    | 1 => exact ⟨_, rfl⟩
    | 2 => exact ⟨_, rfl⟩
  have e' : readRows (swift3ReadRow sel) db = .ok (rows i) := by
    rw [← e i]; congr 1; funext r; unfold swift3Sel; rw [hsel]; rfl
  unfold readSwift3
  simp only [hsel, e', bind, Except.bind, pure, Except.pure, h2]

theorem swift3Iris_ok (c : IrisCodeArray) (s : R.S) :
    ∃ sh s', (∀ i : Party, mapRng (swift3IrisBit R i.val c) (List.range irisCodeSize) s = .ok (sh i, s')) ∧
      Rels S3SharesOf (encode 16 c) sh := by
  obtain ⟨sh, s', e, h⟩ := mapRng_rel (Q := S3SharesOf) (g := fun x => ofBit (bitNo c x))
    (f := fun i : Party => swift3IrisBit R i.val c) (List.range irisCodeSize) (by
      intro x hx s
      refine ⟨swift3Parts ((R.gen 16 s).1, (R.gen 16 (R.gen 16 s).2).1, (R.gen 16 (R.gen 16 (R.gen 16 s).2).2).1,
        ofBit (bitNo c x) + (R.gen 16 s).1 + (R.gen 16 (R.gen 16 s).2).1 + (R.gen 16 (R.gen 16 (R.gen 16 s).2).2).1),
        (R.gen 16 (R.gen 16 (R.gen 16 s).2).2).2, fun i => ?_, s3_mk (fun i => ?_) rfl rfl rfl⟩
      · unfold swift3IrisBit
        rw [bitNo_get c hx]
        match i with
        | 0 => rfl
        | 1 => rfl
        | 2 => rfl
      · match i with
        | 0 => rfl
        | 1 => rfl
        | 2 => rfl) s
  refine ⟨sh, s', e, ?_⟩
  rw [encode_ofBit, ← bitNo_range, List.map_map]
  exact h

theorem irisShareSwift3_ok {db : List Swift3Row} {seed : BitVec 64} {sm : Bool} {q : IrisCode} {s : R.S}
    (hq : queryIris R seed sm (db.map (·.toCodeCols)) = .ok (q, s)) :
    ∃ sh : Party → List (S3Share 16), (∀ i : Party, irisShareSwift3 R seed sm i.val db = .ok (sh i, q.mask)) ∧
      Rels S3SharesOf (encode 16 q.code) sh := by
  obtain ⟨sh, s', e, hr⟩ := swift3Iris_ok q.code s
  refine ⟨sh, fun i => ?_, hr⟩
  unfold irisShareSwift3
  simp only [hq, IrisCodeArray.ofRaw_raw, e, bind, Except.bind, pure, Except.pure]

/-! ## SPDZ-wise -/

/-- The shares of the parties in the components pushed for one bit. -/
def spdzParts (t : SpdzCells) (i : Party) : SShare 64 :=
  match i with
  | 0 => ⟨⟨t.v1, t.v3⟩, ⟨t.m1, t.m3⟩⟩
  | 1 => ⟨⟨t.v2, t.v1⟩, ⟨t.m2, t.m1⟩⟩
  | 2 => ⟨⟨t.v3, t.v2⟩, ⟨t.m3, t.m2⟩⟩

theorem spdzBit_ok (key : BitVec 64) (b : Bool) (s : R.S) :
    ∃ y s', spdzBit R key b s = .ok (y, s') ∧ MacSharesOf key ((ofBit b).setWidth 64) (spdzParts y) := by
  refine ⟨_, _, rfl, .mk' ?_ rfl rfl rfl, .mk' ?_ rfl rfl rfl⟩
  · simp only [spdzParts, toVerif]; ring
  · simp only [spdzParts, toVerif]; ring

/-- What party `i` reads of a row. -/
def spdzSel (i : Party) (r : SpdzRow) : Except Err (List (SShare 64) × IrisCodeArray) :=
  (spdzCols i.val).bind fun sel => spdzReadRow sel r

/-- A row with the shares of an iris. -/
abbrev SpdzHolds (key : BitVec 64) := RowHolds SpdzRow.toCodeCols spdzSel (MacSharesOf key) (encode 64)

theorem spdzReadRow_ok (sel : SpdzRow → Bytes × Bytes × Bytes × Bytes) {r : SpdzRow} {m : IrisCodeArray}
    {a b c d : List (BitVec 64)} (hm : r.mask = m.raw) (ha : (sel r).1 = Bincode.enc a)
    (hc : (sel r).2.1 = Bincode.enc c) (hb : (sel r).2.2.1 = Bincode.enc b) (hd : (sel r).2.2.2 = Bincode.enc d)
    (la : a.length = irisCodeSize) (lb : b.length = irisCodeSize)
    (lc : c.length = irisCodeSize) (ld : d.length = irisCodeSize) : spdzReadRow sel r =
      .ok (List.zipWith (fun (p q : BitVec 64 × BitVec 64) => SShare.mk ⟨p.1, p.2⟩ ⟨q.1, q.2⟩) (a.zip b) (c.zip d), m) := by
  unfold spdzReadRow
  rw [hm, IrisCodeArray.ofRaw_raw, ha, hb, hc, hd, deserialize_list a la, deserialize_list b lb, deserialize_list c lc,
    deserialize_list d ld]
  simp only [bind, Except.bind]
  rw [if_neg (by rw [la, lb, lc, ld]; simp)]
  rfl

theorem spdzRow_ok (key : BitVec 64) (c : IrisCode) (s : R.S) :
    ∃ r s', spdzRow R key c s = .ok (r, s') ∧ SpdzHolds key c r := by
  obtain ⟨cols, s', e, h⟩ := mapRng_ok (f := spdzBit R key) c.code.bits (fun b _ s => spdzBit_ok key b s) s
  have hl : cols.length = irisCodeSize := by rw [← h.length_eq, C17_bits, bits_length]
  refine ⟨_, s', by unfold spdzRow; rw [e]; rfl, rfl, fun i => cols.map fun t => spdzParts t i, ?_, fun i => ?_⟩
  · rw [encode_ofBit64, ← C17_bits]
    exact forall₂_map_rel (P := fun b y => MacSharesOf key ((ofBit b).setWidth 64) (spdzParts y)) (fun _ _ h => h) h
  · match i with
    | 0 =>
      refine (spdzReadRow_ok (fun r => (r.shareA, r.macA, r.shareC, r.macC)) (m := c.mask) (a := cols.map (·.v1)) (b := cols.map (·.v3)) (c := cols.map (·.m1)) (d := cols.map (·.m3)) rfl rfl rfl rfl rfl (by rw [List.length_map, hl]) (by rw [List.length_map, hl]) (by rw [List.length_map, hl]) (by rw [List.length_map, hl])).trans ?_
      rw [zip_cols, zip_cols, zipWith_cols]; rfl
    | 1 =>
      refine (spdzReadRow_ok (fun r => (r.shareB, r.macB, r.shareA, r.macA)) (m := c.mask) (a := cols.map (·.v2)) (b := cols.map (·.v1)) (c := cols.map (·.m2)) (d := cols.map (·.m1)) rfl rfl rfl rfl rfl (by rw [List.length_map, hl]) (by rw [List.length_map, hl]) (by rw [List.length_map, hl]) (by rw [List.length_map, hl])).trans ?_
      rw [zip_cols, zip_cols, zipWith_cols]; rfl
    | 2 =>
      refine (spdzReadRow_ok (fun r => (r.shareC, r.macC, r.shareB, r.macB)) (m := c.mask) (a := cols.map (·.v3)) (b := cols.map (·.v2)) (c := cols.map (·.m3)) (d := cols.map (·.m2)) rfl rfl rfl rfl rfl (by rw [List.length_map, hl]) (by rw [List.length_map, hl]) (by rw [List.length_map, hl]) (by rw [List.length_map, hl])).trans ?_
      rw [zip_cols, zip_cols, zipWith_cols]; rfl

/-- The row of a key. -/
def keyRow (key a b : BitVec 64) : KeyRow :=
  ⟨Bincode.enc key, Bincode.enc a, Bincode.enc b, Bincode.enc (key - a - b)⟩

/-- The shares of a key in its row. -/
def keyParts (key a b : BitVec 64) (i : Party) : AShare 64 :=
  match i with
  | 0 => ⟨a, key - a - b⟩
  | 1 => ⟨b, a⟩
  | 2 => ⟨key - a - b, b⟩

theorem keyParts_ok (key a b : BitVec 64) : SharesOf key (keyParts key a b) := by
  refine .mk' ?_ rfl rfl rfl
  simp only [keyParts]; ring

theorem createSpdz_ok (n : Nat) (s : R.S) (db : SpdzDb) :
    ∃ key a b cs rows s', createSpdz R n s db = .ok (⟨db.keys ++ [keyRow key a b], db.rows ++ rows⟩, s') ∧
      cs.length = n ∧ List.Forall₂ (SpdzHolds key) cs rows ∧
      (∃ s'', randomCodes R n (R.gen 64 s).2 = .ok (cs, s'')) ∧ key = (R.gen 64 s).1 := by
  obtain ⟨cs, s1, e1, hl⟩ := randomCodes_ok n (R.gen 64 s).2
  obtain ⟨rows, s2, e2, h⟩ := mapRng_ok (f := spdzRow R (R.gen 64 s).1) cs (fun c _ s => spdzRow_ok _ c s)
    (R.gen 64 (R.gen 64 s1).2).2
  refine ⟨(R.gen 64 s).1, (R.gen 64 s1).1, (R.gen 64 (R.gen 64 s1).2).1, cs, rows, s2, ?_, hl, h, ⟨s1, e1⟩, rfl⟩
  unfold createSpdz
  simp only [e1, bind, Except.bind, pure, Except.pure]
  show Except.bind (mapRng (spdzRow R (R.gen 64 s).1) cs (R.gen 64 (R.gen 64 s1).2).2) _ = _
  rw [e2]
  rfl

theorem deserialize_bv {K : Nat} (x : BitVec K) : Bincode.deserialize (BitVec K) (Bincode.enc x) = .ok x :=
  LawfulBincode.deserialize_enc x trivial

theorem readSpdz_ok {key a b : BitVec 64} {cs : List IrisCode} {rows : List SpdzRow}
    (h : List.Forall₂ (SpdzHolds key) cs rows) :
    ∃ sh : Party → List (List (SShare 64)),
      (∀ i : Party, readSpdz i.val ⟨[keyRow key a b], rows⟩ =
        .ok ⟨sh i, cs.map fun c => c.mask, key, ⟨AShare.zero 64, keyParts key a b i⟩⟩) ∧
      Rels (Rels (MacSharesOf key)) (cs.map fun c => encode 64 c.code) sh := by
  obtain ⟨rs, e, h1, h2⟩ := RowHolds.reads h
  refine ⟨_, fun i => ?_, h1⟩
  obtain ⟨sel, hsel⟩ : ∃ sel, spdzCols i.val = .ok sel := by
    match i with
    | 0 => exact ⟨_, rfl⟩
    | 1 => exact ⟨_, rfl⟩
    | 2 => exact ⟨_, rfl⟩
  obtain ⟨ksel, hk, k1, k2⟩ : ∃ ksel, keyCols i.val = .ok ksel ∧
      (ksel (keyRow key a b)).1 = Bincode.enc (keyParts key a b i).a ∧
      (ksel (keyRow key a b)).2 = Bincode.enc (keyParts key a b i).b := by
    match i with
    | 0 => exact ⟨_, rfl, rfl, rfl⟩
    | 1 => exact ⟨_, rfl, rfl, rfl⟩
    | 2 => exact ⟨_, rfl, rfl, rfl⟩
  have k3 : (keyRow key a b).key = Bincode.enc key := rfl
  have e' : readRows (spdzReadRow sel) rows = .ok (rs i) := by
    rw [← e i]; congr 1; funext r; unfold spdzSel; rw [hsel]; rfl
  unfold readSpdz
  simp only [hsel, hk, k1, k2, k3, deserialize_bv, e', bind, Except.bind, pure, Except.pure, h2]
  rw [if_neg (by simp)]

theorem spdzIris_ok (key : BitVec 64) (c : IrisCodeArray) (s : R.S) :
    ∃ sh s', (∀ i : Party, mapRng (spdzIrisBit R key i.val c) (List.range irisCodeSize) s = .ok (sh i, s')) ∧
      Rels (MacSharesOf key) (encode 64 c) sh := by
  obtain ⟨sh, s', e, h⟩ := mapRng_rel (Q := MacSharesOf key) (g := fun x => (ofBit (bitNo c x)).setWidth 64)
    (f := fun i : Party => spdzIrisBit R key i.val c) (List.range irisCodeSize) (by
      intro x hx s
      obtain ⟨y, s', e, h⟩ := spdzBit_ok key (bitNo c x) s
      refine ⟨spdzParts y, s', fun i => ?_, h⟩
      obtain ⟨e1, e2⟩ := Prod.mk.inj (Except.ok.inj e)
      subst e1 e2
      unfold spdzIrisBit
      rw [bitNo_get c hx]
      match i with
      | 0 => rfl
      | 1 => rfl
      | 2 => rfl) s
  refine ⟨sh, s', e, ?_⟩
  rw [encode_ofBit64, ← bitNo_range, List.map_map]
  exact h

theorem irisShareSpdz_ok {key : BitVec 64} {db : SpdzDb}
    {seed : BitVec 64} {sm : Bool} {q : IrisCode} {s : R.S}
    (hq : queryIris R seed sm (db.rows.map (·.toCodeCols)) = .ok (q, s)) :
    ∃ sh : Party → List (SShare 64), (∀ i : Party, irisShareSpdz R seed sm i.val db key = .ok (sh i, q.mask)) ∧
      Rels (MacSharesOf key) (encode 64 q.code) sh := by
  obtain ⟨sh, s', e, hr⟩ := spdzIris_ok key q.code s
  refine ⟨sh, fun i => ?_, hr⟩
  unfold irisShareSpdz
  simp only [hq, IrisCodeArray.ofRaw_raw, e, bind, Except.bind, pure, Except.pure]

end App

end Verif
