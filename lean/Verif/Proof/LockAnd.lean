import Verif.Proof.LockTriple
import Verif.Proof.MsbAdder

/-!
# Couplings, and the AND gate

`Cpl i n p Q`: there are two injective maps on tapes of `n` bits, one for each world, such that party `i` sees the same
messages in both worlds when the tapes are the images of the same tape.
-/

namespace Verif

open Jmp MalAby3

variable {f : Bytes → List Bool} {α β : Type} {i : Party} {K V : Nat}

/-- See the head of this file. -/
def Cpl (i : Party) (n : Nat) (p : Bool → Party → Proto (JmpSt (idealPrg f)) α) (Q : (Bool → Party → α) → Prop) : Prop :=
  ∀ st, Twin i st → ∃ φ : Bool → List Bool → List Bool, (∀ w u, u.length = n → (φ w u).length = n) ∧
    (∀ w u u', u.length = n → u'.length = n → φ w u = φ w u' → u = u') ∧
    ∀ u, u.length = n → Lock i (fun w => φ w u) p st fun a t => Q a ∧ Twin i t

namespace Cpl

variable {n m : Nat}

theorem mono {p : Bool → Party → Proto (JmpSt (idealPrg f)) α} {Q Q' : (Bool → Party → α) → Prop} (h : Cpl i n p Q)
    (hQ : ∀ a, Q a → Q' a) : Cpl i n p Q' := by
  intro st hst
  obtain ⟨φ, h1, h2, h3⟩ := h st hst
  exact ⟨φ, h1, h2, fun u hu => (h3 u hu).mono fun a t h => ⟨hQ a h.1, h.2⟩⟩

theorem congr {p q : Bool → Party → Proto (JmpSt (idealPrg f)) α} {Q : (Bool → Party → α) → Prop}
    (hpq : ∀ w j, p w j = q w j) (h : Cpl i n q Q) : Cpl i n p Q := by
  rwa [show p = q from funext fun w => funext fun j => hpq w j]

theorem pure {a : Bool → Party → α} {Q : (Bool → Party → α) → Prop} (h : Q a) :
    Cpl i 0 (fun w j => (Pure.pure (a w j) : Proto (JmpSt (idealPrg f)) α)) Q := by
  intro st hst
  refine ⟨fun _ _ => [], fun _ _ _ => rfl, fun _ u u' hu hu' _ => ?_, fun u _ => Lock.pure (a := a) ⟨h, hst⟩⟩
  rw [List.length_eq_zero_iff.1 hu, List.length_eq_zero_iff.1 hu']

theorem lift {x : Bool → Party → Except Err α} {a : Bool → Party → α} {Q : (Bool → Party → α) → Prop}
    (hx : ∀ w j, x w j = .ok (a w j)) (h : Q a) :
    Cpl i 0 (fun w j => (Proto.lift (x w j) : Proto (JmpSt (idealPrg f)) α)) Q :=
  congr (q := fun w j => (Pure.pure (a w j) : Proto (JmpSt (idealPrg f)) α)) (fun w j => by rw [hx]; rfl) (pure h)

theorem ite_neg {c : Bool → Party → Prop} [∀ w k, Decidable (c w k)] {p q : Bool → Party → Proto (JmpSt (idealPrg f)) α}
    {Q : (Bool → Party → α) → Prop} (hc : ∀ w k, ¬ c w k) (h : Cpl i n q Q) :
    Cpl i n (fun w k => if c w k then p w k else q w k) Q :=
  congr (fun w k => if_neg (hc w k)) h

theorem bind {p : Bool → Party → Proto (JmpSt (idealPrg f)) α} {k : Bool → Party → α → Proto (JmpSt (idealPrg f)) β}
    {Q : (Bool → Party → α) → Prop} {Q' : (Bool → Party → β) → Prop} (h : Cpl i n p Q)
    (hk : ∀ a, Q a → Cpl i m (fun w j => k w j (a w j)) Q') : Cpl i (n + m) (fun w j => p w j >>= k w j) Q' := by
  intro st hst
  obtain ⟨φ, h1, h2, h3⟩ := h st hst
  choose l a t r1 r2 r3 r4 using h3
  have key : ∀ u (hu : u.length = n), ∃ ψ : Bool → List Bool → List Bool, (∀ w u, u.length = m → (ψ w u).length = m) ∧
    (∀ w u u', u.length = m → u'.length = m → ψ w u = ψ w u' → u = u') ∧
    ∀ u', u'.length = m → Lock i (fun w => ψ w u') (fun w j => k w j (a u hu w j)) (t u hu) fun a t => Q' a ∧ Twin i t :=
    fun u hu => hk _ (r3 u hu) _ (r4 u hu)
  choose ψ k1 k2 k3 using key
  have ht : ∀ u : List Bool, u.length = n + m → (u.take n).length = n := fun u hu => by rw [List.length_take, hu]; omega
  have hd : ∀ u : List Bool, u.length = n + m → (u.drop n).length = m := fun u hu => by rw [List.length_drop, hu]; omega
  refine ⟨fun w u => if hu : u.length = n + m then φ w (u.take n) ++ ψ (u.take n) (ht u hu) w (u.drop n) else [], ?_, ?_, ?_⟩
  · intro w u hu
    simp only [dif_pos hu]
    rw [List.length_append, h1 _ _ (ht u hu), k1 _ _ _ _ (hd u hu)]
  · intro w u u' hu hu' e
    change dite _ _ _ = dite _ _ _ at e
    rw [dif_pos hu, dif_pos hu'] at e
    obtain ⟨e1, e2⟩ := List.append_inj e (by rw [h1 _ _ (ht u hu), h1 _ _ (ht u' hu')])
    have e3 := h2 _ _ _ (ht u hu) (ht u' hu') e1
    have e4 : u.drop n = u'.drop n := by
      have : ∀ v (hv : v.length = n) x, v = u.take n → ψ v hv w x = ψ (u.take n) (ht u hu) w x := by
        rintro v hv x rfl
        rfl
      rw [this _ (ht u' hu') _ e3.symm] at e2
      exact k2 _ _ _ _ _ (hd u hu) (hd u' hu') e2
    rw [← List.take_append_drop n u, ← List.take_append_drop n u', e3, e4]
  · intro u hu
    simp only [dif_pos hu]
    exact Lock.bind ⟨l _ (ht u hu), a _ (ht u hu), t _ (ht u hu), r1 _ (ht u hu), r2 _ (ht u hu), k3 _ (ht u hu) _ (hd u hu)⟩

theorem bind' {p : Bool → Party → Proto (JmpSt (idealPrg f)) α} {k : Bool → Party → α → Proto (JmpSt (idealPrg f)) β}
    {Q : (Bool → Party → α) → Prop} {Q' : (Bool → Party → β) → Prop} (h : Cpl i 0 p Q)
    (hk : ∀ a, Q a → Cpl i m (fun w j => k w j (a w j)) Q') : Cpl i m (fun w j => p w j >>= k w j) Q' := by
  have := bind h hk
  rwa [Nat.zero_add] at this

/-- What is known about each of the runs, and the code of party `i` being the same in both worlds. -/
theorem full {p : Bool → Party → Proto (JmpSt (idealPrg f)) α} {Q : (Bool → Party → α) → Prop}
    (h : Cpl i n p Q) (hp : p false i = p true i) {R : Bool → (Party → α) → Prop}
    (hw : ∀ w (s : Party → JmpSt (idealPrg f)), JmpOk s → WPS (p w) s fun a t' => R w a ∧ JmpOk t') :
    Cpl i n p fun a => a false i = a true i ∧ ∀ w, R w (a w) := by
  intro st hst
  obtain ⟨φ, h1, h2, h3⟩ := h st hst
  refine ⟨φ, h1, h2, fun u hu => ((h3 u hu).full hst hp fun w t hJ => hw w _ hJ).mono fun a t h => ⟨h.2.2, h.2.1⟩⟩

end Cpl

/-! ## Triples -/

theorem tape_split {k n : Nat} {u u' : List Bool} (hl : u.length = u'.length) (h : k * n ≤ u.length)
    (hw : words k n u = words k n u') (hd : u.drop (k * n) = u'.drop (k * n)) : u = u' := by
  have h1 : (u.take (k * n)).length = k * n := by rw [List.length_take]; omega
  have h2 : (u'.take (k * n)).length = k * n := by rw [List.length_take]; omega
  have e1 : words k n u = words k n (u.take (k * n)) := by
    rw [← words_append (le_of_eq h1.symm) (u.drop (k * n)), List.take_append_drop]
  have e2 : words k n u' = words k n (u'.take (k * n)) := by
    rw [← words_append (le_of_eq h2.symm) (u'.drop (k * n)), List.take_append_drop]
  rw [e1, e2] at hw
  rw [← List.take_append_drop (k * n) u, ← List.take_append_drop (k * n) u', words_inj h1 h2 hw, hd]

/-- The number of bits drawn for `n` triples. -/
def tripleBits (V n : Nat) : Nat := V * n + (V * n + (V * n + (V * (n + n) + 8 * 32)))

/-- The pieces of the tape of a triple: the shifted masks, the opened values, the messages of the products, the seed. -/
structure TripleParts (V : Nat) where
  oa : List (BitVec V)
  ob : List (BitVec V)
  v : List (BitVec V)
  c : List (BitVec V)
  s : Bytes

/-- The pieces cut from a tape. -/
def tripleParts (V n : Nat) (u : List Bool) : TripleParts V where
  oa := words V n u
  ob := words V n (u.drop (V * n))
  v := words V n ((u.drop (V * n)).drop (V * n))
  c := words V (n + n) (((u.drop (V * n)).drop (V * n)).drop (V * n))
  s := words 8 32 ((((u.drop (V * n)).drop (V * n)).drop (V * n)).drop (V * (n + n)))

theorem tripleParts_inj {n : Nat} {u u' : List Bool} (hu : u.length = tripleBits V n) (hu' : u'.length = tripleBits V n)
    (h : tripleParts V n u = tripleParts V n u') : u = u' := by
  unfold tripleParts at h
  rw [TripleParts.mk.injEq] at h
  obtain ⟨h1, h2, h3, h4, h5⟩ := h
  unfold tripleBits at hu hu'
  refine tape_split (by omega) (by omega) h1 ?_
  refine tape_split (by simp [hu, hu']) (by simp only [List.length_drop]; omega) h2 ?_
  refine tape_split (by simp [hu, hu']) (by simp only [List.length_drop]; omega) h3 ?_
  refine tape_split (by simp [hu, hu']) (by simp only [List.length_drop]; omega) h4 ?_
  exact words_inj (K := 8) (n := 32) (by simp only [List.length_drop]; omega) (by simp only [List.length_drop]; omega) h5

namespace TripleParts

/-- The first factors. -/
def A (x : TripleParts V) (sa : List (BitVec V)) : List (BitVec V) := List.zipWith (· + ·) sa x.oa
/-- The second factors. -/
def B (x : TripleParts V) (sb : List (BitVec V)) : List (BitVec V) := List.zipWith (· + ·) sb x.ob
/-- The factors that are sacrificed. -/
def A' (x : TripleParts V) (sa : List (BitVec V)) (r : BitVec V) : List (BitVec V) :=
  List.zipWith (fun x y => x * r - y) (x.A sa) x.v
/-- The masks of the products. -/
def Z (x : TripleParts V) (i : Party) (n : Nat) (sa sb : List (BitVec V)) (r : BitVec V) (st : Party → JmpSt (idealPrg f)) :
    List (BitVec V) :=
  maskTape (tripleProds i n (x.A sa) (x.B sb) (x.A' sa r) st)
    (words V (n + n) (afterDraw (V * n) (afterDraw (V * n) (afterDraw (V * n) st)) i.prev).tapeA) x.c

end TripleParts

theorem tripleProds_length {n : Nat} {A B A' : List (BitVec V)} (hA : A.length = n) (hB : B.length = n) (hA' : A'.length = n)
    (st : Party → JmpSt (idealPrg f)) : (tripleProds i n A B A' st).length = n + n := by
  simp [tripleProds, mulLoc, rnd_length hA, rnd_length hB, rnd_length hA']

/-- The tape of a triple. -/
def tripleTape (i : Party) (V n : Nat) (sa sb : List (BitVec V)) (st0 st : Party → JmpSt (idealPrg f)) (u : List Bool) : List Bool :=
  let x := tripleParts V n u
  let r := coinVal i V x.s (coinSt V n st0)
  tapesOf (x.A sa) ++ (tapesOf (x.B sb) ++ (tapesOf (x.A' sa r) ++ (tapesOf (x.Z i n sa sb r st) ++ tapesOf x.s)))

theorem tripleTape_lengths {n : Nat} {sa sb : List (BitVec V)} (ha : sa.length = n) (hb : sb.length = n)
    (st : Party → JmpSt (idealPrg f)) (u : List Bool) (r : BitVec V) :
    ((tripleParts V n u).A sa).length = n ∧ ((tripleParts V n u).B sb).length = n ∧ ((tripleParts V n u).A' sa r).length = n ∧
      ((tripleParts V n u).Z i n sa sb r st).length = n + n ∧ (tripleParts V n u).s.length = 32 := by
  have h1 : ((tripleParts V n u).A sa).length = n := by simp [TripleParts.A, tripleParts, ha]
  have h2 : ((tripleParts V n u).B sb).length = n := by simp [TripleParts.B, tripleParts, hb]
  have h3 : ((tripleParts V n u).A' sa r).length = n := by
    unfold TripleParts.A'
    rw [List.length_zipWith, h1]
    simp [tripleParts]
  refine ⟨h1, h2, h3, ?_, words_length _ _ _⟩
  exact maskTape_length (tripleProds_length h1 h2 h3 st) (words_length _ _ _) (words_length _ _ _)

theorem tripleTape_length {n : Nat} {sa sb : List (BitVec V)} (ha : sa.length = n) (hb : sb.length = n)
    (st0 st : Party → JmpSt (idealPrg f)) (u : List Bool) : (tripleTape i V n sa sb st0 st u).length = tripleBits V n := by
  obtain ⟨h1, h2, h3, h4, h5⟩ := tripleTape_lengths (i := i) ha hb st u (coinVal i V (tripleParts V n u).s (coinSt V n st0))
  unfold tripleTape
  simp only [List.length_append, tapesOf_length, h1, h2, h3, h4, h5]
  rfl

theorem tripleTape_inj {n : Nat} {sa sb : List (BitVec V)} (ha : sa.length = n) (hb : sb.length = n)
    (st0 st : Party → JmpSt (idealPrg f)) {u u' : List Bool} (hu : u.length = tripleBits V n) (hu' : u'.length = tripleBits V n)
    (h : tripleTape i V n sa sb st0 st u = tripleTape i V n sa sb st0 st u') : u = u' := by
  have L := fun u => tripleTape_lengths (i := i) ha hb st u (coinVal i V (tripleParts V n u).s (coinSt V n st0))
  obtain ⟨h1, h2, h3, h4, h5⟩ := L u
  obtain ⟨k1, k2, k3, k4, k5⟩ := L u'
  unfold tripleTape at h
  obtain ⟨e1, h⟩ := List.append_inj h (by simp only [tapesOf_length, h1, k1])
  obtain ⟨e2, h⟩ := List.append_inj h (by simp only [tapesOf_length, h2, k2])
  obtain ⟨e3, h⟩ := List.append_inj h (by simp only [tapesOf_length, h3, k3])
  obtain ⟨e4, e5⟩ := List.append_inj h (by simp only [tapesOf_length, h4, k4])
  have e1 := tapesOf_inj (by rw [h1, k1]) e1
  have e2 := tapesOf_inj (by rw [h2, k2]) e2
  have e3 := tapesOf_inj (by rw [h3, k3]) e3
  have e4 := tapesOf_inj (by rw [h4, k4]) e4
  have e5 := tapesOf_inj (by rw [h5, k5]) e5
  have ca : ∀ (l : List (BitVec V)), l.length = n → ∀ u : List Bool, (tripleParts V n u).oa.length = l.length ∧
      (tripleParts V n u).ob.length = l.length ∧ (tripleParts V n u).v.length = l.length := fun l hl u => by
    simp [tripleParts, hl]
  rw [e5] at e3 e4
  refine tripleParts_inj hu hu' ?_
  have a1 : (tripleParts V n u).oa = (tripleParts V n u').oa :=
    zipWith_cancel (g := (· + ·)) (fun x y y' h => by simpa using h) (ca sa ha u).1 (ca sa ha u').1 e1
  have a2 : (tripleParts V n u).ob = (tripleParts V n u').ob :=
    zipWith_cancel (g := (· + ·)) (fun x y y' h => by simpa using h) (ca sb hb u).2.1 (ca sb hb u').2.1 e2
  have a3 : (tripleParts V n u).v = (tripleParts V n u').v := by
    have e3' := e3
    unfold TripleParts.A' at e3'
    rw [e1] at e3'
    exact zipWith_cancel (fun x y y' h => by simpa using h) (ca _ k1 u).2.2 (ca _ k1 u').2.2 e3'
  have a4 : (tripleParts V n u).c = (tripleParts V n u').c := by
    unfold TripleParts.Z at e4
    rw [e1, e2, e3] at e4
    rw [e5] at h3
    have hl := tripleProds_length (i := i) k1 k2 k3 st
    exact maskTape_inj (by rw [hl]; simp) (by rw [hl]; simp [tripleParts]) (by rw [hl]; simp [tripleParts]) e4
  show TripleParts.mk _ _ _ _ _ = TripleParts.mk _ _ _ _ _
  rw [TripleParts.mk.injEq]
  exact ⟨a1, a2, a3, a4, e5⟩

theorem zipWith_back {x y : List (BitVec V)} (r : BitVec V) (h : x.length = y.length) :
    List.zipWith (fun x y => x * r - y) x (List.zipWith (fun x y => x * r - y) x y) = y := by
  induction x generalizing y with
  | nil => rw [List.length_eq_zero_iff.1 h.symm]; rfl
  | cons a x ih =>
    obtain ⟨b, y, rfl⟩ := List.exists_cons_of_length_eq_add_one h.symm
    simp only [List.zipWith_cons_cons, ih (by simpa using h), List.cons.injEq, and_true]
    ring

/-- Triples: the factors of the unknown summand are shifted by `sa w` and `sb w`. -/
theorem getMulTripleMany_tape (H : Hash) (hV : 40 ≤ V - K) {st : Bool → Party → JmpSt (idealPrg f)} (hst : Twin i st) {n : Nat}
    {sa sb : Bool → List (BitVec V)} (ha : ∀ w, (sa w).length = n) (hb : ∀ w, (sb w).length = n) (u : List Bool) :
    Lock i (fun w => tripleTape i V n (sa w) (sb w) (st false) (st w) u)
      (fun _ j => getMulTripleMany H V K j n) st fun x t => Twin i t ∧ x false i = x true i ∧
        (∀ w, ∃ p q : List (BitVec K), p.length = n ∧ q.length = n ∧ Rels SharesOf p (fun j => (x w j).1) ∧
          Rels SharesOf q (fun j => (x w j).2.1) ∧ Rels SharesOf (List.zipWith (· * ·) p q) (fun j => (x w j).2.2)) ∧
        (∀ w, (x w i.prev).1.map (·.b) = (List.zipWith (· + ·) (sa w) (words V n u)).map (fromVerif K)) ∧
        ∀ w, (x w i.prev).2.1.map (·.b) = (List.zipWith (· + ·) (sb w) (words V n (u.drop (V * n)))).map (fromVerif K) := by
  have L := fun w => tripleTape_lengths (i := i) (ha w) (hb w) (st w) u
    (coinVal i V (tripleParts V n u).s (coinSt V n (st false)))
  refine getMulTripleMany_lock H hV hst (fun w => (L w).1) (fun w => (L w).2.1) (fun w => (L w).2.2.1) (fun w => (L w).2.2.2.1)
    (L false).2.2.2.2 (v := (tripleParts V n u).v) (cs := (tripleParts V n u).c) (fun w => ?_) fun w => ?_
  · exact zipWith_back _ (by rw [(L w).1]; simp [tripleParts])
  · have hl := tripleProds_length (i := i) (L w).1 (L w).2.1 (L w).2.2.1 (st w)
    exact maskVals_maskTape _ _ _ (by rw [hl]; simp) (by rw [hl]; simp [tripleParts])

/-! ## Bits of words -/

/-- The bits of words. -/
def unpack (l : List (BitVec K)) : List (BitVec 1) := (l.map fun x => (List.range K).map fun k => bitOf (x.getLsbD k)).flatten

theorem unpack_length (l : List (BitVec K)) : (unpack l).length = K * l.length := by
  unfold unpack
  induction l with
  | nil => simp
  | cons x l ih => simp only [List.map_cons, List.flatten_cons, List.length_append, ih, List.length_map, List.length_range, List.length_cons, Nat.mul_succ]; omega

theorem packWord_bits (x : BitVec K) : packWord K ((List.range K).map fun k => bitOf (x.getLsbD k)) = x := by
  apply BitVec.eq_of_getLsbD_eq
  intro j hj
  rw [packWord_getLsbD _ (by simp)]
  simp [hj]

theorem pack_unpack (hK : K ≠ 0) (l : List (BitVec K)) : (chunksOf K (unpack l)).map (packWord K) = l := by
  unfold unpack
  rw [chunksOf_flatten_uniform hK _ (by simp), List.map_map]
  conv_rhs => rw [← List.map_id l]
  exact List.map_congr_left fun x _ => packWord_bits x

theorem packWord_xor (xs ys : List (BitVec 1)) (hl : xs.length = ys.length) (h : ys.length ≤ K) :
    packWord K (List.zipWith (· ^^^ ·) xs ys) = packWord K xs ^^^ packWord K ys := by
  have := (packWord_linear K ys.length h).2 xs ys hl rfl
  simpa using this

theorem pack_xor (xs ys : List (BitVec 1)) (hl : xs.length = ys.length) :
    (chunksOf K (List.zipWith (· ^^^ ·) xs ys)).map (packWord K) =
      List.zipWith (· ^^^ ·) ((chunksOf K xs).map (packWord K)) ((chunksOf K ys).map (packWord K)) := by
  rw [chunksOf_zipWith _ _ _ _ hl, List.map_zipWith, List.zipWith_map]
  have h2 := BinLawful.chunksOf_forall₂ K xs ys hl
  have h3 := mem_chunksOf_length K ys
  revert h2 h3
  generalize chunksOf K xs = cx
  generalize chunksOf K ys = cy
  intro h2 h3
  induction h2 with
  | nil => rfl
  | cons h _ ih =>
    simp only [List.zipWith_cons_cons]
    rw [packWord_xor _ _ h (h3 _ (by simp)), ih fun ch hch => h3 ch (by simp [hch])]

theorem fromVerif_bits {m : Nat} {x : List (BitVec 1)} {y : List (BitVec V)} (hV : 1 ≤ V) (hx : x.length = m) (hy : y.length = m) :
    (List.zipWith (· + ·) (x.map (toVerif V)) y).map (fromVerif 1) = List.zipWith (· ^^^ ·) x (y.map (fromVerif 1)) := by
  subst hx
  induction x generalizing y with
  | nil => rw [List.length_eq_zero_iff.1 hy]; rfl
  | cons a x ih =>
    obtain ⟨b, y, rfl⟩ := List.exists_cons_of_length_eq_add_one hy
    simp only [List.map_cons, List.zipWith_cons_cons, List.cons.injEq]
    refine ⟨?_, ih (by simpa using hy)⟩
    unfold fromVerif toVerif
    rw [BitVec.setWidth_add _ _ hV, BitVec.setWidth_setWidth_of_le _ hV]
    generalize b.setWidth 1 = c
    rw [BitVec.setWidth_eq]
    exact (by decide : ∀ a c : BitVec 1, a + c = a ^^^ c) a c

theorem xor_b {x : List (AShare K)} {P : List (AShare 1)} {y : List (BitVec 1)} (hK : K ≠ 0) {m : Nat} (hx : x.length = m)
    (hy : y.length = K * m) (hP : P.map (·.b) = List.zipWith (· ^^^ ·) (unpack (x.map (·.b))) y) :
    (List.zipWith AShare.xor x (pack K P)).map (·.b) = (chunksOf K y).map (packWord K) := by
  have e : (pack K P).map (·.b) = (chunksOf K (P.map (·.b))).map (packWord K) := by
    rw [pack, List.map_map, MpcLawful.chunksOf_map', List.map_map]
    rfl
  have h : ∀ (l l' : List (AShare K)), (List.zipWith AShare.xor l l').map (·.b) =
      List.zipWith (· ^^^ ·) (l.map (·.b)) (l'.map (·.b)) := by
    intro l l'
    rw [List.map_zipWith, List.zipWith_map]
    rfl
  have hl : (x.map (·.b)).length = ((chunksOf K y).map (packWord K)).length := by
    rw [List.length_map, List.length_map, chunksOf_mul_length hK hy, hx]
  rw [h, e, hP, pack_xor _ _ (by rw [unpack_length, hy, List.length_map, hx]), pack_unpack hK]
  revert hl
  generalize x.map (·.b) = p
  generalize (chunksOf K y).map (packWord K) = q
  intro hl
  induction p generalizing q with
  | nil => rw [List.length_eq_zero_iff.1 hl.symm]; rfl
  | cons a p ih =>
    obtain ⟨b, q, rfl⟩ := List.exists_cons_of_length_eq_add_one hl.symm
    simp only [List.zipWith_cons_cons, ih q (by simpa using hl), List.cons.injEq, and_true]
    rw [← BitVec.xor_assoc, BitVec.xor_self, BitVec.zero_xor]

theorem andMany_cpl (H : Hash) (hK : K ≠ 0) {m : Nat} {a b : Bool → Party → List (AShare K)} {xs ys : Bool → List (BitVec K)}
    (ha : ∀ w, Rels BinSharesOf (xs w) (a w)) (hb : ∀ w, Rels BinSharesOf (ys w) (b w)) (hx : ∀ w, (xs w).length = m)
    (hy : ∀ w, (ys w).length = m) (ia : a false i = a true i) (ib : b false i = b true i) :
    Cpl (f := f) i (tripleBits (verifWidth 1) (K * m)) (fun w j => andMany H j (a w j) (b w j)) fun c =>
      c false i = c true i ∧ ∀ w, Rels BinSharesOf (List.zipWith (· &&& ·) (xs w) (ys w)) (c w) := by
  refine Cpl.full (Q := fun _ => True) ?_ (by simp only [ia, ib]) fun w s hJ => andMany_wp hK hJ (ha w) (hb w) (by rw [hx, hy])
  have la : ∀ w j, (a w j).length = m := fun w j => by rw [(ha w).length, hx]
  have lb : ∀ w j, (b w j).length = m := fun w j => by rw [(hb w).length, hy]
  intro st hst
  let sh : (Bool → Party → List (AShare K)) → Bool → List (BitVec (verifWidth 1)) := fun a w =>
    (unpack ((a w i.prev).map (·.b))).map (toVerif (verifWidth 1))
  have lsa : ∀ w, (sh a w).length = K * m := fun w => by
    show ((unpack ((a w i.prev).map (·.b))).map (toVerif (verifWidth 1))).length = _
    rw [List.length_map, unpack_length, List.length_map, la]
  have lsb : ∀ w, (sh b w).length = K * m := fun w => by
    show ((unpack ((b w i.prev).map (·.b))).map (toVerif (verifWidth 1))).length = _
    rw [List.length_map, unpack_length, List.length_map, lb]
  refine ⟨fun w u => tripleTape i (verifWidth 1) (K * m) (sh a w) (sh b w) (st false) (st w) u,
    fun w u _ => tripleTape_length (lsa w) (lsb w) _ _ _, fun w u u' hu hu' h => tripleTape_inj (lsa w) (lsb w) _ _ hu hu' h, fun u hu => ?_⟩
  refine (Lock.full (Q := fun _ _ => True) ?_ hst (by simp only [ia, ib]) (R := fun _ _ => True) fun w t hJ =>
    (andMany_wp hK hJ (ha w) (hb w) (by rw [hx, hy])).mono fun _ _ h => ⟨trivial, h.2⟩).mono fun _ _ h => ⟨trivial, h.2.1⟩
  unfold andMany
  refine Lock.ite_neg (fun w j => by simp [la, lb]) ?_
  simp only [la]
  refine Lock.bind_last ((getMulTripleMany_tape H verifBit hst lsa lsb u).mono ?_)
  rintro x t ⟨ht, ix, hx', hA, hB⟩
  choose p q lp lq hp hq hpq using hx'
  have hp' := fun w => pack_rel (K := K) ((hp w).imp fun _ _ h => h.bin)
  have hq' := fun w => pack_rel (K := K) ((hq w).imp fun _ _ h => h.bin)
  have h1 := fun w => Rels.zipWith (f := (· ^^^ ·)) (g := fun _ => AShare.xor) (fun _ _ _ _ h h' => h.xor h') (ha w) (hp' w)
  have h2 := fun w => Rels.zipWith (f := (· ^^^ ·)) (g := fun _ => AShare.xor) (fun _ _ _ _ h h' => h.xor h') (hb w) (hq' w)
  have hVV : 1 ≤ verifWidth 1 := by decide
  refine Lock.bind' ((reconstructBinaryMany_lock ht (fun w => (h1 w).append (h2 w)) (by simp only [ia, ib, ix]) ?_).mono ?_)
  · have e1 : ∀ w, (x w i.prev).1.map (·.b) = List.zipWith (· ^^^ ·) (unpack ((a w i.prev).map (·.b)))
        ((words (verifWidth 1) (K * m) u).map (fromVerif 1)) := fun w => by
      rw [hA, fromVerif_bits hVV (by rw [unpack_length, List.length_map, la]) (words_length _ _ _)]
    have e2 : ∀ w, (x w i.prev).2.1.map (·.b) = List.zipWith (· ^^^ ·) (unpack ((b w i.prev).map (·.b)))
        ((words (verifWidth 1) (K * m) (u.drop (verifWidth 1 * (K * m)))).map (fromVerif 1)) := fun w => by
      rw [hB, fromVerif_bits hVV (by rw [unpack_length, List.length_map, lb]) (words_length _ _ _)]
    simp only [List.map_append]
    rw [xor_b hK (la _ _) (by simp) (e1 false), xor_b hK (lb _ _) (by simp) (e2 false),
      xor_b hK (la _ _) (by simp) (e1 true), xor_b hK (lb _ _) (by simp) (e2 true)]
  · rintro uv t' -
    exact Lock.pure (Q := fun _ _ => True) (a := fun w j => List.zipWith (fun z (q : (AShare K × AShare K) × (BitVec K × BitVec K)) =>
        ((z.xor (q.1.2.andConst q.2.1)).xor (q.1.1.andConst q.2.2)).xorConst (q.2.1 &&& q.2.2) j)
      (pack K (x w j).2.2) (((a w j).zip (b w j)).zip (((uv w j).take m).zip ((uv w j).drop m)))) trivial

end Verif
