import Verif.Spec.Privacy
import Verif.Proof.Aby3

/-!
# Uniform views

`Uni i F p Q`: whatever the states of the known generators, the messages that party `i` receives while the parties run `p`
have the fixed format `F`, and for every sequence of messages of this format there is a piece of the unknown tape, exactly
as long as the messages have bits, that leads to these messages. (Then this piece is unique, by counting.)
-/

namespace Verif

/-! ## Recording -/

section record

variable {α β : Type}

theorem Prog.record_bind (p : Prog α) (k : α → Prog β) (l : Log) :
    (p >>= k).record l = p.record l >>= fun r => (k r.2).record r.1 := by
  induction p generalizing l with
  | ret a => rfl
  | fail e => rfl
  | send d m p ih => simp [Prog.record, ih]
  | recv s p ih => simp [Prog.record, ih]

@[simp] theorem Prog.record_ret (a : α) (l : Log) : (Prog.ret a).record l = .ret (l, a) := rfl

end record

/-! ## Tapes -/

/-- The tape that yields `x`. -/
def tapeOf : {K : Nat} → BitVec K → List Bool
  | 0, _ => []
  | K + 1, x => x.msb :: tapeOf (x.setWidth K)

@[simp] theorem tapeOf_length : ∀ {K : Nat} (x : BitVec K), (tapeOf x).length = K
  | 0, _ => rfl
  | K + 1, x => by simp [tapeOf, tapeOf_length]

theorem tapeVal_tapeOf : ∀ {K : Nat} (x : BitVec K) (t : List Bool), tapeVal K (tapeOf x ++ t) = x
  | 0, x, t => BitVec.eq_of_getLsbD_eq fun j hj => absurd hj (by omega)
  | K + 1, x, t => by
    simp only [tapeOf, tapeVal, List.cons_append, List.headD_cons, List.tail_cons, tapeVal_tapeOf]
    exact BitVec.cons_msb_setWidth x

theorem tapeOf_tapeVal : ∀ (K : Nat) (t : List Bool), t.length = K → tapeOf (tapeVal K t) = t
  | 0, t, h => by simp [tapeOf, List.length_eq_zero_iff.1 h]
  | K + 1, [], h => by simp at h
  | K + 1, b :: t, h => by
    simp only [tapeOf, tapeVal, List.headD_cons, List.tail_cons, BitVec.msb_cons, BitVec.setWidth_cons]
    rw [tapeOf_tapeVal K t (by simpa using h)]

theorem bitPrg_gen {K : Nat} (x : BitVec K) (t : List Bool) : bitPrg.gen K (tapeOf x ++ t) = (x, t) := by
  simp [bitPrg, tapeVal_tapeOf]

/-- The tape that yields the elements of a list. -/
def tapesOf {K : Nat} (xs : List (BitVec K)) : List Bool := xs.flatMap tapeOf

@[simp] theorem words_length (K n : Nat) (t : List Bool) : (words K n t).length = n := by
  induction n generalizing t with
  | zero => rfl
  | succ n ih => simp [words, ih]

theorem tapeVal_take (K : Nat) (t : List Bool) : tapeVal K (t.take K) = tapeVal K t := by
  induction K generalizing t with
  | zero => rfl
  | succ K ih => cases t with
    | nil => rfl
    | cons b t => simp [tapeVal, ih]

theorem words_inj {K n : Nat} {t t' : List Bool} (h : t.length = K * n) (h' : t'.length = K * n)
    (hw : words K n t = words K n t') : t = t' := by
  induction n generalizing t t' with
  | zero =>
    rw [Nat.mul_zero, List.length_eq_zero_iff] at h h'
    rw [h, h']
  | succ n ih =>
    simp only [words, List.cons.injEq] at hw
    rw [Nat.mul_succ] at h h'
    have hd := ih (by simp; omega) (by simp; omega) hw.2
    have ht : t.take K = t'.take K := by
      rw [← tapeOf_tapeVal K (t.take K) (by simp; omega), ← tapeOf_tapeVal K (t'.take K) (by simp; omega),
        tapeVal_take, tapeVal_take, hw.1]
    rw [← List.take_append_drop K t, ← List.take_append_drop K t', ht, hd]

/-! ## Formats -/

/-- Bits of the messages of a format: for each message the width and the number of its elements. -/
def fmtSize (F : List (Nat × Nat)) : Nat := (F.map fun f => f.1 * f.2).sum

/-- The messages with the bits `w`. -/
def msgs (s : Party) : List (Nat × Nat) → List Bool → Log
  | [], _ => []
  | (K, n) :: F, w => (s, ringSliceToBytes (words K n w)) :: msgs s F (w.drop (K * n))

@[simp] theorem fmtSize_nil : fmtSize [] = 0 := rfl
@[simp] theorem fmtSize_cons (f : Nat × Nat) (F : List (Nat × Nat)) : fmtSize (f :: F) = f.1 * f.2 + fmtSize F := rfl
@[simp] theorem fmtSize_append (F F' : List (Nat × Nat)) : fmtSize (F ++ F') = fmtSize F + fmtSize F' := by
  simp [fmtSize]

theorem words_append {K n : Nat} {t : List Bool} (h : K * n ≤ t.length) (t' : List Bool) :
    words K n (t ++ t') = words K n t := by
  induction n generalizing t with
  | zero => rfl
  | succ n ih =>
    rw [Nat.mul_succ] at h
    simp only [words]
    rw [List.drop_append_of_le_length (by omega), ih (by simp; omega), ← tapeVal_take K (t ++ t'),
      List.take_append_of_le_length (by omega), tapeVal_take]

theorem msgs_append (s : Party) (F F' : List (Nat × Nat)) (w : List Bool) :
    msgs s (F ++ F') w = msgs s F w ++ msgs s F' (w.drop (fmtSize F)) := by
  induction F generalizing w with
  | nil => simp [msgs]
  | cons f F ih => simp [msgs, ih, List.drop_drop]

theorem msgs_ext (s : Party) {F : List (Nat × Nat)} {w : List Bool} (h : fmtSize F ≤ w.length) (w' : List Bool) :
    msgs s F (w ++ w') = msgs s F w := by
  induction F generalizing w with
  | nil => rfl
  | cons f F ih =>
    simp only [fmtSize_cons] at h
    simp only [msgs]
    rw [words_append (by omega), List.drop_append_of_le_length (by omega), ih (by simp; omega)]

theorem msgs_inj (s : Party) {F : List (Nat × Nat)} {w w' : List Bool} (h : w.length = fmtSize F)
    (h' : w'.length = fmtSize F) (hm : msgs s F w = msgs s F w') : w = w' := by
  induction F generalizing w w' with
  | nil =>
    rw [fmtSize_nil, List.length_eq_zero_iff] at h h'
    rw [h, h']
  | cons f F ih =>
    simp only [fmtSize_cons] at h h'
    simp only [msgs, List.cons.injEq, Prod.mk.injEq, true_and] at hm
    have hd := ih (by simp; omega) (by simp; omega) hm.2
    have hw : words f.1 f.2 w = words f.1 f.2 w' := by
      have h1 := ringVecFromBytes_roundtrip (words f.1 f.2 w)
      have h2 := ringVecFromBytes_roundtrip (words f.1 f.2 w')
      rw [words_length] at h1 h2
      rw [hm.1, h2] at h1
      injection h1 with h1
      exact h1.symm
    have ht : w.take (f.1 * f.2) = w'.take (f.1 * f.2) := by
      refine words_inj (K := f.1) (n := f.2) (by simp; omega) (by simp; omega) ?_
      rwa [← words_append (t := w.take (f.1 * f.2)) (by simp; omega) (w.drop (f.1 * f.2)), List.take_append_drop,
        ← words_append (t := w'.take (f.1 * f.2)) (by simp; omega) (w'.drop (f.1 * f.2)), List.take_append_drop]
    rw [← List.take_append_drop (f.1 * f.2) w, ← List.take_append_drop (f.1 * f.2) w', ht, hd]

/-! ## The judgement -/

/-- See the head of this file. -/
def Uni {α : Type} (i : Party) (F : List (Nat × Nat)) (p : Party → Proto (Aby3St bitPrg) α) (Q : (Party → α) → Prop) : Prop :=
  ∀ (st : Party → Aby3St bitPrg) (acc : Party → Log) (w : List Bool), w.length = fmtSize F →
    ∃ (u : List Bool) (a : Party → α) (t : Party → Aby3St bitPrg) (l : Party → Log),
      u.length = fmtSize F ∧ Q a ∧ l i = acc i ++ msgs i.prev F w ∧
      ∀ rest, Runs (fun j => (p j (withTape i (u ++ rest) st j)).record (acc j)) fun j => (l j, (a j, withTape i rest t j))

namespace Uni

variable {α β : Type} {i : Party} {F F' : List (Nat × Nat)}

theorem mono {p : Party → Proto (Aby3St bitPrg) α} {Q Q' : (Party → α) → Prop} (h : Uni i F p Q) (hQ : ∀ a, Q a → Q' a) :
    Uni i F p Q' := fun st acc w hw => by
  obtain ⟨u, a, t, l, h1, h2, h3⟩ := h st acc w hw
  exact ⟨u, a, t, l, h1, hQ a h2, h3⟩

theorem congr {p q : Party → Proto (Aby3St bitPrg) α} {Q : (Party → α) → Prop} (hpq : ∀ j, p j = q j) (h : Uni i F q Q) :
    Uni i F p Q := by rwa [funext hpq]

theorem pure {a : Party → α} {Q : (Party → α) → Prop} (h : Q a) :
    Uni i [] (fun j => (Pure.pure (a j) : Proto (Aby3St bitPrg) α)) Q := fun st acc w _ =>
  ⟨[], a, st, acc, rfl, h, by simp [msgs], fun rest => ⟨0, .zero _⟩⟩

theorem lift {x : Party → Except Err α} {a : Party → α} {Q : (Party → α) → Prop} (hx : ∀ j, x j = .ok (a j)) (h : Q a) :
    Uni i [] (fun j => (Proto.lift (x j) : Proto (Aby3St bitPrg) α)) Q :=
  congr (q := fun j => (Pure.pure (a j) : Proto (Aby3St bitPrg) α)) (fun j => by rw [hx]; rfl) (pure h)

theorem ite_neg {c : Party → Prop} [∀ k, Decidable (c k)] {p q : Party → Proto (Aby3St bitPrg) α}
    {Q : (Party → α) → Prop} (hc : ∀ k, ¬ c k) (h : Uni i F q Q) : Uni i F (fun k => if c k then p k else q k) Q :=
  congr (fun k => if_neg (hc k)) h

theorem bind {p : Party → Proto (Aby3St bitPrg) α} {k : Party → α → Proto (Aby3St bitPrg) β} {Q : (Party → α) → Prop}
    {Q' : (Party → β) → Prop} (h : Uni i F p Q) (hk : ∀ a, Q a → Uni i F' (fun j => k j (a j)) Q') :
    Uni i (F ++ F') (fun j => p j >>= k j) Q' := fun st acc w hw => by
  rw [fmtSize_append] at hw
  obtain ⟨u, a, t, l, h1, h2, h3, h4⟩ := h st acc (w.take (fmtSize F)) (by simp; omega)
  obtain ⟨u', a', t', l', k1, k2, k3, k4⟩ := hk a h2 t l (w.drop (fmtSize F)) (by simp; omega)
  refine ⟨u ++ u', a', t', l', by simp [h1, k1], k2, ?_, fun rest => ?_⟩
  · rw [k3, h3, List.append_assoc, msgs_append]
    congr 2
    conv_rhs => rw [← List.take_append_drop (fmtSize F) w]
    rw [msgs_ext _ (by simp; omega)]
  · have e : ∀ j, ((p j >>= k j) (withTape i (u ++ u' ++ rest) st j)).record (acc j)
        = (p j (withTape i (u ++ (u' ++ rest)) st j)).record (acc j) >>= fun r => (k j r.2.1 r.2.2).record r.1 := by
      intro j
      rw [List.append_assoc]
      exact Prog.record_bind _ _ _
    simp only [e]
    exact (h4 (u' ++ rest)).bind (k4 rest)

/-- A first step without messages. -/
theorem bind' {p : Party → Proto (Aby3St bitPrg) α} {k : Party → α → Proto (Aby3St bitPrg) β} {Q : (Party → α) → Prop}
    {Q' : (Party → β) → Prop} (h : Uni i [] p Q) (hk : ∀ a, Q a → Uni i F (fun j => k j (a j)) Q') :
    Uni i F (fun j => p j >>= k j) Q' := bind (F := []) h hk

/-- A last step without messages. -/
theorem bind_local {p : Party → Proto (Aby3St bitPrg) α} {k : Party → α → Proto (Aby3St bitPrg) β} {Q : (Party → α) → Prop}
    {Q' : (Party → β) → Prop} (h : Uni i F p Q) (hk : ∀ a, Q a → Uni i [] (fun j => k j (a j)) Q') :
    Uni i F (fun j => p j >>= k j) Q' := by
  have := bind h hk
  rwa [List.append_nil] at this

end Uni

/-! ## Masked values -/

/-- All known generators after a draw. -/
def drawn (K : Nat) (st : Party → Aby3St bitPrg) (j : Party) : Aby3St bitPrg :=
  ⟨⟨(bitPrg.gen K (st j).prf.my).2, (bitPrg.gen K (st j).prf.next).2⟩⟩

theorem withTape_prev (i : Party) (t : List Bool) (st : Party → Aby3St bitPrg) :
    withTape i t st i.prev = ⟨⟨(st i.prev).prf.my, t⟩⟩ := by simp [withTape]

theorem drawn_withTape (i : Party) (K : Nat) (z : BitVec K) (t : List Bool) (st : Party → Aby3St bitPrg) (j : Party) :
    drawn K (withTape i (tapeOf z ++ t) st) j = withTape i t (drawn K st) j := by
  simp only [drawn, withTape]
  split_ifs <;> simp [bitPrg_gen]

/-- Local code that computes one element per party, where the element of the predecessor of `i` can be given any value by
a choice of the unknown tape. -/
def Masks {K : Nat} (i : Party) (n : Nat) (p : Party → Proto (Aby3St bitPrg) (List (BitVec K))) : Prop :=
  ∀ (st : Party → Aby3St bitPrg) (ws : List (BitVec K)), ws.length = n →
    ∃ (u : List Bool) (v : Party → List (BitVec K)) (t : Party → Aby3St bitPrg),
      u.length = K * n ∧ (∀ j, (v j).length = n) ∧ v i.prev = ws ∧
      ∀ rest j, p j (withTape i (u ++ rest) st j) = .ret (v j, withTape i rest t j)

namespace Masks

variable {K n : Nat} {i : Party}

theorem nil : Masks (K := K) i 0 (fun _ => pure []) := fun st ws h =>
  ⟨[], fun _ => [], st, rfl, fun _ => rfl, by simp [List.length_eq_zero_iff.1 h], fun _ _ => rfl⟩

theorem congr {p q : Party → Proto (Aby3St bitPrg) (List (BitVec K))} (h : ∀ j, p j = q j) (hq : Masks i n q) :
    Masks i n p := by rwa [funext h]

/-- An arithmetic mask. -/
theorem consZero {f : Party → BitVec K → BitVec K} {q : Party → Proto (Aby3St bitPrg) (List (BitVec K))}
    (hf : ∀ j r, f j r = r + f j 0) (hq : Masks i n q) :
    Masks i (n + 1) (fun j => do let r ← Aby3.genZero K; let cs ← q j; pure (f j r :: cs)) := by
  intro st ws hw
  cases ws with
  | nil => simp at hw
  | cons x ws =>
    let z : BitVec K := (bitPrg.gen K (st i.prev).prf.my).1 + f i.prev 0 - x
    obtain ⟨u, v, t, h1, h2, h3, h4⟩ := hq (drawn K st) ws (by simpa using hw)
    refine ⟨tapeOf z ++ u, fun j => f j ((bitPrg.gen K (withTape i (tapeOf z) st j).prf.my).1 -
      (bitPrg.gen K (withTape i (tapeOf z) st j).prf.next).1) :: v j, t, by simp [h1, Nat.mul_succ, Nat.add_comm],
      fun j => by simp [h2], ?_, fun rest j => ?_⟩
    · have hz : (bitPrg.gen K (tapeOf z)).1 = z := by
        rw [← List.append_nil (tapeOf z), bitPrg_gen]
      simp only [withTape_prev, hz, h3, List.cons.injEq, and_true]
      rw [hf]
      show _ - ((bitPrg.gen K (st i.prev).prf.my).1 + f i.prev 0 - x) + f i.prev 0 = x
      ring
    · have e := drawn_withTape i K z (u ++ rest) st j
      have e' : ∀ c, (bitPrg.gen K (withTape i (tapeOf z ++ c) st j).prf.my).1 =
          (bitPrg.gen K (withTape i (tapeOf z) st j).prf.my).1 ∧ (bitPrg.gen K (withTape i (tapeOf z ++ c) st j).prf.next).1 =
          (bitPrg.gen K (withTape i (tapeOf z) st j).prf.next).1 := by
        intro c
        have hz : (bitPrg.gen K (tapeOf z)).1 = z := by
          rw [← List.append_nil (tapeOf z), bitPrg_gen]
        simp only [withTape]
        split_ifs <;> simp [bitPrg_gen, hz]
      have e4 := h4 rest j
      rw [← e] at e4
      obtain ⟨e1, e2⟩ := e' (u ++ rest)
      show (q j (drawn K (withTape i (tapeOf z ++ u ++ rest) st) j) >>= fun r => _) = _
      rw [List.append_assoc, e4]
      show Prog.ret (f j ((bitPrg.gen K (withTape i (tapeOf z ++ (u ++ rest)) st j).prf.my).1 -
        (bitPrg.gen K (withTape i (tapeOf z ++ (u ++ rest)) st j).prf.next).1) :: v j, _) = _
      rw [e1, e2]

/-- A binary mask. -/
theorem consBin {f : Party → BitVec K → BitVec K} {q : Party → Proto (Aby3St bitPrg) (List (BitVec K))}
    (hf : ∀ j r, f j r = f j 0 ^^^ r) (hq : Masks i n q) :
    Masks i (n + 1) (fun j => do let r ← Aby3.genBinZero K; let cs ← q j; pure (f j r :: cs)) := by
  intro st ws hw
  cases ws with
  | nil => simp at hw
  | cons x ws =>
    let z : BitVec K := (bitPrg.gen K (st i.prev).prf.my).1 ^^^ (f i.prev 0 ^^^ x)
    obtain ⟨u, v, t, h1, h2, h3, h4⟩ := hq (drawn K st) ws (by simpa using hw)
    refine ⟨tapeOf z ++ u, fun j => f j ((bitPrg.gen K (withTape i (tapeOf z) st j).prf.my).1 ^^^
      (bitPrg.gen K (withTape i (tapeOf z) st j).prf.next).1) :: v j, t, by simp [h1, Nat.mul_succ, Nat.add_comm],
      fun j => by simp [h2], ?_, fun rest j => ?_⟩
    · have hz : (bitPrg.gen K (tapeOf z)).1 = z := by
        rw [← List.append_nil (tapeOf z), bitPrg_gen]
      simp only [withTape_prev, hz, h3, List.cons.injEq, and_true]
      rw [hf]
      show f i.prev 0 ^^^ ((bitPrg.gen K (st i.prev).prf.my).1 ^^^ ((bitPrg.gen K (st i.prev).prf.my).1 ^^^ (f i.prev 0 ^^^ x))) = x
      rw [← BitVec.xor_assoc (bitPrg.gen K (st i.prev).prf.my).1, BitVec.xor_self, BitVec.zero_xor, ← BitVec.xor_assoc,
        BitVec.xor_self, BitVec.zero_xor]
    · have e := drawn_withTape i K z (u ++ rest) st j
      have e' : ∀ c, (bitPrg.gen K (withTape i (tapeOf z ++ c) st j).prf.my).1 =
          (bitPrg.gen K (withTape i (tapeOf z) st j).prf.my).1 ∧ (bitPrg.gen K (withTape i (tapeOf z ++ c) st j).prf.next).1 =
          (bitPrg.gen K (withTape i (tapeOf z) st j).prf.next).1 := by
        intro c
        have hz : (bitPrg.gen K (tapeOf z)).1 = z := by
          rw [← List.append_nil (tapeOf z), bitPrg_gen]
        simp only [withTape]
        split_ifs <;> simp [bitPrg_gen, hz]
      have e4 := h4 rest j
      rw [← e] at e4
      obtain ⟨e1, e2⟩ := e' (u ++ rest)
      show (q j (drawn K (withTape i (tapeOf z ++ u ++ rest) st) j) >>= fun r => _) = _
      rw [List.append_assoc, e4]
      show Prog.ret (f j ((bitPrg.gen K (withTape i (tapeOf z ++ (u ++ rest)) st j).prf.my).1 ^^^
        (bitPrg.gen K (withTape i (tapeOf z ++ (u ++ rest)) st j).prf.next).1) :: v j, _) = _
      rw [e1, e2]

end Masks

namespace Uni

variable {K n : Nat} {i : Party}

theorem record_ring (m : Party → Bytes) {α : Type} (k : Party → Bytes → Prog α) (acc : Party → Log) {r : Party → Log × α}
    (h : Runs (fun j => (k j (m j.prev)).record (acc j ++ [(j.prev, m j.prev)])) r) :
    Runs (fun j => (Prog.send j.next (m j) (.recv j.prev (k j))).record (acc j)) r := by
  obtain ⟨r', hr, rfl⟩ := WP.ring (m := m) (k := fun j x => (k j x).record (acc j ++ [(j.prev, x)])) (Q := (· = r)) ⟨r, h, rfl⟩
  exact hr

/-- Masked values are sent on. -/
theorem exchange {α : Type} {p : Party → Proto (Aby3St bitPrg) (List (BitVec K))} (hp : Masks i n p)
    {f : Party → List (BitVec K) → List (BitVec K) → α} {Q : (Party → α) → Prop}
    (hQ : ∀ v w : Party → List (BitVec K), (∀ j, (v j).length = n) → (∀ j, (w j).length = n) → Q fun j => f j (v j) (w j)) :
    Uni i [(K, n)] (fun j => do
      let x ← p j
      let y ← Proto.net (sendSliceAndReceiveIter j x)
      Pure.pure (f j x y)) Q := by
  intro st acc w hw
  obtain ⟨u, v, t, h1, h2, h3, h4⟩ := hp st (words K n w) (by simp)
  refine ⟨u, fun j => f j (v j) (v j.prev), t, fun j => acc j ++ [(j.prev, ringSliceToBytes (v j.prev))], by simp [h1],
    hQ v (fun j => v j.prev) h2 (fun j => h2 _), by simp [msgs, h3], fun rest => ?_⟩
  have e : ∀ j, (p j >>= fun x => Proto.net (sendSliceAndReceiveIter j x) >>= fun y => Pure.pure (f j x y))
      (withTape i (u ++ rest) st j) = Prog.send j.next (ringSliceToBytes (v j)) (.recv j.prev fun m =>
        Prog.ofExcept (ringIterFromBytes K m (v j).length) >>= fun y => .ret (f j (v j) y, withTape i rest t j)) := by
    intro j
    show (p j (withTape i (u ++ rest) st j) >>= fun r => _) = _
    rw [h4]
    show ((sendSliceAndReceiveIter j (v j) >>= fun y => Prog.ret (y, withTape i rest t j)) >>= fun r => _) = _
    unfold sendSliceAndReceiveIter sendAndReceive sendNext recvPrev
    simp only [Prog.send_bind, Prog.ret_bind, Prog.recv_bind, bind_assoc]
    rfl
  simp only [e]
  refine record_ring (fun j => ringSliceToBytes (v j)) _ acc ?_
  have e2 : ∀ j, ringIterFromBytes K (ringSliceToBytes (v j.prev)) (v j).length = .ok (v j.prev) := fun j => by
    rw [h2, ← h2 j.prev, ringIterFromBytes_roundtrip]
  simp only [e2]
  exact ⟨0, .zero _⟩

/-- One masked value is sent on. -/
theorem exchangeValue {α : Type} {p : Party → Proto (Aby3St bitPrg) (BitVec K)}
    (hp : Masks i 1 fun j => do let x ← p j; Pure.pure [x])
    {f : Party → BitVec K → BitVec K → α} {Q : (Party → α) → Prop} (hQ : ∀ v w : Party → BitVec K, Q fun j => f j (v j) (w j)) :
    Uni i [(K, 1)] (fun j => do
      let x ← p j
      let y ← Proto.net (sendAndReceiveValue j x)
      Pure.pure (f j x y)) Q := by
  intro st acc w hw
  obtain ⟨u, v, t, h1, h2, h3, h4⟩ := hp st (words K 1 w) (by simp)
  have h5 : ∃ v' : Party → BitVec K, ∀ rest j, p j (withTape i (u ++ rest) st j) = .ret (v' j, withTape i rest t j) := by
    refine ⟨fun j => (v j).headD 0, fun rest j => ?_⟩
    have := h4 rest j
    change (p j (withTape i (u ++ rest) st j) >>= fun r => Prog.ret ([r.1], r.2)) = _ at this
    cases hq : p j (withTape i (u ++ rest) st j) with
    | ret r =>
      rw [hq, Prog.ret_bind, Prog.ret.injEq, Prod.mk.injEq] at this
      show Prog.ret r = Prog.ret ((v j).headD 0, withTape i rest t j)
      rw [← this.1, ← this.2]; rfl
    | fail e => rw [hq] at this; cases this
    | send d m k => rw [hq] at this; cases this
    | recv s k => rw [hq] at this; cases this
  obtain ⟨v', h5⟩ := h5
  have h6 : ∀ j, v j = [v' j] := fun j => by
    have := h4 [] j
    change (p j (withTape i (u ++ []) st j) >>= fun r => Prog.ret ([r.1], r.2)) = _ at this
    rw [h5, Prog.ret_bind, Prog.ret.injEq, Prod.mk.injEq] at this
    exact this.1.symm
  refine ⟨u, fun j => f j (v' j) (v' j.prev), t, fun j => acc j ++ [(j.prev, toBytes (v' j.prev))], by simp [h1],
    hQ v' (fun j => v' j.prev), ?_, fun rest => ?_⟩
  · simp only [msgs]
    rw [← h3, h6]
    simp [ringSliceToBytes]
  · have e : ∀ j, (p j >>= fun x => Proto.net (sendAndReceiveValue j x) >>= fun y => Pure.pure (f j x y))
        (withTape i (u ++ rest) st j) = Prog.send j.next (toBytes (v' j)) (.recv j.prev fun m =>
          Prog.ofExcept (fromBytes K m) >>= fun y => .ret (f j (v' j) y, withTape i rest t j)) := by
      intro j
      show (p j (withTape i (u ++ rest) st j) >>= fun r => _) = _
      rw [h5]
      show ((sendAndReceiveValue j (v' j) >>= fun y => Prog.ret (y, withTape i rest t j)) >>= fun r => _) = _
      unfold sendAndReceiveValue sendAndReceive sendNext recvPrev
      simp only [Prog.send_bind, Prog.ret_bind, Prog.recv_bind, bind_assoc]
      rfl
    simp only [e]
    refine record_ring (fun j => toBytes (v' j)) _ acc ?_
    simp only [fromBytes_toBytes]
    exact ⟨0, .zero _⟩

end Uni

end Verif
