import Verif.Proof.Aby3
import Verif.Proof.Swift3Ops
import Verif.Model.Spdz
import Verif.Props.Aby3
import Mathlib.SetTheory.Cardinal.Finite

/-! # C20, C21: what one party learns from its share and from the messages of the resharing -/

namespace Verif

variable {G : Prg} {K V : Nat}

/-! ## C20: a single share is independent of the secret

`share` draws its randomness uniformly. For every party, every secret and every value of the local share there is exactly
one choice of the randomness that produces this share; so every share value is equally likely, whatever the secret. -/

theorem C20_aby3 (x : BitVec K) (i : Party) (s : AShare K) :
    ∃! r : BitVec K × BitVec K, (Aby3.share x r.1 r.2)[i.val]? = some s := by
  obtain ⟨a, b⟩ := s
  match i with
  | 0 =>
    refine ⟨(a, x - a - b), ?_, ?_⟩
    · simp [Aby3.share]
    · rintro ⟨r1, r2⟩ h
      simp only [Aby3.share, List.getElem?_cons_zero, Option.some.injEq, AShare.mk.injEq] at h
      obtain ⟨rfl, rfl⟩ := h
      simp
  | 1 =>
    refine ⟨(b, a), ?_, ?_⟩
    · simp [Aby3.share]
    · rintro ⟨r1, r2⟩ h
      simp [Aby3.share] at h
      simp [h.1, h.2]
  | 2 =>
    refine ⟨(x - b - a, b), ?_, ?_⟩
    · simp [Aby3.share]
      ring
    · rintro ⟨r1, r2⟩ h
      simp [Aby3.share] at h
      obtain ⟨rfl, rfl⟩ := h
      simp

/-- In numbers: all secrets have the same number of random choices leading to a given local share. -/
theorem C20_aby3_count (x y : BitVec K) (i : Party) (s : AShare K) :
    Nat.card {r : BitVec K × BitVec K // (Aby3.share x r.1 r.2)[i.val]? = some s} =
    Nat.card {r : BitVec K × BitVec K // (Aby3.share y r.1 r.2)[i.val]? = some s} := by
  have one : ∀ x : BitVec K, Nat.card {r : BitVec K × BitVec K // (Aby3.share x r.1 r.2)[i.val]? = some s} = 1 := by
    intro x
    rw [Nat.card_eq_one_iff_exists]
    obtain ⟨r, h, u⟩ := C20_aby3 x i s
    exact ⟨⟨r, h⟩, fun r' => Subtype.ext (u _ r'.2)⟩
  rw [one, one]

theorem C20_swift3 (x : BitVec K) (i : Party) (s : S3Share K) :
    ∃! r : BitVec K × BitVec K × BitVec K, (Swift3.share x r.1 r.2.1 r.2.2)[i.val]? = some s := by
  obtain ⟨a, b, c⟩ := s
  match i with
  | 0 =>
    refine ⟨(a, c - x - a - b, b), ?_, ?_⟩
    · simp [Swift3.share]; ring
    · rintro ⟨r1, r2, r3⟩ h
      simp [Swift3.share] at h
      obtain ⟨rfl, rfl, rfl⟩ := h
      simp
      ring
  | 1 =>
    refine ⟨(b, a, c - x - a - b), ?_, ?_⟩
    · simp [Swift3.share]; ring
    · rintro ⟨r1, r2, r3⟩ h
      simp [Swift3.share] at h
      obtain ⟨rfl, rfl, rfl⟩ := h
      simp
      ring
  | 2 =>
    refine ⟨(c - x - a - b, b, a), ?_, ?_⟩
    · simp [Swift3.share]; ring
    · rintro ⟨r1, r2, r3⟩ h
      simp [Swift3.share] at h
      obtain ⟨rfl, rfl, rfl⟩ := h
      simp
      ring

theorem C20_swift3_count (x y : BitVec K) (i : Party) (s : S3Share K) :
    Nat.card {r : BitVec K × BitVec K × BitVec K // (Swift3.share x r.1 r.2.1 r.2.2)[i.val]? = some s} =
    Nat.card {r : BitVec K × BitVec K × BitVec K // (Swift3.share y r.1 r.2.1 r.2.2)[i.val]? = some s} := by
  have one : ∀ x : BitVec K,
      Nat.card {r : BitVec K × BitVec K × BitVec K // (Swift3.share x r.1 r.2.1 r.2.2)[i.val]? = some s} = 1 := by
    intro x
    rw [Nat.card_eq_one_iff_exists]
    obtain ⟨r, h, u⟩ := C20_swift3 x i s
    exact ⟨⟨r, h⟩, fun r' => Subtype.ext (u _ r'.2)⟩
  rw [one, one]

/-- For a fixed MAC key; the randomness is four ring elements of the verification ring. -/
theorem C20_spdz (k : BitVec V) (x : BitVec K) (i : Party) (s : SShare V) :
    ∃! r : (BitVec V × BitVec V) × (BitVec V × BitVec V),
      (Spdz.share x k r.1.1 r.1.2 r.2.1 r.2.2)[i.val]? = some s := by
  have e : ∀ r : (BitVec V × BitVec V) × (BitVec V × BitVec V),
      (Spdz.share x k r.1.1 r.1.2 r.2.1 r.2.2)[i.val]? = some s ↔
      (Aby3.share (toVerif V x) r.1.1 r.1.2)[i.val]? = some s.value ∧
      (Aby3.share (k * toVerif V x) r.2.1 r.2.2)[i.val]? = some s.mac := by
    intro r
    obtain ⟨sv, sm⟩ := s
    match i with
    | 0 => simp [Spdz.share, Aby3.share]
    | 1 => simp [Spdz.share, Aby3.share]
    | 2 => simp [Spdz.share, Aby3.share]
  obtain ⟨r1, h1, u1⟩ := C20_aby3 (toVerif V x) i s.value
  obtain ⟨r2, h2, u2⟩ := C20_aby3 (k * toVerif V x) i s.mac
  refine ⟨(r1, r2), (e _).2 ⟨h1, h2⟩, ?_⟩
  rintro ⟨r1', r2'⟩ h
  rw [e] at h
  rw [u1 r1' h.1, u2 r2' h.2]

example : (Aby3.share 5#8 1 2)[0]? = some ⟨1, 2⟩ ∧ (Aby3.share 9#8 1 6)[0]? = some ⟨1, 2⟩ := ⟨rfl, rfl⟩
example : (Swift3.share 5#8 1 2 3)[2]? = some ⟨3, 2, 11⟩ ∧ (Swift3.share 4#8 2 2 3)[2]? = some ⟨3, 2, 11⟩ := ⟨rfl, rfl⟩

/-! ## C21: the messages of the resharing are masked

`tapePrg` is the ideal generator: its state is the sequence of its future outputs. Party `i` knows its own two generators
(`prf` of its state), but not the third one, which its two neighbours have in common; `withUnknown i z st` sets the next
output of this third generator to `z`. -/

/-- The generator whose state is the list of all its future outputs, for every type. -/
def tapePrg : Prg where
  S := Nat → (K : Nat) → BitVec K
  ofSeed _ := fun _ _ => 0
  gen K s := (s 0 K, fun n => s (n + 1))
  genSeed s := (List.replicate 32 (s 0 8), fun n => s (n + 1))
  genRange n s := ((s 0 64).toNat % n, fun n => s (n + 1))
  genRange_lt _ _ h := Nat.mod_lt _ h
  genSeed_length _ := by simp

/-- The tape `s` with the next `K`-bit output replaced by `z`. -/
def setHead {K : Nat} (z : BitVec K) (s : tapePrg.S) : tapePrg.S :=
  fun n K' => if h : n = 0 ∧ K' = K then h.2 ▸ z else s n K'

theorem setHead_gen {K : Nat} (z : BitVec K) (s : tapePrg.S) : (tapePrg.gen K (setHead z s)).1 = z := by
  simp [tapePrg, setHead]

/-- The states `st` with the next output of the generator unknown to party `i` replaced by `z`. -/
def withUnknown {K : Nat} (i : Party) (z : BitVec K) (st : Party → Aby3St tapePrg) (j : Party) : Aby3St tapePrg :=
  if j = i.prev then ⟨⟨(st j).prf.my, setHead z (st j).prf.next⟩⟩
  else if j = i.next then ⟨⟨setHead z (st j).prf.my, (st j).prf.next⟩⟩
  else st j

/-- Party `i`'s part of the state does not depend on the unknown output, and consistent states stay consistent. -/
theorem withUnknown_self {K : Nat} (i : Party) (z : BitVec K) (st : Party → Aby3St tapePrg) :
    withUnknown i z st i = st i := by
  match i with
  | 0 => rfl
  | 1 => rfl
  | 2 => rfl

theorem withUnknown_ready {K : Nat} (i : Party) (z : BitVec K) (st : Party → Aby3St tapePrg) (h : Aby3Ready st) :
    Aby3Ready (withUnknown i z st) := by
  have h0 := h 0; have h1 := h 1; have h2 := h 2
  simp only [Party.prev_zero, Party.prev_one, Party.prev_two] at h0 h1 h2
  match i with
  | 0 => refine forall_party.2 ⟨?_, ?_, ?_⟩ <;> simp [withUnknown, h0, h1, h2]
  | 1 => refine forall_party.2 ⟨?_, ?_, ?_⟩ <;> simp [withUnknown, h0, h1, h2]
  | 2 => refine forall_party.2 ⟨?_, ?_, ?_⟩ <;> simp [withUnknown, h0, h1, h2]

/-- What the code computes, seen from outside: under every schedule party `j` ends with `(v j, v (j-1))`, where `v j` is
the value it sends on; its second component is the received message. -/
theorem mul_exact (a b : Party → AShare K) (st : Party → Aby3St G) :
    EverySchedule (fun i => Aby3.mul i (a i) (b i)) st (fun c _ => ∀ j, c j =
      ⟨((a j).mulLocal (b j)).a + ((G.gen K (st j).prf.my).1 - (G.gen K (st j).prf.next).1),
       ((a j.prev).mulLocal (b j.prev)).a + ((G.gen K (st j.prev).prf.my).1 - (G.gen K (st j.prev).prf.next).1)⟩) := by
  unfold Aby3.mul
  exact (WPS.bind (WPS.step (Aby3.reshare_wp (x := (0 : BitVec K)) fun j => rfl))).allSchedules

theorem and_exact (a b : Party → AShare K) (st : Party → Aby3St G) :
    EverySchedule (fun i => Aby3.and i (a i) (b i)) st (fun c _ => ∀ j, c j =
      ⟨((a j).andLocal (b j)).a ^^^ ((G.gen K (st j).prf.my).1 ^^^ (G.gen K (st j).prf.next).1),
       ((a j.prev).andLocal (b j.prev)).a ^^^ ((G.gen K (st j.prev).prf.my).1 ^^^ (G.gen K (st j.prev).prf.next).1)⟩) := by
  unfold Aby3.and
  exact (WPS.bind (WPS.step (Aby3.reshare_wp (x := (0 : BitVec K)) fun j => rfl))).allSchedules

theorem dot_exact (a b : Party → List (AShare K)) (hl : ∀ i, (a i).length = (b i).length) (st : Party → Aby3St G) :
    EverySchedule (fun i => Aby3.dot i (a i) (b i)) st (fun c _ => ∀ j, c j =
      ⟨Aby3.dotAcc ((G.gen K (st j).prf.my).1 - (G.gen K (st j).prf.next).1) ((a j).zip (b j)),
       Aby3.dotAcc ((G.gen K (st j.prev).prf.my).1 - (G.gen K (st j.prev).prf.next).1) ((a j.prev).zip (b j.prev))⟩) := by
  unfold Aby3.dot
  exact (WPS.ite_neg (fun i => by simp [hl]) (WPS.bind (WPS.step (Aby3.reshare_wp (x := (0 : BitVec K)) fun j => rfl)))).allSchedules

theorem input_exact (id : Party) (x : BitVec K) (inp : Party → Option (BitVec K)) (hx : inp id = some x)
    (st : Party → Aby3St G) :
    EverySchedule (fun i => Aby3.input i (inp i) id.val) st (fun c _ => ∀ j, c j =
      ⟨(G.gen K (st j).prf.my).1 - (G.gen K (st j).prf.next).1 + (if j = id then x else 0),
       (G.gen K (st j.prev).prf.my).1 - (G.gen K (st j.prev).prf.next).1 + (if j.prev = id then x else 0)⟩) := by
  unfold Aby3.input
  have hid : ¬ id.val ≥ 3 := by have := id.isLt; omega
  refine (WPS.ite_neg (fun _ => hid) (WPS.bind (WPS.step ?_))).allSchedules
  refine WPS.congr (q := fun i => (do
      let cb ← Proto.net (sendAndReceiveValue i ((G.gen K (st i).prf.my).1 - (G.gen K (st i).prf.next).1 + (if i = id then x else 0)))
      pure ⟨(G.gen K (st i).prf.my).1 - (G.gen K (st i).prf.next).1 + (if i = id then x else 0), cb⟩)) (fun i => ?_)
    (Aby3.reshare_wp (x := x) fun j => rfl)
  by_cases hi : i = id
  · subst hi; simp [hx, Prf.genZeroShare, Prf.genRands]
  · have : ¬ id.val = i.val := fun h => hi (Fin.ext h.symm)
    simp [hi, this, Prf.genZeroShare, Prf.genRands]

theorem dotAcc_shift (r : BitVec K) (ps : List (AShare K × AShare K)) : Aby3.dotAcc r ps = r + Aby3.dotAcc 0 ps := by
  unfold Aby3.dotAcc
  induction ps generalizing r with
  | nil => simp
  | cons p ps ih =>
    simp only [List.foldl_cons]
    rw [ih, ih (0 + _), zero_add, BitVec.add_assoc]

/-- The predecessor of `i` masks with the generator unknown to `i`. -/
theorem withUnknown_prev {K : Nat} (i : Party) (z : BitVec K) (st : Party → Aby3St tapePrg) :
    withUnknown i z st i.prev = ⟨⟨(st i.prev).prf.my, setHead z (st i.prev).prf.next⟩⟩ := by
  simp [withUnknown]

/-- `x ↦ c - x` and `x ↦ c ^^^ x` are bijections. -/
theorem bij_sub (c d : BitVec K) : Function.Bijective fun z : BitVec K => c + (d - z) := by
  refine ⟨fun x y h => ?_, fun m => ⟨c + d - m, by simp only; ring⟩⟩
  have h' : c + (d - x) = c + (d - y) := h
  calc x = c + d - (c + (d - x)) := by ring
    _ = y := by rw [h']; ring

theorem bij_xor (c d : BitVec K) : Function.Bijective fun z : BitVec K => c ^^^ (d ^^^ z) := by
  have inv : ∀ z : BitVec K, c ^^^ (d ^^^ (c ^^^ (d ^^^ z))) = z := fun z => by
    apply BitVec.eq_of_getLsbD_eq; intro j _
    simp only [BitVec.getLsbD_xor]
    cases c.getLsbD j <;> cases d.getLsbD j <;> cases z.getLsbD j <;> rfl
  refine ⟨fun x y h => ?_, fun m => ⟨c ^^^ (d ^^^ m), inv m⟩⟩
  have h' : c ^^^ (d ^^^ x) = c ^^^ (d ^^^ y) := h
  rw [← inv x, h', inv y]

/-- Assembles the three statements from the exact result. -/
theorem masked_of {p : Party → Proto (Aby3St tapePrg) (AShare K)} {i : Party} {st : Party → Aby3St tapePrg}
    (v : BitVec K → Party → BitVec K)
    (h : ∀ z, EverySchedule p (withUnknown i z st) (fun c _ => ∀ j, c j = ⟨v z j, v z j.prev⟩))
    (hb : Function.Bijective fun z => v z i.prev) (hc : ∀ z z', v z i = v z' i) :
    ∃ f : BitVec K → Party → AShare K,
      (∀ z, EverySchedule p (withUnknown i z st) (fun c _ => c = f z)) ∧
      (Function.Bijective fun z => (f z i).b) ∧ ∀ z z', (f z i).a = (f z' i).a :=
  ⟨fun z j => ⟨v z j, v z j.prev⟩, fun z => (h z).imp fun _ h => h.imp fun _ h => ⟨h.1, funext h.2⟩, hb, hc⟩

/-- Multiplication, for all shares and all generator states: as the next output `z` of the generator unknown to party
`i` varies, the outcome of the run (the same for every schedule) varies as `f z`; the component of the result that
party `i` has received runs through all values, each exactly once; what it has computed itself does not change. -/
theorem C21_mul (i : Party) (a b : Party → AShare K) (st : Party → Aby3St tapePrg) :
    ∃ f : BitVec K → Party → AShare K,
      (∀ z, EverySchedule (fun j => Aby3.mul j (a j) (b j)) (withUnknown i z st) (fun c _ => c = f z)) ∧
      (Function.Bijective fun z => (f z i).b) ∧ ∀ z z', (f z i).a = (f z' i).a := by
  refine masked_of (fun z j => ((a j).mulLocal (b j)).a + ((tapePrg.gen K (withUnknown i z st j).prf.my).1 - (tapePrg.gen K (withUnknown i z st j).prf.next).1))
    (fun z => mul_exact a b (withUnknown i z st)) ?_ ?_
  · simp only [withUnknown_prev, setHead_gen]
    exact bij_sub _ _
  · intro z z'
    simp only [withUnknown_self]

theorem C21_and (i : Party) (a b : Party → AShare K) (st : Party → Aby3St tapePrg) :
    ∃ f : BitVec K → Party → AShare K,
      (∀ z, EverySchedule (fun j => Aby3.and j (a j) (b j)) (withUnknown i z st) (fun c _ => c = f z)) ∧
      (Function.Bijective fun z => (f z i).b) ∧ ∀ z z', (f z i).a = (f z' i).a := by
  refine masked_of (fun z j => ((a j).andLocal (b j)).a ^^^ ((tapePrg.gen K (withUnknown i z st j).prf.my).1 ^^^ (tapePrg.gen K (withUnknown i z st j).prf.next).1))
    (fun z => and_exact a b (withUnknown i z st)) ?_ ?_
  · simp only [withUnknown_prev, setHead_gen]
    exact bij_xor _ _
  · intro z z'
    simp only [withUnknown_self]

theorem C21_dot (i : Party) (a b : Party → List (AShare K)) (hl : ∀ i, (a i).length = (b i).length)
    (st : Party → Aby3St tapePrg) :
    ∃ f : BitVec K → Party → AShare K,
      (∀ z, EverySchedule (fun j => Aby3.dot j (a j) (b j)) (withUnknown i z st) (fun c _ => c = f z)) ∧
      (Function.Bijective fun z => (f z i).b) ∧ ∀ z z', (f z i).a = (f z' i).a := by
  refine masked_of (fun z j => Aby3.dotAcc ((tapePrg.gen K (withUnknown i z st j).prf.my).1 - (tapePrg.gen K (withUnknown i z st j).prf.next).1) ((a j).zip (b j)))
    (fun z => dot_exact a b hl (withUnknown i z st)) ?_ ?_
  · simp only [withUnknown_prev, setHead_gen]
    simp only [dotAcc_shift (_ - _), BitVec.add_comm (_ - _)]
    exact bij_sub _ _
  · intro z z'
    simp only [withUnknown_self]

/-- The same for `input`, whoever is the dealer. -/
theorem C21_input (i id : Party) (x : BitVec K) (inp : Party → Option (BitVec K)) (hx : inp id = some x)
    (st : Party → Aby3St tapePrg) :
    ∃ f : BitVec K → Party → AShare K,
      (∀ z, EverySchedule (fun j => Aby3.input j (inp j) id.val) (withUnknown i z st) (fun c _ => c = f z)) ∧
      (Function.Bijective fun z => (f z i).b) ∧ ∀ z z', (f z i).a = (f z' i).a := by
  refine masked_of (fun z j => (tapePrg.gen K (withUnknown i z st j).prf.my).1 - (tapePrg.gen K (withUnknown i z st j).prf.next).1 + (if j = id then x else 0))
    (fun z => input_exact id x inp hx (withUnknown i z st)) ?_ ?_
  · simp only [withUnknown_prev, setHead_gen, BitVec.add_comm (_ - _)]
    exact bij_sub _ _
  · intro z z'
    simp only [withUnknown_self]

/-- The states considered include the correlated ones: with the unknown output changed they are still correlated. -/
example (i : Party) (z : BitVec 16) (s : tapePrg.S) :
    Aby3Ready (withUnknown i z fun _ => ⟨⟨s, s⟩⟩) := withUnknown_ready i z _ fun _ => rfl

end Verif
