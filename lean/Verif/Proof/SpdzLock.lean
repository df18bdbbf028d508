import Verif.Proof.LockAnd
import Verif.Spec.PrivacySpdz
import Verif.Proof.Spdz
import Verif.Proof.RushingSpdz

/-!
# Two runs of the SPDZ-wise backend in lock-step

As `Proof/Lock.lean`, for the state of the SPDZ-wise backend. The precomputed triples are kept outside: `LockS` describes
code that does not touch them, whatever they are.
-/

namespace Verif

open Jmp Spdz

variable {f : Bytes → List Bool} {V : Nat} {α β : Type} {i : Party}

/-- The state with the precomputed triples `P`. -/
def SpdzSt.put {G : Prg} (P : Triples) (s : SpdzSt G V) : SpdzSt G V := { s with prec := P }

theorem tapeS_self (t : List Bool) (st : Party → SpdzSt (idealPrg f) V) : tapeS i t st i = st i := by
  unfold tapeS
  rw [tapeIn_self]

/-- See the head of this file. -/
def LockS (i : Party) (u : Bool → List Bool) (p : Bool → Party → Proto (SpdzSt (idealPrg f) V) α)
    (st : Bool → Party → SpdzSt (idealPrg f) V) (Q : (Bool → Party → α) → (Bool → Party → SpdzSt (idealPrg f) V) → Prop) : Prop :=
  ∃ (l : Bool → Party → Log) (a : Bool → Party → α) (t : Bool → Party → SpdzSt (idealPrg f) V),
    (∀ w (rest : List Bool) (acc : Party → Log) (P : Party → Triples),
      Runs (fun j => (p w j ((tapeS i (u w ++ rest) (st w) j).put (P j))).record (acc j))
        fun j => (acc j ++ l w j, (a w j, (tapeS i rest (t w) j).put (P j)))) ∧ l false i = l true i ∧ Q a t

namespace LockS

variable {u : Bool → List Bool} {st : Bool → Party → SpdzSt (idealPrg f) V}
  {Q : (Bool → Party → α) → (Bool → Party → SpdzSt (idealPrg f) V) → Prop}

theorem mono {p : Bool → Party → Proto (SpdzSt (idealPrg f) V) α} {Q' : (Bool → Party → α) → (Bool → Party → SpdzSt (idealPrg f) V) → Prop}
    (h : LockS i u p st Q) (hQ : ∀ a t, Q a t → Q' a t) : LockS i u p st Q' := by
  obtain ⟨l, a, t, h1, h2, h3⟩ := h
  exact ⟨l, a, t, h1, h2, hQ a t h3⟩

theorem congr {p q : Bool → Party → Proto (SpdzSt (idealPrg f) V) α} (hpq : ∀ w j, p w j = q w j) (h : LockS i u q st Q) :
    LockS i u p st Q := by
  rwa [show p = q from funext fun w => funext fun j => hpq w j]

/-- Code without messages. -/
theorem loc {p : Bool → Party → Proto (SpdzSt (idealPrg f) V) α} {a : Bool → Party → α} {t : Bool → Party → SpdzSt (idealPrg f) V}
    (h : ∀ w rest j P, p w j ((tapeS i (u w ++ rest) (st w) j).put P) = .ret (a w j, (tapeS i rest (t w) j).put P)) (hQ : Q a t) :
    LockS i u p st Q := by
  refine ⟨fun _ _ => [], a, t, fun w rest acc P => ?_, rfl, hQ⟩
  simp only [h, List.append_nil]
  exact ⟨0, .zero _⟩

theorem pure {a : Bool → Party → α} (h : Q a st) :
    LockS i (fun _ => []) (fun w j => (Pure.pure (a w j) : Proto (SpdzSt (idealPrg f) V) α)) st Q :=
  loc (a := a) (t := st) (fun _ _ _ _ => rfl) h

theorem lift {x : Bool → Party → Except Err α} {a : Bool → Party → α} (hx : ∀ w j, x w j = .ok (a w j)) (h : Q a st) :
    LockS i (fun _ => []) (fun w j => (Proto.lift (x w j) : Proto (SpdzSt (idealPrg f) V) α)) st Q :=
  congr (q := fun w j => (Pure.pure (a w j) : Proto (SpdzSt (idealPrg f) V) α)) (fun w j => by rw [hx]; rfl) (pure h)

theorem ite_neg {c : Bool → Party → Prop} [∀ w k, Decidable (c w k)] {p q : Bool → Party → Proto (SpdzSt (idealPrg f) V) α}
    (hc : ∀ w k, ¬ c w k) (h : LockS i u q st Q) : LockS i u (fun w k => if c w k then p w k else q w k) st Q :=
  congr (fun w k => if_neg (hc w k)) h

theorem bind {u' : Bool → List Bool} {p : Bool → Party → Proto (SpdzSt (idealPrg f) V) α}
    {k : Bool → Party → α → Proto (SpdzSt (idealPrg f) V) β} {Q : (Bool → Party → β) → (Bool → Party → SpdzSt (idealPrg f) V) → Prop}
    (h : LockS i u p st fun a t => LockS i u' (fun w j => k w j (a w j)) t Q) :
    LockS i (fun w => u w ++ u' w) (fun w j => p w j >>= k w j) st Q := by
  obtain ⟨l, a, t, h1, h2, l', a', t', k1, k2, k3⟩ := h
  refine ⟨fun w j => l w j ++ l' w j, a', t', fun w rest acc P => ?_,
    by show l false i ++ l' false i = l true i ++ l' true i; rw [h2, k2], k3⟩
  have e : ∀ j, ((p w j >>= k w j) ((tapeS i (u w ++ u' w ++ rest) (st w) j).put (P j))).record (acc j)
      = (p w j ((tapeS i (u w ++ (u' w ++ rest)) (st w) j).put (P j))).record (acc j) >>= fun r => (k w j r.2.1 r.2.2).record r.1 := by
    intro j
    rw [List.append_assoc]
    exact Prog.record_bind _ _ _
  have e' : (fun j => (acc j ++ (l w j ++ l' w j), (a' w j, (tapeS i rest (t' w) j).put (P j)))) =
      fun j => (acc j ++ l w j ++ l' w j, (a' w j, (tapeS i rest (t' w) j).put (P j))) := by simp only [List.append_assoc]
  simp only [e, e']
  exact Runs.bind (k := fun j r => (k w j r.2.1 r.2.2).record r.1) (h1 w (u' w ++ rest) acc P)
    (k1 w rest (fun j => acc j ++ l w j) P)

/-- A first step that draws nothing. -/
theorem bind' {p : Bool → Party → Proto (SpdzSt (idealPrg f) V) α}
    {k : Bool → Party → α → Proto (SpdzSt (idealPrg f) V) β} {Q : (Bool → Party → β) → (Bool → Party → SpdzSt (idealPrg f) V) → Prop}
    (h : LockS i (fun _ => []) p st fun a t => LockS i u (fun w j => k w j (a w j)) t Q) :
    LockS i u (fun w j => p w j >>= k w j) st Q := bind (u := fun _ => []) h

/-- A last step that draws nothing. -/
theorem bind_last {p : Bool → Party → Proto (SpdzSt (idealPrg f) V) α}
    {k : Bool → Party → α → Proto (SpdzSt (idealPrg f) V) β} {Q : (Bool → Party → β) → (Bool → Party → SpdzSt (idealPrg f) V) → Prop}
    (h : LockS i u p st fun a t => LockS i (fun _ => []) (fun w j => k w j (a w j)) t Q) :
    LockS i u (fun w j => p w j >>= k w j) st Q := by
  have := bind h
  simpa only [List.append_nil] using this

theorem net {p : Bool → Party → Prog α} {a : Bool → Party → α} (h : Talk i p a) (hQ : Q a st) :
    LockS i (fun _ => []) (fun w j => (Proto.net (p w j) : Proto (SpdzSt (idealPrg f) V) α)) st Q := by
  obtain ⟨l, h1, h2⟩ := h
  refine ⟨l, a, st, fun w rest acc P => ?_, h2, hQ⟩
  have e : ∀ j, ((Proto.net (p w j) : Proto (SpdzSt (idealPrg f) V) α) ((tapeS i ([] ++ rest) (st w) j).put (P j))).record (acc j) =
      (p w j).record (acc j) >>= fun r => Prog.ret (r.1, (r.2, (tapeS i rest (st w) j).put (P j))) := by
    intro j
    show (p w j >>= fun a => Prog.ret (a, (tapeS i rest (st w) j).put (P j))).record (acc j) = _
    rw [Prog.record_bind]
    rfl
  simp only [e]
  exact (h1 w acc).bind ⟨0, .zero _⟩

/-- Code that uses the generators and the message queues only. -/
theorem zoom {p : Bool → Party → Proto (JmpSt (idealPrg f)) α} {R : (Bool → Party → α) → (Bool → Party → JmpSt (idealPrg f)) → Prop}
    (h : Lock i u p (fun w j => (st w j).jmp) R) (hQ : ∀ a t, R a t → Q a fun w j => { st w j with jmp := t w j }) :
    LockS i u (fun w j => (viaJmp (p w j) : Proto (SpdzSt (idealPrg f) V) α)) st Q := by
  obtain ⟨l, a, t, h1, h2, h3⟩ := h
  refine ⟨l, a, _, fun w rest acc P => ?_, h2, hQ a t h3⟩
  have e : ∀ j, ((viaJmp (p w j) : Proto (SpdzSt (idealPrg f) V) α) ((tapeS i (u w ++ rest) (st w) j).put (P j))).record (acc j) =
      (p w j (tapeIn i (u w ++ rest) (fun j => (st w j).jmp) j)).record (acc j) >>= fun r =>
        Prog.ret (r.1, (r.2.1, { (tapeS i (u w ++ rest) (st w) j).put (P j) with jmp := r.2.2 })) := by
    intro j
    show (p w j _ >>= fun r => Prog.ret _).record (acc j) = _
    rw [Prog.record_bind]
    rfl
  simp only [e]
  exact (h1 w rest acc).bind ⟨0, .zero _⟩

end LockS

/-- The invariant: in both worlds the state is consistent (with no precomputed triples, and `n` bits of AND gates waiting
for verification), and party `i` has the same state in both. -/
def TwinS (i : Party) (r : Bool → BitVec V) (n : Nat) (st : Bool → Party → SpdzSt (idealPrg f) V) : Prop :=
  (∀ w t, SpdzOk (r w) 0 n (tapeS i t (st w))) ∧ st false i = st true i

theorem TwinS.jmp {r : Bool → BitVec V} {n : Nat} {st : Bool → Party → SpdzSt (idealPrg f) V} (h : TwinS i r n st) :
    Twin i fun w j => (st w j).jmp :=
  ⟨fun w t => (h.1 w t).1, congrArg SpdzSt.jmp h.2⟩

/-- What is known about each of the runs, and the code of party `i` being the same in both worlds. -/
theorem LockS.full {u : Bool → List Bool} {st : Bool → Party → SpdzSt (idealPrg f) V} {r : Bool → BitVec V} {n n' : Nat}
    {p : Bool → Party → Proto (SpdzSt (idealPrg f) V) α} {Q : (Bool → Party → α) → (Bool → Party → SpdzSt (idealPrg f) V) → Prop}
    (hq : ∀ a t (P : Bool → Party → Triples), Q a t → Q a fun w j => (t w j).put (P w j)) (h : LockS i u p st Q) (hst : TwinS i r n st) (hp : p false i = p true i) {R : Bool → (Party → α) → Prop}
    (hw : ∀ w t, SpdzOk (r w) 0 n (tapeS i (u w ++ t) (st w)) →
      WPS (p w) (tapeS i (u w ++ t) (st w)) fun a t' => R w a ∧ SpdzOk (r w) 0 n' t') :
    LockS i u p st fun a t => Q a t ∧ TwinS i r n' t ∧ a false i = a true i ∧ ∀ w, R w (a w) := by
  obtain ⟨l, a, t, h1, h2, h3⟩ := h
  have h4 : ∀ w rest, R w (a w) ∧ SpdzOk (r w) 0 n' (tapeS i rest fun j => (t w j).put (st w j).prec) := by
    intro w rest
    obtain ⟨x, hx, hQ, hJ⟩ := hw w rest (hst.1 w _)
    have := hx.unique (h1 w rest (fun _ => []) fun j => (st w j).prec).erase
    subst this
    exact ⟨hQ, hJ⟩
  have h5 : ∀ w, (p w i (st w i)).replay (l w i) = some (a w i, (t w i).put (st w i).prec) := by
    intro w
    have := Runs.replay (h1 w [] (fun _ => []) fun j => (st w j).prec) (i := i) (ms := l w i) rfl
    rwa [tapeS_self, tapeS_self] at this
  have h6 : (a false i, (t false i).put (st false i).prec) = (a true i, (t true i).put (st true i).prec) := by
    have := h5 false
    rw [hp, hst.2, h2, h5 true] at this
    injection this with this
    rw [hst.2]
    exact this.symm
  rw [Prod.mk.injEq] at h6
  exact ⟨l, a, fun w j => (t w j).put (st w j).prec, h1, h2, hq _ _ _ h3, ⟨fun w rest => (h4 w rest).2, h6.2⟩, h6.1, fun w => (h4 w []).1⟩

/-! ## Couplings -/

/-- There are two injective maps on tapes of `n` bits, one for each world, such that party `i` sees the same messages in
both worlds when the tapes are the images of the same tape. -/
def CplS (i : Party) (n : Nat) (I : (Bool → Party → SpdzSt (idealPrg f) V) → Prop)
    (p : Bool → Party → Proto (SpdzSt (idealPrg f) V) α)
    (Q : (Bool → Party → α) → (Bool → Party → SpdzSt (idealPrg f) V) → Prop) : Prop :=
  ∀ st, I st → ∃ φ : Bool → List Bool → List Bool, (∀ w u, u.length = n → (φ w u).length = n) ∧
    (∀ w u u', u.length = n → u'.length = n → φ w u = φ w u' → u = u') ∧
    ∀ u, u.length = n → LockS i (fun w => φ w u) p st Q

namespace CplS

variable {n m : Nat} {I : (Bool → Party → SpdzSt (idealPrg f) V) → Prop}
  {Q : (Bool → Party → α) → (Bool → Party → SpdzSt (idealPrg f) V) → Prop}

theorem mono {p : Bool → Party → Proto (SpdzSt (idealPrg f) V) α} {Q' : (Bool → Party → α) → (Bool → Party → SpdzSt (idealPrg f) V) → Prop}
    (h : CplS i n I p Q) (hQ : ∀ a t, Q a t → Q' a t) : CplS i n I p Q' := by
  intro st hst
  obtain ⟨φ, h1, h2, h3⟩ := h st hst
  exact ⟨φ, h1, h2, fun u hu => (h3 u hu).mono hQ⟩

theorem pre {I' : (Bool → Party → SpdzSt (idealPrg f) V) → Prop} {p : Bool → Party → Proto (SpdzSt (idealPrg f) V) α}
    (h : CplS i n I p Q) (hI : ∀ st, I' st → I st) : CplS i n I' p Q := fun st hst => h st (hI st hst)

theorem congr {p q : Bool → Party → Proto (SpdzSt (idealPrg f) V) α} (hpq : ∀ w j, p w j = q w j) (h : CplS i n I q Q) :
    CplS i n I p Q := by
  rwa [show p = q from funext fun w => funext fun j => hpq w j]

/-- Code that draws nothing. -/
theorem zero {p : Bool → Party → Proto (SpdzSt (idealPrg f) V) α} (h : ∀ st, I st → LockS i (fun _ => []) p st Q) :
    CplS i 0 I p Q := by
  intro st hst
  refine ⟨fun _ _ => [], fun _ _ _ => rfl, fun _ u u' hu hu' _ => ?_, fun u _ => h st hst⟩
  rw [List.length_eq_zero_iff.1 hu, List.length_eq_zero_iff.1 hu']

theorem pure {a : Bool → Party → α} (h : ∀ st, I st → Q a st) :
    CplS i 0 I (fun w j => (Pure.pure (a w j) : Proto (SpdzSt (idealPrg f) V) α)) Q := zero fun st hst => LockS.pure (h st hst)

theorem lift {x : Bool → Party → Except Err α} {a : Bool → Party → α} (hx : ∀ w j, x w j = .ok (a w j)) (h : ∀ st, I st → Q a st) :
    CplS i 0 I (fun w j => (Proto.lift (x w j) : Proto (SpdzSt (idealPrg f) V) α)) Q :=
  congr (q := fun w j => (Pure.pure (a w j) : Proto (SpdzSt (idealPrg f) V) α)) (fun w j => by rw [hx]; rfl) (pure h)

theorem ite_neg {c : Bool → Party → Prop} [∀ w k, Decidable (c w k)] {p q : Bool → Party → Proto (SpdzSt (idealPrg f) V) α}
    (hc : ∀ w k, ¬ c w k) (h : CplS i n I q Q) : CplS i n I (fun w k => if c w k then p w k else q w k) Q :=
  congr (fun w k => if_neg (hc w k)) h

theorem bind {p : Bool → Party → Proto (SpdzSt (idealPrg f) V) α} {k : Bool → Party → α → Proto (SpdzSt (idealPrg f) V) β}
    {Q' : (Bool → Party → β) → (Bool → Party → SpdzSt (idealPrg f) V) → Prop} (h : CplS i n I p Q)
    (hk : ∀ a, CplS i m (Q a) (fun w j => k w j (a w j)) Q') : CplS i (n + m) I (fun w j => p w j >>= k w j) Q' := by
  intro st hst
  obtain ⟨φ, h1, h2, h3⟩ := h st hst
  choose l a t r1 r2 r3 using h3
  have key : ∀ u (hu : u.length = n), ∃ ψ : Bool → List Bool → List Bool, (∀ w u, u.length = m → (ψ w u).length = m) ∧
    (∀ w u u', u.length = m → u'.length = m → ψ w u = ψ w u' → u = u') ∧
    ∀ u', u'.length = m → LockS i (fun w => ψ w u') (fun w j => k w j (a u hu w j)) (t u hu) Q' :=
    fun u hu => hk _ _ (r3 u hu)
  choose ψ k1 k2 k3 using key
  have ht : ∀ u : List Bool, u.length = n + m → (u.take n).length = n := fun u hu => by rw [List.length_take, hu]; omega
  have hd : ∀ u : List Bool, u.length = n + m → (u.drop n).length = m := fun u hu => by rw [List.length_drop, hu]; omega
  refine ⟨fun w u => if hu : u.length = n + m then φ w (u.take n) ++ ψ (u.take n) (ht u hu) w (u.drop n) else [], ?_, ?_, ?_⟩
  · intro w u hu
    simp only [dif_pos hu]
    rw [List.length_append, h1 _ _ (ht u hu), k1 _ _ _ _ (hd u hu)]
  · intro w u u' hu hu' e
    change dite _ _ _ = dite _ _ _ at e
    rw [dif_pos hu, dif_pos hu'] at e
    obtain ⟨e1, e2⟩ := List.append_inj e (by rw [h1 _ _ (ht u hu), h1 _ _ (ht u' hu')])
    have e3 := h2 _ _ _ (ht u hu) (ht u' hu') e1
    have e4 : u.drop n = u'.drop n := by
      have : ∀ v (hv : v.length = n) x, v = u.take n → ψ v hv w x = ψ (u.take n) (ht u hu) w x := by
        rintro v hv x rfl
        rfl
      rw [this _ (ht u' hu') _ e3.symm] at e2
      exact k2 _ _ _ _ _ (hd u hu) (hd u' hu') e2
    rw [← List.take_append_drop n u, ← List.take_append_drop n u', e3, e4]
  · intro u hu
    simp only [dif_pos hu]
    exact LockS.bind ⟨l _ (ht u hu), a _ (ht u hu), t _ (ht u hu), r1 _ (ht u hu), r2 _ (ht u hu), k3 _ (ht u hu) _ (hd u hu)⟩

theorem bind' {p : Bool → Party → Proto (SpdzSt (idealPrg f) V) α} {k : Bool → Party → α → Proto (SpdzSt (idealPrg f) V) β}
    {Q' : (Bool → Party → β) → (Bool → Party → SpdzSt (idealPrg f) V) → Prop} (h : CplS i 0 I p Q)
    (hk : ∀ a, CplS i m (Q a) (fun w j => k w j (a w j)) Q') : CplS i m I (fun w j => p w j >>= k w j) Q' := by
  have := bind h hk
  rwa [Nat.zero_add] at this

/-- What is known about each of the runs, and the code of party `i` being the same in both worlds. -/
theorem full {p : Bool → Party → Proto (SpdzSt (idealPrg f) V) α} {r : Bool → BitVec V} {x x' : Nat}
    {J : (Bool → Party → SpdzSt (idealPrg f) V) → Prop}
    {Q : (Bool → Party → α) → (Bool → Party → SpdzSt (idealPrg f) V) → Prop}
    (hq : ∀ a t (P : Bool → Party → Triples), Q a t → Q a fun w j => (t w j).put (P w j))
    (h : CplS i n (fun st => TwinS i r x st ∧ J st) p Q) (hp : p false i = p true i) {R : Bool → (Party → α) → Prop}
    (hw : ∀ w (s : Party → SpdzSt (idealPrg f) V), SpdzOk (r w) 0 x s → WPS (p w) s fun a t' => R w a ∧ SpdzOk (r w) 0 x' t') :
    CplS i n (fun st => TwinS i r x st ∧ J st) p fun a t => (a false i = a true i ∧ ∀ w, R w (a w)) ∧ TwinS i r x' t ∧ Q a t := by
  intro st hst
  obtain ⟨φ, h1, h2, h3⟩ := h st hst
  refine ⟨φ, h1, h2, fun u hu => (LockS.full hq (h3 u hu) hst.1 hp fun w t hJ => hw w _ hJ).mono fun a t h => ⟨h.2.2, h.2.1, h.1⟩⟩

/-- A precondition that does not mention the state. -/
theorem assume {P : Prop} {p : Bool → Party → Proto (SpdzSt (idealPrg f) V) α} (h : P → CplS i n I p Q) :
    CplS i n (fun st => P ∧ I st) p Q := fun st hst => h hst.1 st hst.2

end CplS

end Verif
