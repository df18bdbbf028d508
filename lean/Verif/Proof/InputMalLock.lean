import Verif.Proof.LockCount
import Verif.Proof.SpdzLockRun
import Verif.Proof.MalAby3Iris

/-!
# Lock-step runs of `input` of the malicious ABY3 backend
-/

namespace Verif

open Jmp MalAby3

variable {f : Bytes → List Bool} {K : Nat} {i : Party}

/-! ## Messages -/

/-- The predecessor of `id` sends `x` to `id`. -/
theorem Talk.prevTo (id : Party) {x : Bool → Bytes} (hx : i = id → x false = x true) :
    Talk i (fun w j => if j = id then Prog.recv id.prev .ret else if j = id.prev then .send id (x w) (.ret []) else .ret [])
      fun w j => if j = id then x w else [] := by
  refine ⟨fun w j => if j = id then [(id.prev, x w)] else [], fun w acc => ?_, ?_⟩
  · suffices WP (fun j => (if j = id then Prog.recv id.prev .ret else if j = id.prev then .send id (x w) (.ret []) else .ret [] : Prog Bytes).record (acc j))
      (· = fun j => (acc j ++ (if j = id then [(id.prev, x w)] else []), if j = id then x w else [])) by
      obtain ⟨r, hr, e⟩ := this
      rw [e] at hr
      exact hr
    apply WP.of3
    match id with
    | 0 =>
      show R3 (.recv 2 fun a => .ret (acc 0 ++ [(2, a)], a)) (.ret (acc 1, [])) (.send 0 (x w) (.ret (acc 2, []))) [] [] [] [] [] [] _
      run3
      apply R3.done
      intro r h0 h1 h2
      exact party_ext (by simp [h0]) (by simp [h1]) (by simp [h2])
    | 1 =>
      show R3 (.send 1 (x w) (.ret (acc 0, []))) (.recv 0 fun a => .ret (acc 1 ++ [(0, a)], a)) (.ret (acc 2, [])) [] [] [] [] [] [] _
      run3
      apply R3.done
      intro r h0 h1 h2
      exact party_ext (by simp [h0]) (by simp [h1]) (by simp [h2])
    | 2 =>
      show R3 (.ret (acc 0, [])) (.send 2 (x w) (.ret (acc 1, []))) (.recv 1 fun a => .ret (acc 2 ++ [(1, a)], a)) [] [] [] [] [] [] _
      run3
      apply R3.done
      intro r h0 h1 h2
      exact party_ext (by simp [h0]) (by simp [h1]) (by simp [h2])
  · by_cases h : i = id
    · simp only [hx h]
    · simp only [if_neg h]

/-- The dealer `id` sends `x` to its successor and to its predecessor. -/
theorem Talk.cast2 (id : Party) {x : Bool → Bytes} (hx : i ≠ id → x false = x true) :
    Talk i (fun w j => if j = id then Prog.send id.next (x w) (.send id.prev (x w) (.ret [])) else .recv id .ret)
      fun w j => if j = id then [] else x w := by
  refine ⟨fun w j => if j = id then [] else [(id, x w)], fun w acc => ?_, ?_⟩
  · suffices WP (fun j => (if j = id then Prog.send id.next (x w) (.send id.prev (x w) (.ret [])) else .recv id .ret : Prog Bytes).record (acc j))
      (· = fun j => (acc j ++ (if j = id then [] else [(id, x w)]), if j = id then [] else x w)) by
      obtain ⟨r, hr, e⟩ := this
      rw [e] at hr
      exact hr
    apply WP.of3
    match id with
    | 0 =>
      show R3 (.send 1 (x w) (.send 2 (x w) (.ret (acc 0, [])))) (.recv 0 fun a => .ret (acc 1 ++ [(0, a)], a))
        (.recv 0 fun a => .ret (acc 2 ++ [(0, a)], a)) [] [] [] [] [] [] _
      run3
      apply R3.done
      intro r h0 h1 h2
      exact party_ext (by simp [h0]) (by simp [h1]) (by simp [h2])
    | 1 =>
      show R3 (.recv 1 fun a => .ret (acc 0 ++ [(1, a)], a)) (.send 2 (x w) (.send 0 (x w) (.ret (acc 1, []))))
        (.recv 1 fun a => .ret (acc 2 ++ [(1, a)], a)) [] [] [] [] [] [] _
      run3
      apply R3.done
      intro r h0 h1 h2
      exact party_ext (by simp [h0]) (by simp [h1]) (by simp [h2])
    | 2 =>
      show R3 (.recv 2 fun a => .ret (acc 0 ++ [(2, a)], a)) (.recv 2 fun a => .ret (acc 1 ++ [(2, a)], a))
        (.send 0 (x w) (.send 1 (x w) (.ret (acc 2, [])))) [] [] [] [] [] [] _
      run3
      apply R3.done
      intro r h0 h1 h2
      exact party_ext (by simp [h0]) (by simp [h1]) (by simp [h2])
  · by_cases h : i = id
    · simp only [h, if_true]
    · simp only [hx h]

/-- The two parties other than `id` send `x` to each other. -/
theorem Talk.cross (id : Party) {x : Bool → Bytes} (hx : i ≠ id → x false = x true) :
    Talk i (fun w j => if j = id then Prog.ret [] else if j = id.next then .send id.prev (x w) (.recv id.prev .ret)
      else .send id.next (x w) (.recv id.next .ret)) fun w j => if j = id then [] else x w := by
  refine ⟨fun w j => if j = id then [] else if j = id.next then [(id.prev, x w)] else [(id.next, x w)], fun w acc => ?_, ?_⟩
  · suffices WP (fun j => (if j = id then Prog.ret [] else if j = id.next then .send id.prev (x w) (.recv id.prev .ret)
      else .send id.next (x w) (.recv id.next .ret) : Prog Bytes).record (acc j))
      (· = fun j => (acc j ++ (if j = id then [] else if j = id.next then [(id.prev, x w)] else [(id.next, x w)]), if j = id then [] else x w)) by
      obtain ⟨r, hr, e⟩ := this
      rw [e] at hr
      exact hr
    apply WP.of3
    match id with
    | 0 =>
      show R3 (.ret (acc 0, [])) (.send 2 (x w) (.recv 2 fun a => .ret (acc 1 ++ [(2, a)], a)))
        (.send 1 (x w) (.recv 1 fun a => .ret (acc 2 ++ [(1, a)], a))) [] [] [] [] [] [] _
      run3
      apply R3.done
      intro r h0 h1 h2
      exact party_ext (by simp [h0]) (by simp [h1]) (by simp [h2])
    | 1 =>
      show R3 (.send 2 (x w) (.recv 2 fun a => .ret (acc 0 ++ [(2, a)], a))) (.ret (acc 1, []))
        (.send 0 (x w) (.recv 0 fun a => .ret (acc 2 ++ [(0, a)], a))) [] [] [] [] [] [] _
      run3
      apply R3.done
      intro r h0 h1 h2
      exact party_ext (by simp [h0]) (by simp [h1]) (by simp [h2])
    | 2 =>
      show R3 (.send 1 (x w) (.recv 1 fun a => .ret (acc 0 ++ [(1, a)], a))) (.send 0 (x w) (.recv 0 fun a => .ret (acc 1 ++ [(0, a)], a)))
        (.ret (acc 2, [])) [] [] [] [] [] [] _
      run3
      apply R3.done
      intro r h0 h1 h2
      exact party_ext (by simp [h0]) (by simp [h1]) (by simp [h2])
  · by_cases h : i = id
    · simp only [h, if_true]
    · simp only [hx h]

/-! ## The code -/

/-- What a party writes into its queues. -/
def malInputQueue (id me : Party) (s : AShare K) (c : BitVec K) (st : JmpSt (idealPrg f)) : JmpSt (idealPrg f) :=
  if me = id then { st with rcvQueueNext := st.rcvQueueNext ++ toBytes c }
  else if me = id.prev then st
  else { st with sendQueuePrev := st.sendQueuePrev ++ toBytes s.a }

/-- What a party does with its share at the end. -/
def malInputShare (id me : Party) (s : AShare K) (v : BitVec K) : AShare K :=
  if me = id then ⟨s.a + v, s.b⟩ else if me = id.next then ⟨s.a, s.b + v⟩ else s

/-- `input` cut into phases that all parties go through together. -/
def malInputPhases (id me : Party) (x : BitVec K) : Proto (JmpSt (idealPrg f)) (AShare K) := do
  let s ← genRand K
  let b ← Proto.net (if me = id then .recv id.prev .ret else if me = id.prev then .send id (toBytes s.b) (.ret []) else .ret [])
  let c ← Proto.lift (if me = id then fromBytes K b else .ok 0)
  Proto.step fun st => ((), malInputQueue id me s c st)
  let b1 ← Proto.net (if me = id then .send id.next (toBytes (x - (s.a + s.b + c))) (.send id.prev (toBytes (x - (s.a + s.b + c))) (.ret []))
    else .recv id .ret)
  let v ← Proto.lift (if me = id then .ok (x - (s.a + s.b + c)) else fromBytes K b1)
  let b2 ← Proto.net (if me = id then .ret [] else if me = id.next then .send id.prev (toBytes v) (.recv id.prev .ret)
    else .send id.next (toBytes v) (.recv id.next .ret))
  let v' ← Proto.lift (if me = id then .ok v else fromBytes K b2)
  if me ≠ id ∧ v ≠ v' then Proto.throw .verify else pure (malInputShare id me s v)

theorem malInput_eq (id me : Party) (inp : Option (BitVec K)) (h : me = id → inp ≠ none) :
    (input me inp id.val : Proto (JmpSt (idealPrg f)) _) = malInputPhases id me (inp.getD 0) := by
  have e1 : ∀ j : Party, (Proto.net (receiveValuePrev K j) : Proto (JmpSt (idealPrg f)) _) = Proto.net (.recv j.prev .ret) >>= fun b => Proto.lift (fromBytes K b) :=
    fun _ => rfl
  have e2 : ∀ j : Party, (Proto.net (receiveValueNext K j) : Proto (JmpSt (idealPrg f)) _) = Proto.net (.recv j.next .ret) >>= fun b => Proto.lift (fromBytes K b) :=
    fun _ => rfl
  have hid := id.isLt
  have v1 := (by decide : ∀ c : Party, c.next.val = (c.val + 1) % 3) id
  have v2 := (by decide : ∀ c : Party, c.prev.val = (c.val + 2) % 3) id
  have n1 := (by decide : ∀ c : Party, c.next ≠ c) id
  have n2 := (by decide : ∀ c : Party, c.prev ≠ c) id
  have n3 := (by decide : ∀ c : Party, c.next ≠ c.prev) id
  have w1 : id.val ≠ id.next.val := fun e => n1 (Fin.ext e.symm)
  have w2 : id.val ≠ id.prev.val := fun e => n2 (Fin.ext e.symm)
  have w3 : id.next.val ≠ id.prev.val := fun e => n3 (Fin.ext e)
  have l : ¬ id.val ≥ 3 := by omega
  unfold input reconstructId malInputPhases malInputShare malInputQueue
  rcases (by decide : ∀ a b : Party, a = b ∨ a = b.next ∨ a = b.prev) me id with rfl | rfl | rfl
  · obtain ⟨x, rfl⟩ := Option.ne_none_iff_exists'.1 (h rfl)
    unfold jmpReceive
    simp only [if_neg l, if_true, bind_assoc, pure_bind, e1, Option.getD_some, ne_eq, not_true_eq_false, false_and, if_false]
    rfl
  · simp only [← v1, ← v2, if_neg l, if_neg w1, if_neg w1.symm, if_neg w3, if_neg n3, if_true, bind_assoc, pure_bind, e1, e2, ne_eq, n1, if_false, sendValueNext, sendNext, not_false_eq_true, true_and,
      (by decide : ∀ c : Party, c.next.prev = c) id, (by decide : ∀ c : Party, c.next.next = c.prev) id]
    rfl
  · simp only [← v1, ← v2, if_neg l, if_neg w2, if_neg w2.symm, if_neg w3.symm, if_neg n3.symm, if_true, bind_assoc, pure_bind, e1, e2, ne_eq, n2, if_false, jmpSend, sendValueNext, sendNext, sendValuePrev, sendPrev, not_false_eq_true, true_and,
      (by decide : ∀ c : Party, c.prev.prev = c.next) id, (by decide : ∀ c : Party, c.prev.next = c) id]
    rfl

/-! ## The coupling -/

/-- The share that a party draws when the unknown tape begins with `A`. -/
def malDrawn (i : Party) (A : BitVec K) (st : Party → JmpSt (idealPrg f)) (j : Party) : AShare K :=
  ⟨if j = i.next then A else tapeVal K (st j).tapeA, if j = i.prev then A else tapeVal K (st j).tapeB⟩

theorem malDraw_lock (i : Party) (st : Bool → Party → JmpSt (idealPrg f)) (A : Bool → BitVec K) :
    Lock i (fun w => tapeOf (A w)) (fun _ _ => genRand K) st fun s _ => s = fun w => malDrawn i (A w) (st w) := by
  refine Lock.loc (t := fun w j => (st w j).adv K) (fun w rest j => ?_) rfl
  show Prog.ret (AShare.mk (tapeVal K (tapeIn i (tapeOf (A w) ++ rest) (st w) j).tapeA) (tapeVal K (tapeIn i (tapeOf (A w) ++ rest) (st w) j).tapeB),
    (tapeIn i (tapeOf (A w) ++ rest) (st w) j).adv K) = _
  rw [tapeIn_adv (tapeOf_length _), tapeIn_tapeA, tapeIn_tapeB]
  have e : ∀ (c : Prop) [Decidable c] t, tapeVal K (if c then tapeOf (A w) ++ rest else t) = if c then A w else tapeVal K t := by
    intro c _ t
    split_ifs
    · exact tapeVal_tapeOf _ _
    · rfl
  rw [e, e]
  rfl

/-- The value that the dealer opens. -/
def malOpened (id : Party) (s : Party → AShare K) : BitVec K := (s id).a + (s id).b + (s id.prev).b

theorem malOpened_drawn {i id : Party} (hi : i ≠ id) (st : Party → JmpSt (idealPrg f)) :
    ∃ C : BitVec K, ∀ A, malOpened id (malDrawn i A st) = C + A := by
  unfold malOpened malDrawn
  rcases (by decide : ∀ a b : Party, a ≠ b → a = b.next ∨ a = b.prev) i id hi with rfl | rfl
  · refine ⟨tapeVal K (st id).tapeA + tapeVal K (st id.prev).tapeB, fun A => ?_⟩
    have h1 := (by decide : ∀ c : Party, c ≠ c.next.next) id
    have h2 := (by decide : ∀ c : Party, c = c.next.prev) id
    have h3 := (by decide : ∀ c : Party, c.prev ≠ c.next.prev) id
    simp only [if_neg h1, if_pos h2, if_neg h3]
    ac_rfl
  · refine ⟨tapeVal K (st id).tapeB + tapeVal K (st id.prev).tapeB, fun A => ?_⟩
    have h1 := (by decide : ∀ c : Party, c = c.prev.next) id
    have h2 := (by decide : ∀ c : Party, c ≠ c.prev.prev) id
    have h3 := (by decide : ∀ c : Party, c.prev ≠ c.prev.prev) id
    simp only [if_pos h1, if_neg h2, if_neg h3]
    ac_rfl

/-- Local code that leaves the generators alone. -/
theorem Lock.quiet {st : Bool → Party → JmpSt (idealPrg f)} {g : Bool → Party → JmpSt (idealPrg f) → JmpSt (idealPrg f)}
    {Q : (Bool → Party → Unit) → (Bool → Party → JmpSt (idealPrg f)) → Prop}
    (hg : ∀ w j (s : JmpSt (idealPrg f)) p, g w j { s with prf := p } = { g w j s with prf := p })
    (hQ : Q (fun _ _ => ()) fun w j => g w j (st w j)) :
    Lock i (fun _ => []) (fun w j => (Proto.step fun s => ((), g w j s) : Proto (JmpSt (idealPrg f)) Unit)) st Q := by
  refine Lock.loc (a := fun _ _ => ()) (t := fun w j => g w j (st w j)) (fun w rest j => ?_) hQ
  have e : g w j (tapeIn i rest (st w) j) = tapeIn i rest (fun j => g w j (st w j)) j := by
    have h : ∀ s, (g w j s).prf = s.prf := fun s => by
      have := hg w j s s.prf
      rw [show ({ s with prf := s.prf } : JmpSt (idealPrg f)) = s from rfl] at this
      rw [this]
    unfold tapeIn
    split_ifs
    · rw [hg, h]
    · rw [hg, h]
    · rfl
  show Prog.ret (_, g w j (tapeIn i ([] ++ rest) (st w) j)) = _
  rw [List.nil_append, e]

/-- The messages are the same in both worlds if the drawn shares have the following property. -/
def MalMasked (i id : Party) (x : Bool → BitVec K) (s : Bool → Party → AShare K) : Prop :=
  (i = id → (s false id.prev).b = (s true id.prev).b) ∧
    (i ≠ id → x false - malOpened id (s false) = x true - malOpened id (s true))

theorem malInput_lock (i id : Party) {st : Bool → Party → JmpSt (idealPrg f)} {x : Bool → BitVec K} {y : Bool → Party → BitVec K}
    (hy : ∀ w, y w id = x w) {u : Bool → List Bool} (h : Lock i u (fun _ _ => genRand K) st fun s _ => MalMasked i id x s) :
    Lock i u (fun w j => malInputPhases id j (y w j)) st fun _ _ => True := by
  unfold malInputPhases
  refine Lock.bind_last (h.mono fun s t hs => ?_)
  refine Lock.bind' (Lock.net (Talk.congr (fun w j => ?_) (Talk.prevTo id (x := fun w => toBytes (s w id.prev).b) fun hi => by rw [hs.1 hi])) ?_)
  · have n2 := (by decide : ∀ c : Party, c.prev ≠ c) id
    split_ifs with h1 h2
    · rfl
    · rw [h2]
    · rfl
  refine Lock.bind' (Lock.lift (a := fun w j => if j = id then (s w id.prev).b else 0) (fun w j => ?_) ?_)
  · by_cases h1 : j = id
    · simp only [if_pos h1]
      exact fromBytes_toBytes _
    · simp only [if_neg h1]
  refine Lock.bind' (Lock.quiet (g := fun w j => malInputQueue id j (s w j) (if j = id then (s w id.prev).b else 0)) (fun w j st p => ?_) ?_)
  · unfold malInputQueue
    split_ifs <;> rfl
  refine Lock.bind' (Lock.net (Talk.congr (fun w j => ?_) (Talk.cast2 id (x := fun w => toBytes (x w - malOpened id (s w))) fun hi => by rw [hs.2 hi])) ?_)
  · by_cases h1 : j = id
    · subst h1
      simp only [if_true, hy]
      rfl
    · simp only [if_neg h1]
  refine Lock.bind' (Lock.lift (a := fun w _ => x w - malOpened id (s w)) (fun w j => ?_) ?_)
  · by_cases h1 : j = id
    · subst h1
      simp only [if_true, hy]
      rfl
    · simp only [if_neg h1]
      exact fromBytes_toBytes _
  refine Lock.bind' (Lock.net (Talk.cross id (x := fun w => toBytes (x w - malOpened id (s w))) fun hi => by rw [hs.2 hi]) ?_)
  refine Lock.bind' (Lock.lift (a := fun w _ => x w - malOpened id (s w)) (fun w j => ?_) ?_)
  · by_cases h1 : j = id
    · simp only [if_pos h1]
    · simp only [if_neg h1]
      exact fromBytes_toBytes _
  exact Lock.ite_neg (fun w j => by simp) (Lock.pure (a := fun w j => _) trivial)

theorem malInput_cpl (i id : Party) {inp : Bool → Party → Option (BitVec K)} (h : ∀ w, inp w id ≠ none) (hi : inp false i = inp true i) :
    Cpl (f := f) i K (fun w j => (input j (inp w j) id.val : Proto (JmpSt (idealPrg f)) _)) fun _ => True := by
  have hx : ∀ w, inp w id = some ((inp w id).getD 0) := fun w => by
    obtain ⟨x, hx⟩ := Option.ne_none_iff_exists'.1 (h w)
    rw [hx]
    rfl
  intro st hst
  have fin : ∀ u : Bool → List Bool, Lock i u (fun w j => malInputPhases id j ((inp w j).getD 0)) st (fun _ _ => True) →
      Lock i u (fun w j => (input j (inp w j) id.val : Proto (JmpSt (idealPrg f)) _)) st fun _ t => True ∧ Twin i t := by
    intro u hl
    have := Lock.congr (p := fun w j => (input j (inp w j) id.val : Proto (JmpSt (idealPrg f)) _)) (fun w j => malInput_eq id j (inp w j) fun e => e ▸ h w) hl
    exact (this.full hst (by simp only [hi]) (R := fun _ _ => True) fun w t hJ => (MalAby3.input_wp (hx w) hJ).mono fun _ _ hh => ⟨trivial, hh.2⟩).mono
      fun _ _ hh => ⟨trivial, hh.2.1⟩
  by_cases hid : i = id
  · refine ⟨fun _ u => u, fun _ _ hu => hu, fun _ _ _ _ _ e => e, fun u hu => fin _ ?_⟩
    refine malInput_lock i id (x := fun w => (inp w id).getD 0) (fun _ => rfl) ?_
    have := malDraw_lock (K := K) i st fun _ => tapeVal K u
    simp only [tapeOf_tapeVal K u hu] at this
    refine this.mono ?_
    rintro _ _ rfl
    refine ⟨fun _ => ?_, fun hne => absurd hid hne⟩
    subst hid
    show (if i.prev = i.prev then _ else _) = (if i.prev = i.prev then _ else _)
    rw [if_pos rfl, if_pos rfl]
  · have := fun w => malOpened_drawn (K := K) hid (st w)
    choose C hC using this
    refine ⟨fun w u => tapeOf ((inp w id).getD 0 - C w - tapeVal K u), fun _ _ _ => tapeOf_length _, fun w u u' hu hu' e => ?_, fun u hu => fin _ ?_⟩
    · have e1 : ∀ a b : BitVec K, tapeOf a = tapeOf b → a = b := fun a b e => by
        rw [← tapeVal_tapeOf a [], ← tapeVal_tapeOf b [], e]
      have e2 := sub_right_inj.1 (e1 _ _ e)
      rw [← tapeOf_tapeVal K u hu, ← tapeOf_tapeVal K u' hu', e2]
    · refine malInput_lock i id (x := fun w => (inp w id).getD 0) (fun _ => rfl) ?_
      refine (malDraw_lock (K := K) i st fun w => (inp w id).getD 0 - C w - tapeVal K u).mono ?_
      rintro _ _ rfl
      refine ⟨fun hne => absurd hne hid, fun _ => ?_⟩
      have e : ∀ w, (inp w id).getD 0 - malOpened id (malDrawn i ((inp w id).getD 0 - C w - tapeVal K u) (st w)) = tapeVal K u := fun w => by
        rw [hC, ← sub_sub, sub_sub_cancel]
      show (inp false id).getD 0 - malOpened id (malDrawn i _ (st false)) = (inp true id).getD 0 - malOpened id (malDrawn i _ (st true))
      rw [e, e]

theorem malInputAll_cpl (i : Party) {x : Bool → Party → BitVec K} (hi : x false i = x true i) :
    Cpl (f := f) i (K + (K + K)) (fun w j => (inputAll j (x w j) : Proto (JmpSt (idealPrg f)) _)) fun _ => True := by
  have h : ∀ id : Party, Cpl (f := f) i K
      (fun w j => (input j (if j = id then some (x w j) else none) id.val : Proto (JmpSt (idealPrg f)) _)) fun _ => True :=
    fun id => malInput_cpl i id (fun w => by rw [if_pos rfl]; exact Option.some_ne_none _) (by simp only [hi])
  unfold inputAll
  refine Cpl.bind (h 0) fun s0 _ => Cpl.bind (h 1) fun s1 _ => ?_
  have := Cpl.bind (m := 0) (k := fun w j s => (pure [s0 w j, s1 w j, s] : Proto (JmpSt (idealPrg f)) _)) (h 2) (Q' := fun _ => True) fun s _ => Cpl.pure (a := fun w j => [s0 w j, s1 w j, s w j]) trivial
  exact this

end Verif
