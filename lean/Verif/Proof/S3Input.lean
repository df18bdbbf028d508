import Verif.Proof.S3LockMany
import Verif.Proof.S3LockAnd
import Verif.Model.Swift3InputAll

/-!
# Lock-step runs of `input` of the Swift3 backend
-/

namespace Verif

open Swift3

variable {f : Bytes → List Bool} {K L : Nat} {i : Party}

/-- The order in which the dealer sends. -/
def castTo : Party → Party × Party
  | 0 => (1, 2)
  | 1 => (2, 0)
  | 2 => (1, 0)

/-- The dealer `id` sends `x` to the two other parties. -/
theorem Talk.cast (id : Party) {x : Bool → Bytes} (hx : i ≠ id → x false = x true) :
    Talk i (fun w j => if j = id then Prog.send (castTo id).1 (x w) (.send (castTo id).2 (x w) (.ret [])) else .recv id .ret)
      fun w j => if j = id then [] else x w := by
  refine ⟨fun w j => if j = id then [] else [(id, x w)], fun w acc => ?_, ?_⟩
  · suffices WP (fun j => (if j = id then Prog.send (castTo id).1 (x w) (.send (castTo id).2 (x w) (.ret [])) else .recv id .ret : Prog Bytes).record (acc j))
      (· = fun j => (acc j ++ (if j = id then [] else [(id, x w)]), if j = id then [] else x w)) by
      obtain ⟨r, hr, e⟩ := this
      rw [e] at hr
      exact hr
    apply WP.of3
    match id with
    | 0 =>
      show R3 (.send 1 (x w) (.send 2 (x w) (.ret (acc 0, [])))) (.recv 0 fun a => .ret (acc 1 ++ [(0, a)], a))
        (.recv 0 fun a => .ret (acc 2 ++ [(0, a)], a)) [] [] [] [] [] [] _
      run3
      apply R3.done
      intro r h0 h1 h2
      exact party_ext (by simp [h0]) (by simp [h1]) (by simp [h2])
    | 1 =>
      show R3 (.recv 1 fun a => .ret (acc 0 ++ [(1, a)], a)) (.send 2 (x w) (.send 0 (x w) (.ret (acc 1, []))))
        (.recv 1 fun a => .ret (acc 2 ++ [(1, a)], a)) [] [] [] [] [] [] _
      run3
      apply R3.done
      intro r h0 h1 h2
      exact party_ext (by simp [h0]) (by simp [h1]) (by simp [h2])
    | 2 =>
      show R3 (.recv 2 fun a => .ret (acc 0 ++ [(2, a)], a)) (.recv 2 fun a => .ret (acc 1 ++ [(2, a)], a))
        (.send 1 (x w) (.send 0 (x w) (.ret (acc 2, [])))) [] [] [] [] [] [] _
      run3
      apply R3.done
      intro r h0 h1 h2
      exact party_ext (by simp [h0]) (by simp [h1]) (by simp [h2])
  · by_cases h : i = id
    · simp only [h, if_true]
    · simp only [hx h]

theorem jmpReceive02 : (jmpReceive L 0 2 : Proto (S3St (idealPrg f) K) _) = (do
    let b ← Proto.net (.recv 2 .ret)
    let y ← Proto.lift (fromBytes L b)
    (Proto.step fun s => ((), { s with rcvQNext := s.rcvQNext ++ toBytes y }))
    pure y) := by
  unfold jmpReceive
  rw [Proto.net_recvValue 0 2 2 rfl]
  rw [bind_assoc]
  rfl

theorem s3TapeIn_tp (t : List Bool) (st : Party → S3St (idealPrg f) K) (j : Party) : (s3TapeIn i t st j).tp = (st j).tp := by
  unfold s3TapeIn
  split_ifs <;> rfl

/-- What a party draws. -/
def inputOut (id me : Party) (s : S3St (idealPrg f) K) : BitVec K × BitVec K × BitVec K :=
  (if me = id.next then 0 else tapeVal K s.t1, if me = id.prev then 0 else tapeVal K s.t2, tapeVal K s.tp)

/-- Its state after that. -/
def inputAdv (id me : Party) (s : S3St (idealPrg f) K) : S3St (idealPrg f) K :=
  { s with prf := ⟨if me = id.next then s.t1 else s.t1.drop K, if me = id.prev then s.t2 else s.t2.drop K, s.tp.drop K⟩ }

/-- The draws of a party. -/
def inputDraw (id me : Party) : Proto (S3St (idealPrg f) K) (BitVec K × BitVec K × BitVec K) :=
  Proto.step fun s => (inputOut id me s, inputAdv id me s)

theorem inputDraw_lock (i id : Party) (st : Bool → Party → S3St (idealPrg f) K) (A : Bool → BitVec K) :
    Lock3 i (fun w => if i = id then [] else tapeOf (A w)) (fun _ j => inputDraw id j) st fun d _ =>
      d = fun w j => inputOut id j (s3TapeIn i (tapeOf (A w)) (st w) j) := by
  refine Lock3.loc (t := fun w j => inputAdv id j (st w j)) (fun w rest j => ?_) rfl
  have hp : i ≠ id → i.prev ≠ id.prev := by revert i id; decide
  have hn : i ≠ id → i.next ≠ id.next := by revert i id; decide
  have hnp := (by decide : ∀ c : Party, c.next ≠ c.prev) i
  have ht : tapeVal K (tapeOf (A w)) = A w := by
    have := tapeVal_tapeOf (A w) []
    rwa [List.append_nil] at this
  show Prog.ret (_, _) = Prog.ret (_, _)
  congr 1
  refine Prod.ext ?_ ?_
  · show inputOut id j (s3TapeIn i _ (st w) j) = inputOut id j (s3TapeIn i _ (st w) j)
    unfold inputOut
    rw [s3TapeIn_t1, s3TapeIn_t2, s3TapeIn_t1, s3TapeIn_t2, s3TapeIn_tp, s3TapeIn_tp]
    by_cases hi : i = id
    · subst hi
      simp only [if_true, List.nil_append]
      split_ifs <;> rfl
    · simp only [if_neg hi]
      refine Prod.ext ?_ (Prod.ext ?_ rfl)
      · show (if j = id.next then 0 else _) = (if j = id.next then 0 else _)
        split_ifs
        · rfl
        · rw [tapeVal_tapeOf, ht]
        · rfl
      · show (if j = id.prev then 0 else _) = (if j = id.prev then 0 else _)
        split_ifs
        · rfl
        · rw [tapeVal_tapeOf, ht]
        · rfl
  · show inputAdv id j (s3TapeIn i _ (st w) j) = s3TapeIn i rest (fun j => inputAdv id j (st w j)) j
    by_cases hi : i = id
    · subst hi
      rw [if_pos rfl, List.nil_append]
      unfold s3TapeIn
      by_cases h1 : j = i.prev
      · subst h1
        rw [if_pos rfl, if_pos rfl]
        unfold inputAdv
        simp only [if_true, if_neg (Ne.symm hnp)]
        rfl
      · rw [if_neg h1, if_neg h1]
        by_cases h2 : j = i.next
        · subst h2
          rw [if_pos rfl, if_pos rfl]
          unfold inputAdv
          simp only [if_true, if_neg hnp]
          rfl
        · rw [if_neg h2, if_neg h2]
    · rw [if_neg hi]
      unfold s3TapeIn
      by_cases h1 : j = i.prev
      · subst h1
        rw [if_pos rfl, if_pos rfl]
        have e : (if i.prev = id.prev then tapeOf (A w) ++ rest else (tapeOf (A w) ++ rest).drop K) = rest := by rw [if_neg (hp hi), tapeOf_drop]
        exact congrArg (fun t : List Bool => ({ inputAdv id i.prev (st w i.prev) with prf := ⟨(inputAdv id i.prev (st w i.prev)).prf.p1, t, (inputAdv id i.prev (st w i.prev)).prf.pp⟩ } : S3St (idealPrg f) K)) e
      · rw [if_neg h1, if_neg h1]
        by_cases h2 : j = i.next
        · subst h2
          rw [if_pos rfl, if_pos rfl]
          have e : (if i.next = id.next then tapeOf (A w) ++ rest else (tapeOf (A w) ++ rest).drop K) = rest := by rw [if_neg (hn hi), tapeOf_drop]
          exact congrArg (fun t : List Bool => ({ inputAdv id i.next (st w i.next) with prf := ⟨t, (inputAdv id i.next (st w i.next)).prf.p2, (inputAdv id i.next (st w i.next)).prf.pp⟩ } : S3St (idealPrg f) K)) e
        · rw [if_neg h2, if_neg h2]

/-- The masked input. -/
def inputBeta (id : Party) (x : BitVec K) (d : BitVec K × BitVec K × BitVec K) : BitVec K :=
  match id with
  | 0 => x + (d.2.2 + d.1 + d.2.1)
  | _ => x + (d.2.2 + d.2.1 + d.1)

/-- What a party writes into its queues. -/
def inputQueue (id me : Party) (b : BitVec K) (s : S3St (idealPrg f) K) : S3St (idealPrg f) K :=
  match id, me with
  | 0, 1 => { s with sendQNext := s.sendQNext ++ toBytes b }
  | 0, 2 => { s with rcvQPrev := s.rcvQPrev ++ toBytes b }
  | 1, 2 => { s with sendQNext := s.sendQNext ++ toBytes b }
  | 1, 0 => { s with rcvQPrev := s.rcvQPrev ++ toBytes b }
  | 2, 1 => { s with sendQPrev := s.sendQPrev ++ toBytes b }
  | 2, 0 => { s with rcvQNext := s.rcvQNext ++ toBytes b }
  | _, _ => s

/-- `input` cut into phases that all parties go through together. -/
def inputPhases (id me : Party) (x : BitVec K) : Proto (S3St (idealPrg f) K) (S3Share K) := do
  let d ← inputDraw id me
  let b1 ← Proto.net (if me = id then Prog.send (castTo id).1 (toBytes (inputBeta id x d)) (.send (castTo id).2 (toBytes (inputBeta id x d)) (.ret []))
    else .recv id .ret)
  let b ← Proto.lift (if me = id then .ok (inputBeta id x d) else fromBytes K b1)
  Proto.step fun s => ((), inputQueue id me b s)
  pure ⟨if me = id.next then d.2.2 else d.1, if me = id.prev then d.2.2 else d.2.1, b⟩

theorem s3Input_eq (id me : Party) (inp : Option (BitVec K)) (h : me = id → inp ≠ none) :
    (input me inp id.val : Proto (S3St (idealPrg f) K) _) = inputPhases id me (inp.getD 0) := by
  have h' : ¬ (id.val = me.val ∧ inp = none) := fun hh => h (Fin.ext hh.1.symm) hh.2
  unfold input
  rw [if_neg h']
  match id, me with
  | 0, 0 => rfl
  | 0, 1 =>
    show (gen2 K >>= fun a => genP K >>= fun p => Proto.net (receiveValue K 1 0) >>= _) = _
    rw [Proto.net_recvValue 1 0 0 rfl]
    rfl
  | 0, 2 =>
    show (genP K >>= fun a => gen1 K >>= fun p => jmpReceive K 2 0 >>= _) = _
    rw [jmpReceive20]
    simp only [bind_assoc, pure_bind]
    rfl
  | 1, 0 =>
    show (gen1 K >>= fun a => genP K >>= fun p => jmpReceive K 0 1 >>= _) = _
    rw [jmpReceive01]
    simp only [bind_assoc, pure_bind]
    rfl
  | 1, 1 => rfl
  | 1, 2 =>
    show (gen2 K >>= fun a => genP K >>= fun p => Proto.net (receiveValue K 2 1) >>= _) = _
    rw [Proto.net_recvValue 2 1 1 rfl]
    rfl
  | 2, 0 =>
    show (genP K >>= fun a => gen2 K >>= fun p => jmpReceive K 0 2 >>= _) = _
    rw [jmpReceive02]
    simp only [bind_assoc, pure_bind]
    rfl
  | 2, 1 =>
    show (genP K >>= fun a => gen1 K >>= fun p => Proto.net (receiveValue K 1 2) >>= _) = _
    rw [Proto.net_recvValue 1 2 2 rfl]
    rfl
  | 2, 2 => rfl

/-- The value that the draw of the generator unknown to party `i` is added to in the masked input. -/
def inputKnown (i id : Party) (x : BitVec K) (s : S3St (idealPrg f) K) : BitVec K :=
  x + (tapeVal K s.tp + if i = id.next then tapeVal K s.t1 else tapeVal K s.t2)

theorem inputBeta_eq {i id : Party} (hi : i ≠ id) (x a : BitVec K) (st : Party → S3St (idealPrg f) K) :
    inputBeta id x (inputOut id id (s3TapeIn i (tapeOf a) st id)) = inputKnown i id x (st id) + a := by
  have ht : tapeVal K (tapeOf a) = a := by
    have := tapeVal_tapeOf a []
    rwa [List.append_nil] at this
  have h1 := (by decide : ∀ c : Party, c ≠ c.next) id
  have h2 := (by decide : ∀ c : Party, c ≠ c.prev) id
  have e : ∀ p u v : BitVec K, inputBeta id x (u, v, p) = x + (p + u + v) := by
    intro p u v
    match id with
    | 0 => rfl
    | 1 =>
      show x + (p + v + u) = _
      ac_rfl
    | 2 =>
      show x + (p + v + u) = _
      ac_rfl
  unfold inputOut
  rw [if_neg h1, if_neg h2, e, s3TapeIn_t1, s3TapeIn_t2, s3TapeIn_tp]
  unfold inputKnown
  rcases (by decide : ∀ a b : Party, a ≠ b → a = b.next ∨ a = b.prev) i id hi with rfl | rfl
  · rw [if_pos rfl, if_neg ((by decide : ∀ c : Party, c ≠ c.next.next) id), if_pos ((by decide : ∀ c : Party, c = c.next.prev) id), ht]
    ac_rfl
  · rw [if_pos ((by decide : ∀ c : Party, c = c.prev.next) id), if_neg ((by decide : ∀ c : Party, c ≠ c.prev.prev) id), if_neg ((by decide : ∀ c : Party, c.prev ≠ c.next) id), ht]
    ac_rfl

theorem s3Input_cpl (i id : Party) {inp : Bool → Party → Option (BitVec K)} (h : ∀ w, inp w id ≠ none) :
    Cpl3 (f := f) i (if i = id then 0 else K) (fun w j => (input j (inp w j) id.val : Proto (S3St (idealPrg f) K) _)) fun _ => True := by
  refine Cpl3.congr (fun w j => s3Input_eq id j (inp w j) fun e => e ▸ h w) ?_
  unfold inputPhases
  have hd : Cpl3 (f := f) (K := K) i (if i = id then 0 else K) (fun _ j => inputDraw id j) fun d =>
      i ≠ id → inputBeta id ((inp false id).getD 0) (d false id) = inputBeta id ((inp true id).getD 0) (d true id) := by
    by_cases hi : i = id
    · rw [if_pos hi]
      refine Cpl3.zero fun st => ?_
      have := inputDraw_lock i id st fun _ => 0
      simp only [if_pos hi] at this
      exact this.mono fun _ _ _ h => absurd hi h
    · rw [if_neg hi]
      intro st
      refine ⟨fun w u => tapeOf (tapeVal K u - inputKnown i id ((inp w id).getD 0) (st w id)), fun _ _ _ => tapeOf_length _, fun w u u' hu hu' e => ?_, fun u hu => ?_⟩
      · have e1 : ∀ a b : BitVec K, tapeOf a = tapeOf b → a = b := fun a b e => by
          rw [← tapeVal_tapeOf a [], ← tapeVal_tapeOf b [], e]
        have e2 := sub_left_inj.1 (e1 _ _ e)
        rw [← tapeOf_tapeVal K u hu, ← tapeOf_tapeVal K u' hu', e2]
      · have := inputDraw_lock i id st fun w => tapeVal K u - inputKnown i id ((inp w id).getD 0) (st w id)
        simp only [if_neg hi] at this
        refine this.mono ?_
        rintro _ _ rfl _
        show inputBeta id _ (inputOut id id _) = inputBeta id _ (inputOut id id _)
        rw [inputBeta_eq hi, inputBeta_eq hi, add_sub_cancel, add_sub_cancel]
  refine Cpl3.bind_local hd fun d hd => ?_
  refine Cpl3.bind' (Cpl3.net (a := fun w j => if j = id then [] else toBytes (inputBeta id ((inp w id).getD 0) (d w id))) ?_ rfl) fun b1 hb1 => ?_
  · refine Talk.congr (fun w j => ?_) (Talk.cast id (x := fun w => toBytes (inputBeta id ((inp w id).getD 0) (d w id))) fun hi => by rw [hd hi])
    by_cases hj : j = id
    · subst hj
      rfl
    · rw [if_neg hj, if_neg hj]
  subst hb1
  refine Cpl3.bind' (Cpl3.lift (a := fun w _ => inputBeta id ((inp w id).getD 0) (d w id)) (fun w j => ?_) rfl) fun b hb => ?_
  · by_cases hj : j = id
    · subst hj
      rw [if_pos rfl]
    · simp only [if_neg hj]
      exact fromBytes_toBytes _
  subst hb
  refine Cpl3.bind' (Cpl3.quiet fun w j => ⟨_, ?_, rfl⟩) fun _ _ => Cpl3.pure trivial
  intro s q
  match id, j with
  | 0, 0 => rfl
  | 0, 1 => rfl
  | 0, 2 => rfl
  | 1, 0 => rfl
  | 1, 1 => rfl
  | 1, 2 => rfl
  | 2, 0 => rfl
  | 2, 1 => rfl
  | 2, 2 => rfl

theorem s3InputAll_cpl (i : Party) {x : Bool → Party → BitVec K} :
    Cpl3 (f := f) i (2 * K) (fun w j => (inputAll j (x w j) : Proto (S3St (idealPrg f) K) _)) fun _ => True := by
  have h : ∀ id : Party, Cpl3 (f := f) i (if i = id then 0 else K)
      (fun w j => (input j (if j = id then some (x w j) else none) id.val : Proto (S3St (idealPrg f) K) _)) fun _ => True :=
    fun id => s3Input_cpl i id fun w => by rw [if_pos rfl]; exact Option.some_ne_none _
  have hn : (if i = 0 then 0 else K) + ((if i = 1 then 0 else K) + (if i = 2 then 0 else K)) = 2 * K := by
    match i with
    | 0 => show 0 + (K + K) = _; omega
    | 1 => show K + (0 + K) = _; omega
    | 2 => show K + (K + 0) = _; omega
  rw [← hn]
  unfold inputAll
  exact Cpl3.bind (h 0) fun _ _ => Cpl3.bind (h 1) fun _ _ => Cpl3.ret (g := fun _ _ => _) (h 2) fun _ _ => trivial

end Verif
