import Verif.Proof.SpdzLockCircuit

/-!
# Lock-step runs of the arithmetic part of the SPDZ-wise backend
-/

namespace Verif

open Jmp Spdz

variable {f : Bytes → List Bool} {V K : Nat} {α β γ δ : Type} {i : Party}

/-! ## Reading and changing the state -/

namespace CplS

variable {n : Nat} {I : (Bool → Party → SpdzSt (idealPrg f) V) → Prop}
  {Q : (Bool → Party → α) → (Bool → Party → SpdzSt (idealPrg f) V) → Prop}

/-- Code that reads the state. -/
theorem get {k : Bool → Party → SpdzSt (idealPrg f) V → Proto (SpdzSt (idealPrg f) V) α}
    (h : ∀ st, I st → ∃ k' : Bool → Party → Proto (SpdzSt (idealPrg f) V) α,
      (∀ w j t P, k w j ((tapeS i t (st w) j).put P) = k' w j) ∧ CplS i n (· = st) k' Q) :
    CplS i n I (fun w j => (MonadState.get : Proto (SpdzSt (idealPrg f) V) _) >>= k w j) Q := by
  intro st hst
  obtain ⟨k', hk, hc⟩ := h st hst
  obtain ⟨φ, h1, h2, h3⟩ := hc st rfl
  refine ⟨φ, h1, h2, fun u hu => ?_⟩
  obtain ⟨l, a, t, r1, r2⟩ := h3 u hu
  refine ⟨l, a, t, fun w rest acc P => ?_, r2⟩
  have e : ∀ j, ((MonadState.get : Proto (SpdzSt (idealPrg f) V) _) >>= k w j) ((tapeS i (φ w u ++ rest) (st w) j).put (P j)) =
      k' w j ((tapeS i (φ w u ++ rest) (st w) j).put (P j)) := fun j => by
    rw [← hk w j (φ w u ++ rest) (P j)]
    rfl
  simp only [e]
  exact r1 w rest acc P

/-- A change of the state. -/
theorem step {g : Bool → Party → SpdzSt (idealPrg f) V → α × SpdzSt (idealPrg f) V}
    (h : ∀ st, I st → (∀ w j t P, g w j ((tapeS i t (st w) j).put P) =
      ((g w j (st w j)).1, (tapeS i t (fun j => (g w j (st w j)).2) j).put P)) ∧
      Q (fun w j => (g w j (st w j)).1) fun w j => (g w j (st w j)).2) :
    CplS i 0 I (fun w j => (Proto.step (g w j) : Proto (SpdzSt (idealPrg f) V) α)) Q :=
  zero fun st hst => LockS.loc (a := fun w j => (g w j (st w j)).1) (t := fun w j => (g w j (st w j)).2)
    (fun w rest j P => by
      show Prog.ret (g w j _) = _
      rw [(h st hst).1]
      rfl) (h st hst).2

theorem bind_last {p : Bool → Party → Proto (SpdzSt (idealPrg f) V) α} {k : Bool → Party → α → Proto (SpdzSt (idealPrg f) V) β}
    {Q' : (Bool → Party → β) → (Bool → Party → SpdzSt (idealPrg f) V) → Prop} (h : CplS i n I p Q)
    (hk : ∀ a, CplS i 0 (Q a) (fun w j => k w j (a w j)) Q') : CplS i n I (fun w j => p w j >>= k w j) Q' := bind h hk

end CplS

/-- Random shares. -/
theorem genRandMany_cpl {m : Nat} {I : (Bool → Party → SpdzSt (idealPrg f) V) → Prop} :
    CplS i (K * m) I (fun _ _ => (viaJmp (genRandMany K m) : Proto (SpdzSt (idealPrg f) V) _)) fun a t =>
      (∀ w j, (a w j).length = m) ∧ ∃ st, I st ∧ t = fun w j => (st w j).adv (K * m) := by
  intro st hst
  refine ⟨fun _ u => tapesOf (words K m u), fun w u hu => by rw [tapesOf_length, words_length], fun w u u' hu hu' e => ?_, fun u hu => ?_⟩
  · exact words_inj hu hu' (tapesOf_inj (by rw [words_length, words_length]) e)
  · have hA : ∀ w : Bool, (words K m u).length = m := fun _ => words_length _ _ _
    refine LockS.loc (a := fun w => rnd i m (words K m u) (fun j => (st w j).jmp)) (t := fun w j => (st w j).adv (K * m))
      (fun w rest j P => ?_) ⟨fun w j => ?_, st, hst, rfl⟩
    · rw [← tapeS_adv (u := tapesOf (words K m u)) (by rw [tapesOf_length, words_length])]
      refine viaJmp_ret (t := JmpSt.adv (K * m) _) ?_
      show genRandMany K m (tapeIn i (tapesOf (words K m u) ++ rest) (fun j => (st w j).jmp) j) = _
      rw [genRandMany_eq, drawA_eq (hA w), drawB_eq (hA w)]
      rfl
    · show (rnd i m (words K m u) (fun j => (st w j).jmp) j).length = m
      simp [rnd, drawA_length (hA w), drawB_length (hA w)]

theorem Buf.adv {L k : Nat} {st : Bool → Party → SpdzSt (idealPrg f) V} (h : Buf L st) : Buf L fun w j => (st w j).adv k := h

/-! ## The check of the MACs -/

theorem macZero_cpl {r : Bool → BitVec V} {x L : Nat} :
    CplS i (V * L + (V * 2 + (V * 1 + 0))) (fun st => TwinS i r x st ∧ Buf L st) (fun _ j => (macZero j : Proto (SpdzSt (idealPrg f) V) _))
      fun a t => (a false i = a true i ∧ ∀ w, SharesOf 0 (a w)) ∧ TwinS i r x t ∧ Buf 0 t := by
  refine CplS.full (R := fun _ => SharesOf 0) (fun _ _ _ h => h) ?_ rfl fun w s hs => ?_
  · unfold macZero
    refine CplS.get fun st hst => ⟨fun w j => do
      let rands ← viaJmp (Jmp.genRandMany V L)
      let queue ← Proto.step fun s : SpdzSt (idealPrg f) V => (s.verifyQueue, { s with verifyQueue := [] })
      let res ← viaAby (Aby3.dotMany j [queue.map (·.value), queue.map (·.mac)] [rands, rands])
      let res0 ← Proto.lift (idx res 0)
      let res1 ← Proto.lift (idx res 1)
      let mul ← viaAby (Aby3.mul j res0 (st w j).macKey)
      pure (mul.sub res1), fun w j t P => ?_, ?_⟩
    · show (viaJmp (Jmp.genRandMany V (st w j).verifyQueue.length) >>= _) = _
      rw [(hst.2 w j).2]
      rfl
    · refine CplS.bind genRandMany_cpl fun rands => CplS.assume fun hr => ?_
      refine CplS.bind' (Q := fun a t => (∀ w j, (a w j).length = L) ∧ Buf 0 t) (CplS.step fun t ht => ?_) fun queue => CplS.assume fun hq => ?_
      · obtain ⟨_, rfl, rfl⟩ := ht
        exact ⟨fun w j t P => rfl, fun w j => (hst.2 w j).2, fun w j => ⟨(hst.2 w j).1, rfl⟩⟩
      refine abyDot_cpl (m := 2) (fun _ _ => rfl) (fun _ _ => rfl) (fun w j p hp => ?_) fun res hres => ?_
      · simp only [List.zip_cons_cons, List.zip_nil_right, List.mem_cons, List.not_mem_nil, or_false] at hp
        rcases hp with rfl | rfl <;> simp [hr, hq]
      have h0 : ∀ w j, idx (res w j) 0 = .ok ((res w j)[0]'(by rw [hres]; omega)) := fun w j => by
        unfold idx
        rw [List.getElem?_eq_getElem (by rw [hres]; omega)]
      have h1 : ∀ w j, idx (res w j) 1 = .ok ((res w j)[1]'(by rw [hres]; omega)) := fun w j => by
        unfold idx
        rw [List.getElem?_eq_getElem (by rw [hres]; omega)]
      refine CplS.bind' (Q := fun a t => Buf 0 t) (CplS.lift h0 ?_) fun r0 => ?_
      · rintro _ ⟨t, ht, rfl⟩
        exact ht
      refine CplS.bind' (Q := fun a t => Buf 0 t) (CplS.lift h1 fun t ht => ht) fun r1 => ?_
      refine abyMul_cpl fun m => CplS.pure ?_
      rintro _ ⟨t, ht, rfl⟩
      exact ht
  · obtain ⟨xs, hq⟩ := hs.2.2.1
    refine (macZero_wp hs.1 hs.2.1 hq.values hq.macs).mono ?_
    rintro z _ ⟨⟨ρ, _, hz⟩, j, hj, rfl⟩
    rw [mac_sum, sub_self] at hz
    exact ⟨hz, hj, hs.2.1, ⟨[], Rels.nil⟩, hs.2.2.2⟩

/-- The bits drawn by `verify_macs` with `L` values waiting. -/
def macBits (V L : Nat) : Nat := if L = 0 then 0 else V * L + (V * 2 + (V * 1 + 0))

theorem verifyMacs_cpl (H : Hash) {r : Bool → BitVec V} {x L : Nat} :
    CplS i (macBits V L) (fun st => TwinS i r x st ∧ Buf L st) (fun _ j => (verifyMacs H j : Proto (SpdzSt (idealPrg f) V) _))
      fun _ t => TwinS i r x t ∧ Buf 0 t := by
  unfold verifyMacs
  by_cases hL : L = 0
  · subst hL
    refine CplS.get fun st hst => ⟨fun w j => pure (), fun w j t P => ?_, CplS.pure ?_⟩
    · refine if_pos ?_
      rw [List.isEmpty_iff]
      exact List.length_eq_zero_iff.1 (hst.2 w j).2
    · rintro _ rfl
      exact hst
  · rw [macBits, if_neg hL]
    refine CplS.get fun st hst => ⟨fun w j => macZero j >>= fun zero => Proto.net (hashZeroVerify H j [zero]), fun w j t P => ?_, ?_⟩
    · refine if_neg ?_
      rw [List.isEmpty_iff]
      intro e
      have e : (st w j).verifyQueue = [] := e
      exact hL (by rw [← (hst.2 w j).2, e]; rfl)
    · refine CplS.bind_last (macZero_cpl.pre fun t ht => ht ▸ hst) fun z => CplS.assume fun hz => ?_
      refine CplS.zero fun t ht => LockS.net (Talk.hashZero H (n := 1) (ws := fun w j => [z w j]) (fun w => ?_) (by rw [hz.1])) ht
      exact Rels.singleton (hz.2 w)

/-! ## Masked dot products -/

/-- The elements at even and at odd positions. -/
def split2 : List α → List α × List α
  | a :: b :: l => (a :: (split2 l).1, b :: (split2 l).2)
  | _ => ([], [])

theorem split2_length : ∀ (m : Nat) (l : List α), l.length = 2 * m → (split2 l).1.length = m ∧ (split2 l).2.length = m
  | 0, l, h => by rw [List.length_eq_zero_iff.1 h]; exact ⟨rfl, rfl⟩
  | m + 1, l, h => by
    match l, h with
    | a :: b :: l, h =>
      have := split2_length m l (by simp at h; omega)
      exact ⟨congrArg (· + 1) this.1, congrArg (· + 1) this.2⟩

/-- The local parts of the values and MACs, in the order of their masks. -/
def maskedLoc (a : List (SShare V)) (ps : List (List (SShare V) × IrisCodeArray)) : List (BitVec V) :=
  ps.flatMap fun p => [Aby3.maskedAcc 0 (((a.map (·.value)).zip (p.1.map (·.value))).zip p.2.bits),
    Aby3.maskedAcc 0 (((a.map (·.mac)).zip (p.1.map (·.value))).zip p.2.bits)]

theorem genZero_eq (s : SpdzSt (idealPrg f) V) : (viaAby (Aby3.genZero V) : Proto (SpdzSt (idealPrg f) V) _) s =
    .ret (tapeVal V s.jmp.tapeA - tapeVal V s.jmp.tapeB, s.adv V) := rfl

theorem SpdzSt.adv_adv (a b : Nat) (s : SpdzSt (idealPrg f) V) : (s.adv a).adv b = s.adv (a + b) := by
  unfold SpdzSt.adv
  rw [JmpSt.adv_adv]

theorem maskedDotLoop_eq (a : List (SShare V)) (ps : List (List (SShare V) × IrisCodeArray)) (s : SpdzSt (idealPrg f) V) :
    Spdz.maskedDotLoop a ps s = .ret (split2 (maskVals (maskedLoc a ps) (words V (2 * ps.length) s.jmp.tapeA)
      (words V (2 * ps.length) s.jmp.tapeB)), s.adv (V * (2 * ps.length))) := by
  induction ps generalizing s with
  | nil => rfl
  | cons p ps ih =>
    have hs : ∀ (c : BitVec V) ps, Aby3.maskedAcc c ps = Aby3.maskedAcc 0 ps + c := fun c ps => by
      rw [Uni.maskedAcc_shift, BitVec.add_comm]
    have e : Spdz.maskedDotLoop a (p :: ps) s = (Spdz.maskedDotLoop a ps ((s.adv V).adv V) >>= fun r =>
        Prog.ret ((Aby3.maskedAcc (tapeVal V s.jmp.tapeA - tapeVal V s.jmp.tapeB) (((a.map (·.value)).zip (p.1.map (·.value))).zip p.2.bits) :: r.1.1,
          Aby3.maskedAcc (tapeVal V (s.adv V).jmp.tapeA - tapeVal V (s.adv V).jmp.tapeB) (((a.map (·.mac)).zip (p.1.map (·.value))).zip p.2.bits) :: r.1.2), r.2)) := rfl
    rw [e, ih, show ((s.adv V).adv V).adv (V * (2 * ps.length)) = s.adv (V * (2 * ps.length + 2)) by
      rw [SpdzSt.adv_adv, SpdzSt.adv_adv]; congr 1; ring, List.length_cons, Nat.mul_add 2 _ 1,
      hs (_ - _), hs (tapeVal V (s.adv V).jmp.tapeA - _)]
    rfl

theorem queueAll_cpl {L n : Nat} {s : Bool → Party → List (SShare V)} (hs : ∀ w j, (s w j).length = n) :
    CplS i 0 (Buf L) (fun w j => (queueAll (s w j) : Proto (SpdzSt (idealPrg f) V) Unit)) fun _ t => Buf (L + n) t :=
  CplS.step fun st hst => ⟨fun w j t P => rfl, fun w j => ⟨(hst w j).1, by
    show ((st w j).verifyQueue ++ s w j).length = _
    rw [List.length_append, hs, (hst w j).2]⟩⟩

theorem maskedDotMany_cpl {L m : Nat} {a : Bool → Party → List (SShare V)} {b : Bool → Party → List (List (SShare V))}
    {masks : List IrisCodeArray} (ha : ∀ w j, (a w j).length = irisCodeSize) (hb : ∀ w j, (b w j).length = m) (hm : masks.length = m) :
    CplS i (V * (2 * m)) (Buf L) (fun w j => (Spdz.maskedDotMany j (a w j) (b w j) masks : Proto (SpdzSt (idealPrg f) V) _))
      fun c t => (∀ w j, (c w j).length = m) ∧ Buf (L + m) t := by
  unfold Spdz.maskedDotMany
  refine CplS.ite_neg (fun w j => by simp [ha]) ?_
  refine CplS.congr (q := fun w j => Spdz.maskedDotLoop (a w j) ((b w j).zip masks) >>= fun c =>
    Proto.net (sendSlicesAndReceiveIters j c.1 c.2) >>= fun d => (queueAll (List.zipWith (fun (p q : BitVec V × BitVec V) =>
      SShare.mk ⟨p.1, q.1⟩ ⟨p.2, q.2⟩) (c.1.zip c.2) (d.1.zip d.2)) >>= fun _ => pure (List.zipWith (fun (p q : BitVec V × BitVec V) =>
      SShare.mk ⟨p.1, q.1⟩ ⟨p.2, q.2⟩) (c.1.zip c.2) (d.1.zip d.2)))) (fun w j => rfl) ?_
  refine Masked.cpl (n := 0) (m := 2 * m) (out := split2) (res := split2) (fun w j => ?_) (fun x hx h => ?_) fun x hx => ?_
  · refine Masked.add (maskedLoc (a w j) ((b w j).zip masks)) ?_ fun s => ?_
    · have : ∀ ps : List (List (SShare V) × IrisCodeArray), (maskedLoc (a w j) ps).length = 2 * ps.length := by
        intro ps
        induction ps with
        | nil => rfl
        | cons p ps ih => rw [maskedLoc, List.flatMap_cons, List.length_append, ← maskedLoc, ih, List.length_cons]; simp; omega
      rw [this, List.length_zip, hb, hm, Nat.min_self]
    · have := maskedDotLoop_eq (a w j) ((b w j).zip masks) s
      rwa [List.length_zip, hb, hm, Nat.min_self] at this
  · refine Talk.iters (fun w j => ?_) (fun w j => ?_) (by rw [h]) (by rw [h])
    · rw [(split2_length m _ (hx w j)).1, (split2_length m _ (hx w j.prev)).1]
    · rw [(split2_length m _ (hx w j)).2, (split2_length m _ (hx w j.prev)).2]
  · have hl : ∀ w j, (List.zipWith (fun (p q : BitVec V × BitVec V) => SShare.mk ⟨p.1, q.1⟩ ⟨p.2, q.2⟩)
        ((split2 (x w j)).1.zip (split2 (x w j)).2) ((split2 (x w j.prev)).1.zip (split2 (x w j.prev)).2)).length = m := fun w j => by
      have h1 := split2_length m _ (hx w j)
      have h2 := split2_length m _ (hx w j.prev)
      simp only [List.length_zipWith, List.length_zip, h1.1, h1.2, h2.1, h2.2, Nat.min_self]
    refine CplS.bind' ((queueAll_cpl (L := L) hl).pre ?_) fun _ => CplS.pure fun t ht => ⟨hl, ht⟩
    rintro _ ⟨t, ht, rfl⟩
    exact ht

end Verif
