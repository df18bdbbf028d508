import Verif.Proof.S3LockOpen

/-!
# Lock-step runs of the openings of Swift3
-/

namespace Verif

open Swift3

variable {f : Bytes → List Bool} {K L m n : Nat} {α β γ δ : Type} {i : Party} {H : Hash}

theorem s3Exchange_lock {st : Bool → Party → S3St (idealPrg f) K} (hst : Twin3 i st) {s : Bool → Party → S3Share L}
    (hs : ∀ w j, (s w j).b = (s w j.prev).a) (hm : (s false i.next).a = (s true i.next).a) (hi : s false i = s true i) :
    Lock3 i (fun _ => []) (fun w j => openExchange j (s w j)) st fun _ t => Twin3 i t := by
  refine (Lock3.twin (Q := fun _ _ => True) (R := fun _ _ => True) ?_ hst (by simp only [hi]) fun w s' hs' => ?_).mono fun _ _ h => h.2.2
  · have hc : Cpl3 (f := f) (K := K) i 0 (fun w j => openExchange j (s w j)) fun _ => True := by
      refine Cpl3.congr (fun w j => s3OpenExchange_eq _ j _) ?_
      refine Cpl3.bind' (Cpl3.quiet fun w j => ?_) fun _ _ => ?_
      · match j with
        | 0 => exact ⟨fun s => s, fun _ _ => rfl, rfl⟩
        | 1 => exact ⟨fun t => { t with sendQNext := t.sendQNext ++ toBytes (s w 1).b }, fun _ _ => rfl, rfl⟩
        | 2 => exact ⟨fun t => { t with sendQNext := t.sendQNext ++ toBytes (s w 2).b, sendQPrev := t.sendQPrev ++ toBytes (s w 2).a }, fun _ _ => rfl, rfl⟩
      refine Cpl3.bind' (Cpl3.net (a := fun w j => match j with
        | 0 => toBytes (s w 1).a
        | 1 => toBytes (s w 0).b
        | 2 => toBytes (s w 0).a) (Talk.congr (fun w j => ?_) (Talk.open3 (x := fun w => toBytes (s w 0).a) (y := fun w => toBytes (s w 0).b)
          (z := fun w => toBytes (s w 1).a) (fun h => ?_) (fun h => ?_) fun h => ?_)) rfl) fun b hb => ?_
      · match j with
        | 0 => rfl
        | 1 => rfl
        | 2 => rfl
      · subst h; exact congrArg toBytes hm
      · subst h
        have h0 := hs false 0
        have h1 := hs true 0
        show toBytes (s false 0).b = toBytes (s true 0).b
        rw [h0, h1]; exact congrArg toBytes hm
      · subst h; exact congrArg toBytes hm
      subst hb
      refine Cpl3.bind' (Cpl3.lift (a := fun w j => match j with
        | 0 => (s w 1).a
        | 1 => (s w 0).b
        | 2 => (s w 0).a) (fun w j => ?_) rfl) fun y hy => ?_
      · match j with
        | 0 => exact fromBytes_toBytes _
        | 1 => exact fromBytes_toBytes _
        | 2 => exact fromBytes_toBytes _
      subst hy
      refine Cpl3.congr (q := fun w j => Proto.step fun t => ((match j with
        | 0 => (s w 1).a
        | 1 => (s w 0).b
        | 2 => (s w 0).a), (match j with
        | 0 => { t with rcvQPrev := t.rcvQPrev ++ toBytes (s w 1).a }
        | 1 => { t with rcvQNext := t.rcvQNext ++ toBytes (s w 0).b }
        | 2 => { t with rcvQPrev := t.rcvQPrev ++ toBytes (s w 0).a }))) (fun w j => ?_) (Cpl3.step trivial fun w j s p => ?_)
      · match j with
        | 0 => rfl
        | 1 => rfl
        | 2 => rfl
      · match j with
        | 0 => rfl
        | 1 => rfl
        | 2 => rfl
    obtain ⟨φ, h1, -, h3⟩ := hc st
    have := h3 [] rfl
    have e : ∀ w, φ w [] = [] := fun w => List.length_eq_zero_iff.1 (h1 w [] rfl)
    simp only [e] at this
    exact this
  · obtain ⟨u, v, d, hs'⟩ := hs'
    exact (openExchange_wp (hs w) hs').mono fun _ _ h => ⟨trivial, u, v, d, h.2⟩

theorem s3OpenExchangeMany_eq (G : Prg) (j : Party) (s : List (S3Share L)) : (openExchangeMany j s : Proto (S3St G K) (List (BitVec L))) = (do
    (match j with
      | 0 => pure ()
      | 1 => Proto.step fun t => ((), { t with sendQNext := (s.map (·.b)).foldl (fun q x => q ++ toBytes x) t.sendQNext })
      | 2 => Proto.step fun t => ((), { t with sendQNext := ((s.map (·.b)).foldl (fun q x => q ++ toBytes x) t.sendQNext), sendQPrev := ((s.map (·.a)).foldl (fun q x => q ++ toBytes x) t.sendQPrev) }) : Proto (S3St G K) Unit)
    let b ← Proto.net (match j with
      | 0 => Prog.send 2 (ringSliceToBytes (s.map (·.a))) (.send 1 (ringSliceToBytes (s.map (·.b))) (.recv 1 .ret))
      | 1 => .send 0 (ringSliceToBytes (s.map (·.a))) (.recv 0 .ret)
      | 2 => .recv 0 .ret)
    let y ← Proto.lift (ringVecFromBytes L b s.length)
    (match j with
      | 0 => Proto.step fun t => (y, { t with rcvQPrev := y.foldl (fun q x => q ++ toBytes x) t.rcvQPrev })
      | 1 => Proto.step fun t => (y, { t with rcvQNext := y.foldl (fun q x => q ++ toBytes x) t.rcvQNext })
      | 2 => Proto.step fun t => (y, { t with rcvQPrev := y.foldl (fun q x => q ++ toBytes x) t.rcvQPrev }) : Proto (S3St G K) (List (BitVec L)))) := by
  match j with
  | 0 =>
    show (jmpSendMany 0 (s.map (·.a)) 2 >>= fun _ => jmpSendMany 0 (s.map (·.b)) 1 >>= fun _ => jmpReceiveMany L 0 1 s.length) = _
    unfold jmpReceiveMany
    rw [Proto.net_recvVec 0 1 1 s.length rfl]
    simp only [bind_assoc, pure_bind]
    rfl
  | 1 =>
    show (jmpSendMany 1 (s.map (·.a)) 0 >>= fun _ => jmpQueueMany 1 (s.map (·.b)) 2 >>= fun _ => jmpReceiveMany L 1 0 s.length) = _
    unfold jmpReceiveMany
    rw [Proto.net_recvVec 1 0 0 s.length rfl]
    simp only [bind_assoc, pure_bind]
    rfl
  | 2 =>
    show (jmpQueueMany 2 (s.map (·.b)) 0 >>= fun _ => jmpQueueMany 2 (s.map (·.a)) 1 >>= fun _ => jmpReceiveMany L 2 0 s.length) = _
    unfold jmpReceiveMany
    rw [Proto.net_recvVec 2 0 0 s.length rfl]
    simp only [bind_assoc, pure_bind]
    rfl

theorem decVec {xs : List (BitVec L)} {n : Nat} (h : n = xs.length) : ringVecFromBytes L (ringSliceToBytes xs) n = .ok xs := by
  subst h
  exact ringVecFromBytes_roundtrip xs

theorem s3ExchangeMany_lock {st : Bool → Party → S3St (idealPrg f) K} (hst : Twin3 i st) {X : Type} {R : X → (Party → S3Share L) → Prop}
    (hR : ∀ x s, R x s → ∀ i, (s i).b = (s (Party.prev i)).a) {xs : Bool → List X} {s : Bool → Party → List (S3Share L)}
    (hs : ∀ w, Rels R (xs w) (s w)) (hx : (xs false).length = (xs true).length)
    (hm : (s false i.next).map (·.a) = (s true i.next).map (·.a)) (hi : s false i = s true i) :
    Lock3 i (fun _ => []) (fun w j => openExchangeMany j (s w j)) st fun _ t => Twin3 i t := by
  have hb : ∀ w j, (s w j).map (·.b) = (s w j.prev).map (·.a) := fun w j => (hs w).map_eq fun x s h => hR x s h j
  have hl : ∀ w j, (s w j).length = (xs false).length := fun w j => by
    rw [(hs w).length]
    cases w
    · rfl
    · exact hx.symm
  refine (Lock3.twin (Q := fun _ _ => True) (R := fun _ _ => True) ?_ hst (by simp only [hi]) fun w s' hs' => ?_).mono fun _ _ h => h.2.2
  · have hc : Cpl3 (f := f) (K := K) i 0 (fun w j => openExchangeMany j (s w j)) fun _ => True := by
      refine Cpl3.congr (fun w j => s3OpenExchangeMany_eq _ j _) ?_
      refine Cpl3.bind' (Cpl3.quiet fun w j => ?_) fun _ _ => ?_
      · match j with
        | 0 => exact ⟨fun s => s, fun _ _ => rfl, rfl⟩
        | 1 => exact ⟨fun t => { t with sendQNext := ((s w 1).map (·.b)).foldl (fun q x => q ++ toBytes x) t.sendQNext }, fun _ _ => rfl, rfl⟩
        | 2 => exact ⟨fun t => { t with sendQNext := ((s w 2).map (·.b)).foldl (fun q x => q ++ toBytes x) t.sendQNext, sendQPrev := ((s w 2).map (·.a)).foldl (fun q x => q ++ toBytes x) t.sendQPrev }, fun _ _ => rfl, rfl⟩
      refine Cpl3.bind' (Cpl3.net (a := fun w j => match j with
        | 0 => ringSliceToBytes ((s w 1).map (·.a))
        | 1 => ringSliceToBytes ((s w 0).map (·.b))
        | 2 => ringSliceToBytes ((s w 0).map (·.a))) (Talk.congr (fun w j => ?_) (Talk.open3 (x := fun w => ringSliceToBytes ((s w 0).map (·.a))) (y := fun w => ringSliceToBytes ((s w 0).map (·.b)))
          (z := fun w => ringSliceToBytes ((s w 1).map (·.a))) (fun h => ?_) (fun h => ?_) fun h => ?_)) rfl) fun b hbb => ?_
      · match j with
        | 0 => rfl
        | 1 => rfl
        | 2 => rfl
      · subst h; exact congrArg ringSliceToBytes hm
      · subst h
        have h0 := hb false 0
        have h1 := hb true 0
        show ringSliceToBytes ((s false 0).map (·.b)) = ringSliceToBytes ((s true 0).map (·.b))
        rw [h0, h1]; exact congrArg ringSliceToBytes hm
      · subst h; exact congrArg ringSliceToBytes hm
      subst hbb
      refine Cpl3.bind' (Cpl3.lift (a := fun w j => match j with
        | 0 => ((s w 1).map (·.a))
        | 1 => ((s w 0).map (·.b))
        | 2 => ((s w 0).map (·.a))) (fun w j => ?_) rfl) fun y hy => ?_
      · match j with
        | 0 => exact decVec (by simp [hl])
        | 1 => exact decVec (by simp [hl])
        | 2 => exact decVec (by simp [hl])
      subst hy
      refine Cpl3.congr (q := fun w j => Proto.step fun t => ((match j with
        | 0 => ((s w 1).map (·.a))
        | 1 => ((s w 0).map (·.b))
        | 2 => ((s w 0).map (·.a))), (match j with
        | 0 => { t with rcvQPrev := ((s w 1).map (·.a)).foldl (fun q x => q ++ toBytes x) t.rcvQPrev }
        | 1 => { t with rcvQNext := ((s w 0).map (·.b)).foldl (fun q x => q ++ toBytes x) t.rcvQNext }
        | 2 => { t with rcvQPrev := ((s w 0).map (·.a)).foldl (fun q x => q ++ toBytes x) t.rcvQPrev }))) (fun w j => ?_) (Cpl3.step trivial fun w j s p => ?_)
      · match j with
        | 0 => rfl
        | 1 => rfl
        | 2 => rfl
      · match j with
        | 0 => rfl
        | 1 => rfl
        | 2 => rfl
    obtain ⟨φ, h1, -, h3⟩ := hc st
    have := h3 [] rfl
    have e : ∀ w, φ w [] = [] := fun w => List.length_eq_zero_iff.1 (h1 w [] rfl)
    simp only [e] at this
    exact this
  · obtain ⟨u, v, d, hs'⟩ := hs'
    exact (openExchangeMany_wp hR (hs w) hs').mono fun _ _ h => ⟨trivial, u, v, d, h.2⟩


end Verif
