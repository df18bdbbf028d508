import Verif.Proof.SpdzLock
import Verif.Proof.UniAby3

/-!
# Lock-step runs of the gates of the SPDZ-wise backend

Every message of these gates is masked by a fresh random element, so the two runs can be coupled whatever the shares are.
-/

namespace Verif

open Jmp Spdz

variable {f : Bytes → List Bool} {V K : Nat} {α β γ δ : Type} {i : Party}

/-! ## Exchanges -/

theorem Talk.iter {x : Bool → Party → List (BitVec K)} (hl : ∀ w j, (x w j).length = (x w j.prev).length)
    (h : x false i.prev = x true i.prev) :
    Talk i (fun w j => sendSliceAndReceiveIter j (x w j)) fun w j => x w j.prev := by
  refine ⟨fun w j => [(j.prev, ringSliceToBytes (x w j.prev))], fun w acc => ?_, by simp only [h]⟩
  have e : ∀ j, sendSliceAndReceiveIter j (x w j) = Prog.send j.next (ringSliceToBytes (x w j)) (.recv j.prev fun m =>
      Prog.ofExcept (ringIterFromBytes K m (x w j).length)) := fun j => by
    unfold sendSliceAndReceiveIter sendAndReceive sendNext recvPrev
    simp only [Prog.send_bind, Prog.ret_bind, Prog.recv_bind]
  simp only [e]
  refine Uni.record_ring (fun j => ringSliceToBytes (x w j)) _ acc ?_
  have e2 : ∀ j, ringIterFromBytes K (ringSliceToBytes (x w j.prev)) (x w j).length = .ok (x w j.prev) := fun j => by
    rw [hl, ringIterFromBytes_roundtrip]
  simp only [e2]
  exact ⟨0, .zero _⟩

theorem Talk.iters {x y : Bool → Party → List (BitVec K)} (hl : ∀ w j, (x w j).length = (x w j.prev).length)
    (hl' : ∀ w j, (y w j).length = (y w j.prev).length) (h : x false i.prev = x true i.prev) (h' : y false i.prev = y true i.prev) :
    Talk i (fun w j => sendSlicesAndReceiveIters j (x w j) (y w j)) fun w j => (x w j.prev, y w j.prev) := by
  refine ⟨fun w j => [(j.prev, ringSliceToBytes (x w j.prev)), (j.prev, ringSliceToBytes (y w j.prev))], fun w acc => ?_,
    by simp only [h, h']⟩
  have e : ∀ j, (sendSlicesAndReceiveIters j (x w j) (y w j)).record (acc j) =
      Prog.send j.next (ringSliceToBytes (x w j)) (.send j.next (ringSliceToBytes (y w j)) (.recv j.prev fun m => .recv j.prev fun m' =>
      (do
        let a ← Prog.ofExcept (ringIterFromBytes K m (x w j).length)
        let b ← Prog.ofExcept (ringIterFromBytes K m' (y w j).length)
        Pure.pure (a, b) : Prog _).record (acc j ++ [(j.prev, m)] ++ [(j.prev, m')]))) := fun j => rfl
  simp only [e]
  obtain ⟨r, hr, rfl⟩ := WP.twice (x := fun j => ringSliceToBytes (x w j)) (y := fun j => ringSliceToBytes (y w j))
    (k := fun j m m' => (do
        let a ← Prog.ofExcept (ringIterFromBytes K m (x w j).length)
        let b ← Prog.ofExcept (ringIterFromBytes K m' (y w j).length)
        Pure.pure (a, b) : Prog _).record (acc j ++ [(j.prev, m)] ++ [(j.prev, m')]))
    (Q := (· = fun j => (acc j ++ [(j.prev, ringSliceToBytes (x w j.prev)), (j.prev, ringSliceToBytes (y w j.prev))],
      (x w j.prev, y w j.prev)))) (by
        have e2 : ∀ j, ringIterFromBytes K (ringSliceToBytes (x w j.prev)) (x w j).length = .ok (x w j.prev) := fun j => by
          rw [hl, ringIterFromBytes_roundtrip]
        have e3 : ∀ j, ringIterFromBytes K (ringSliceToBytes (y w j.prev)) (y w j).length = .ok (y w j.prev) := fun j => by
          rw [hl', ringIterFromBytes_roundtrip]
        simp only [e2, e3]
        refine ⟨_, ⟨0, .zero _⟩, ?_⟩
        funext j
        simp)
  exact hr

/-! ## Masked values -/

/-- After `k` bits have been drawn from both generators. -/
def SpdzSt.adv (k : Nat) (s : SpdzSt (idealPrg f) V) : SpdzSt (idealPrg f) V := { s with jmp := s.jmp.adv k }

theorem tapeS_adv {k : Nat} {u : List Bool} (hu : u.length = k) (t : List Bool) (st : Party → SpdzSt (idealPrg f) V) (P : Triples)
    (j : Party) : ((tapeS i (u ++ t) st j).put P).adv k = (tapeS i t (fun j => (st j).adv k) j).put P := by
  unfold SpdzSt.adv SpdzSt.put tapeS
  simp only [tapeIn_adv hu]

/-- The code draws `m` masks of `K` bits; the results are `m` values, shown in the form `out`, which take any given values for
suitable draws from the second generator. -/
def Masked (K m : Nat) (p : Proto (SpdzSt (idealPrg f) V) γ) (out : List (BitVec K) → γ) : Prop :=
  ∃ val : List (BitVec K) → List (BitVec K) → List (BitVec K),
    (∀ s, p s = .ret (out (val (words K m s.jmp.tapeA) (words K m s.jmp.tapeB)), s.adv (K * m))) ∧
    (∀ x y, x.length = m → y.length = m → (val x y).length = m) ∧
    ∀ x, x.length = m → ∃ solve : List (BitVec K) → List (BitVec K),
      ∀ c, c.length = m → (solve c).length = m ∧ val x (solve c) = c

theorem Masked.cpl {m : Nat} {p : Bool → Party → Proto (SpdzSt (idealPrg f) V) γ} {out : List (BitVec K) → γ}
    (hp : ∀ w j, Masked K m (p w j) out) {net : Party → γ → Prog δ} {res : List (BitVec K) → δ}
    (hn : ∀ x : Bool → Party → List (BitVec K), (∀ w j, (x w j).length = m) → x false i.prev = x true i.prev →
      Talk i (fun w j => net j (out (x w j))) fun w j => res (x w j.prev))
    {I : (Bool → Party → SpdzSt (idealPrg f) V) → Prop} {n : Nat} {k : Bool → Party → γ → δ → Proto (SpdzSt (idealPrg f) V) α}
    {Q : (Bool → Party → α) → (Bool → Party → SpdzSt (idealPrg f) V) → Prop}
    (hk : ∀ x : Bool → Party → List (BitVec K), (∀ w j, (x w j).length = m) →
      CplS i n (fun t => ∃ st, I st ∧ t = fun w j => (st w j).adv (K * m)) (fun w j => k w j (out (x w j)) (res (x w j.prev))) Q) :
    CplS i (K * m + n) I (fun w j => p w j >>= fun x => Proto.net (net j x) >>= fun y => k w j x y) Q := by
  have key : CplS i (K * m) I (fun w j => p w j >>= fun x => Proto.net (net j x) >>= fun y => Pure.pure (x, y))
      fun a t => (∃ x : Bool → Party → List (BitVec K), (∀ w j, (x w j).length = m) ∧
        a = fun w j => (out (x w j), res (x w j.prev))) ∧ ∃ st, I st ∧ t = fun w j => (st w j).adv (K * m) := by
    intro st hst
    choose val h1 h2 h3 using hp
    choose solve h4 using fun w => h3 w i.prev (words K m (st w i.prev).jmp.tapeA) (words_length _ _ _)
    have lw : ∀ u, (words K m u).length = m := words_length K m
    refine ⟨fun w u => tapesOf (solve w (words K m u)), fun w u hu => ?_, fun w u u' hu hu' e => ?_, fun u hu => ?_⟩
    · rw [tapesOf_length, (h4 w _ (lw u)).1]
    · have := tapesOf_inj (by rw [(h4 w _ (lw u)).1, (h4 w _ (lw u')).1]) e
      have := congrArg (val w i.prev (words K m (st w i.prev).jmp.tapeA)) this
      rw [(h4 w _ (lw u)).2, (h4 w _ (lw u')).2] at this
      exact words_inj hu hu' this
    · have ls : ∀ w, (solve w (words K m u)).length = m := fun w => (h4 w _ (lw u)).1
      let x : Bool → Party → List (BitVec K) := fun w j => val w j (drawA i m (solve w (words K m u)) (fun j => (st w j).jmp) j)
        (drawB i m (solve w (words K m u)) (fun j => (st w j).jmp) j)
      have lx : ∀ w j, (x w j).length = m := fun w j => h2 w j _ _ (drawA_length (ls w) _ _) (drawB_length (ls w) _ _)
      have hx : ∀ w, x w i.prev = words K m u := fun w => by
        show val w i.prev _ _ = _
        rw [drawA, drawB, if_neg ((by decide : ∀ c : Party, c.prev ≠ c.next) i), if_pos rfl]
        exact (h4 w _ (lw u)).2
      refine LockS.bind_last (LockS.loc (a := fun w j => out (x w j)) (t := fun w j => (st w j).adv (K * m)) (fun w rest j P => ?_) ?_)
      · rw [h1, tapeS_adv (by rw [tapesOf_length, ls])]
        show Prog.ret (out (val w j (words K m (tapeIn i _ _ j).tapeA) (words K m (tapeIn i _ _ j).tapeB)), _) = _
        rw [drawA_eq (ls w), drawB_eq (ls w)]
      · refine LockS.bind' (LockS.net (hn x lx (by rw [hx, hx])) ?_)
        exact LockS.pure (a := fun w j => (out (x w j), res (x w j.prev))) ⟨⟨x, lx, rfl⟩, st, hst, rfl⟩
  refine CplS.congr (q := fun w j => (p w j >>= fun x => Proto.net (net j x) >>= fun y => Pure.pure (x, y)) >>= fun z => k w j z.1 z.2)
    (fun w j => by simp only [bind_assoc, pure_bind]) ?_
  refine CplS.bind key fun a => ?_
  intro st hst
  obtain ⟨⟨x, lx, rfl⟩, st', h1, h2⟩ := hst
  exact hk x lx st ⟨st', h1, h2⟩

theorem Masked.of_eq {m : Nat} {p q : Proto (SpdzSt (idealPrg f) V) γ} {out : List (BitVec K) → γ} (h : Masked K m q out) (e : p = q) :
    Masked K m p out := e ▸ h

/-- Additive masks. -/
theorem Masked.add {m : Nat} {p : Proto (SpdzSt (idealPrg f) V) γ} {out : List (BitVec K) → γ} (h : List (BitVec K)) (hh : h.length = m)
    (e : ∀ s, p s = .ret (out (maskVals h (words K m s.jmp.tapeA) (words K m s.jmp.tapeB)), s.adv (K * m))) : Masked K m p out := by
  refine ⟨maskVals h, e, fun x y hx hy => by simp [maskVals, hh, hx, hy], fun x hx => ⟨maskTape h x, fun c hc => ⟨?_, ?_⟩⟩⟩
  · exact maskTape_length hh hx hc
  · exact maskVals_maskTape h x c (by rw [hx, hh]) (by rw [hc, hh])

/-- Values with binary masks. -/
def maskBits (h x y : List (BitVec K)) : List (BitVec K) := List.zipWith (· ^^^ ·) h (List.zipWith (· ^^^ ·) x y)

theorem maskBits_self (h x c : List (BitVec K)) (hx : x.length = h.length) (hc : c.length = h.length) :
    maskBits h x (maskBits h x c) = c := by
  unfold maskBits
  induction h generalizing x c with
  | nil => simp_all
  | cons a h ih =>
    obtain ⟨b, x, rfl⟩ := List.exists_cons_of_length_eq_add_one hx
    obtain ⟨d, c, rfl⟩ := List.exists_cons_of_length_eq_add_one hc
    simp only [List.zipWith_cons_cons, List.cons.injEq]
    refine ⟨?_, ih x c (by simpa using hx) (by simpa using hc)⟩
    rw [← BitVec.xor_assoc, ← BitVec.xor_assoc, ← BitVec.xor_assoc]
    rw [show a ^^^ b ^^^ a ^^^ b = 0 by
      rw [BitVec.xor_assoc a b a, BitVec.xor_comm b a, ← BitVec.xor_assoc, BitVec.xor_self, BitVec.zero_xor, BitVec.xor_self]; rfl]
    exact BitVec.zero_xor

theorem Masked.xor {m : Nat} {p : Proto (SpdzSt (idealPrg f) V) γ} {out : List (BitVec K) → γ} (h : List (BitVec K)) (hh : h.length = m)
    (e : ∀ s, p s = .ret (out (maskBits h (words K m s.jmp.tapeA) (words K m s.jmp.tapeB)), s.adv (K * m))) : Masked K m p out := by
  have hl : ∀ x y : List (BitVec K), x.length = m → y.length = m → (maskBits h x y).length = m := fun x y hx hy => by
    simp [maskBits, hh, hx, hy]
  exact ⟨maskBits h, e, hl, fun x hx => ⟨maskBits h x, fun c hc => ⟨hl x c hx hc, maskBits_self h x c (by rw [hx, hh]) (by rw [hc, hh])⟩⟩⟩

theorem andLoop_eq (ps : List (AShare K × AShare K)) (s : JmpSt (idealPrg f)) :
    viaPrf (Aby3.andLoop ps) s = .ret (maskBits (ps.map fun p => (p.1.andLocal p.2).a) (words K ps.length s.tapeA)
      (words K ps.length s.tapeB), s.adv (K * ps.length)) := by
  induction ps generalizing s with
  | nil => rfl
  | cons p ps ih =>
    have e : viaPrf (Aby3.andLoop (p :: ps)) s = (viaPrf (Aby3.andLoop ps) (s.adv K) >>= fun r =>
        Prog.ret (((p.1.andLocal p.2).a ^^^ (tapeVal K s.tapeA ^^^ tapeVal K s.tapeB)) :: r.1, r.2)) := by
      unfold viaPrf Proto.zoom
      simp only [Prog.bind_assoc']
      show ((Aby3.andLoop ps ⟨(s.adv K).prf⟩ >>= fun r => Prog.ret (_ :: r.1, r.2)) >>= _) = _
      rw [Prog.bind_assoc']
      rfl
    rw [e, ih, JmpSt.adv_adv, List.length_cons, Nat.mul_succ, Nat.add_comm]
    rfl

theorem viaJmp_net {α : Type} (p : Prog α) : (viaJmp (Proto.net p) : Proto (SpdzSt (idealPrg f) V) α) = Proto.net p := by
  funext s
  show (p >>= fun a => (.ret (a, s.jmp) : Prog (α × JmpSt (idealPrg f)))) >>= (fun r => (.ret (r.1, { s with jmp := r.2 }) :
    Prog (α × SpdzSt (idealPrg f) V))) = (p >>= fun a => (.ret (a, s) : Prog (α × SpdzSt (idealPrg f) V)))
  rw [Prog.bind_assoc']
  rfl

/-- Code that only uses the generators. -/
theorem viaJmp_ret {q : Proto (JmpSt (idealPrg f)) γ} {s : SpdzSt (idealPrg f) V} {a : γ} {t : JmpSt (idealPrg f)} (h : q s.jmp = .ret (a, t)) :
    (viaJmp q : Proto (SpdzSt (idealPrg f) V) γ) s = .ret (a, { s with jmp := t }) := by
  show (q s.jmp >>= fun r => Prog.ret (r.1, { s with jmp := r.2 })) = _
  rw [h]
  rfl

theorem andLoop_masked {ps : List (AShare K × AShare K)} {m : Nat} (hl : ps.length = m) :
    Masked K m (viaAby (Aby3.andLoop ps) : Proto (SpdzSt (idealPrg f) V) _) id := by
  subst hl
  exact Masked.xor (ps.map fun p => (p.1.andLocal p.2).a) (by simp) fun s => by
    have := viaJmp_ret (V := V) (s := s) (andLoop_eq ps s.jmp)
    exact this

theorem dotLoop_masked {ps : List (List (AShare V) × List (AShare V))} {m : Nat} (hl : ps.length = m)
    (hp : ∀ p ∈ ps, p.1.length = p.2.length) : Masked V m (viaAby (Aby3.dotLoop ps) : Proto (SpdzSt (idealPrg f) V) _) id := by
  subst hl
  exact Masked.add (ps.map fun p => Aby3.dotAcc 0 (p.1.zip p.2)) (by simp) fun s => by
    have := viaJmp_ret (V := V) (s := s) (dotLoop_eq ps hp s.jmp)
    exact this

theorem mulLoop_masked {ps : List (AShare V × AShare V)} {m : Nat} (hl : ps.length = m) :
    Masked V m (viaAby (Aby3.mulLoop ps) : Proto (SpdzSt (idealPrg f) V) _) id := by
  subst hl
  exact Masked.add (ps.map fun p => (p.1.mulLocal p.2).a) (by simp) fun s => by
    have := viaJmp_ret (V := V) (s := s) (mulLoop_eq ps s.jmp)
    exact this

theorem Talk.iter_id {m : Nat} (x : Bool → Party → List (BitVec K)) (hx : ∀ w j, (x w j).length = m)
    (h : x false i.prev = x true i.prev) : Talk i (fun w j => sendSliceAndReceiveIter j (id (x w j))) fun w j => id (x w j.prev) :=
  Talk.iter (x := x) (fun w j => by rw [hx, hx]) h

theorem Talk.value_head {m : Nat} (x : Bool → Party → List (BitVec K)) (_ : ∀ w j, (x w j).length = m)
    (h : x false i.prev = x true i.prev) :
    Talk i (fun w j => sendAndReceiveValue j ((x w j).headD 0)) fun w j => (x w j.prev).headD 0 :=
  Talk.value (x := fun w j => (x w j).headD 0) (by rw [h])

/-! ## Products of plain shares -/

/-- `dot_many` of the inner ABY3. -/
theorem abyDot_cpl {m n : Nat} {a b : Bool → Party → List (List (AShare V))} (ha : ∀ w j, (a w j).length = m)
    (hb : ∀ w j, (b w j).length = m) (hp : ∀ w j, ∀ p ∈ (a w j).zip (b w j), p.1.length = p.2.length)
    {I : (Bool → Party → SpdzSt (idealPrg f) V) → Prop} {k : Bool → Party → List (AShare V) → Proto (SpdzSt (idealPrg f) V) α}
    {Q : (Bool → Party → α) → (Bool → Party → SpdzSt (idealPrg f) V) → Prop}
    (hk : ∀ x : Bool → Party → List (AShare V), (∀ w j, (x w j).length = m) →
      CplS i n (fun t => ∃ st, I st ∧ t = fun w j => (st w j).adv (V * m)) (fun w j => k w j (x w j)) Q) :
    CplS i (V * m + n) I (fun w j => viaAby (Aby3.dotMany j (a w j) (b w j)) >>= k w j) Q := by
  refine CplS.congr (q := fun w j => viaAby (Aby3.dotLoop ((a w j).zip (b w j))) >>= fun x =>
    Proto.net (sendSliceAndReceiveIter j x) >>= fun y => k w j (List.zipWith AShare.mk x y)) (fun w j => ?_) ?_
  · unfold Aby3.dotMany
    rw [if_neg (by rw [ha, hb]; simp)]
    unfold viaAby
    simp only [viaPrf_bind, viaPrf_net, viaPrf_pure, viaJmp_bind, viaJmp_pure, viaJmp_net, bind_assoc, pure_bind]
  · exact Masked.cpl (fun w j => dotLoop_masked (by simp [ha, hb]) (hp w j)) Talk.iter_id fun x hx =>
      hk (fun w j => List.zipWith AShare.mk (x w j) (x w j.prev)) fun w j => by simp [hx]

theorem abyMul_cpl {n : Nat} {a b : Bool → Party → AShare V}
    {I : (Bool → Party → SpdzSt (idealPrg f) V) → Prop} {k : Bool → Party → AShare V → Proto (SpdzSt (idealPrg f) V) α}
    {Q : (Bool → Party → α) → (Bool → Party → SpdzSt (idealPrg f) V) → Prop}
    (hk : ∀ x : Bool → Party → AShare V,
      CplS i n (fun t => ∃ st, I st ∧ t = fun w j => (st w j).adv (V * 1)) (fun w j => k w j (x w j)) Q) :
    CplS i (V * 1 + n) I (fun w j => viaAby (Aby3.mul j (a w j) (b w j)) >>= k w j) Q := by
  refine CplS.congr (q := fun w j => (viaAby (Aby3.mulLoop [(a w j, b w j)]) >>= fun x => Pure.pure (x.headD 0)) >>= fun x =>
    Proto.net (sendAndReceiveValue j x) >>= fun y => k w j ⟨x, y⟩) (fun w j => ?_) ?_
  · unfold Aby3.mul Aby3.mulLoop Aby3.mulLoop viaAby
    simp only [viaPrf_bind, viaPrf_net, viaPrf_pure, viaJmp_bind, viaJmp_pure, viaJmp_net, bind_assoc, pure_bind, List.headD_cons]
  · refine Masked.cpl (m := 1) (K := V) (out := fun x => x.headD 0) (res := fun x => x.headD 0) (fun w j => ?_) Talk.value_head fun x hx =>
      hk fun w j => ⟨(x w j).headD 0, (x w j.prev).headD 0⟩
    obtain ⟨val, h1, h2⟩ := mulLoop_masked (f := f) (ps := [(a w j, b w j)]) (m := 1) rfl
    refine ⟨val, fun s => ?_, h2⟩
    show (viaAby (Aby3.mulLoop [(a w j, b w j)]) s >>= fun r => Prog.ret (r.1.headD 0, r.2)) = _
    rw [h1]
    rfl

/-! ## AND gates -/

/-- The buffer of AND gates has a last word whenever one is expected. -/
def BufShape (t : Triples) : Prop := t.bitsInLast < 128 → t.a ≠ [] ∧ t.b ≠ [] ∧ t.c ≠ []

theorem modifyLast_shape {g : AShare 128 → AShare 128} {l : List (AShare 128)} (h : l ≠ []) :
    ∃ l', Triples.modifyLast g l = .ok l' ∧ l' ≠ [] := by
  unfold Triples.modifyLast
  rw [List.getLast?_eq_getLast_of_ne_nil h]
  exact ⟨_, rfl, by simp⟩

theorem addT_shape {t : Triples} (h : BufShape t) (a b c : AShare K) : ∃ t', t.addT a b c = .ok t' ∧ BufShape t' := by
  have hp : ∀ (x : AShare K) (l : List (AShare 128)), Triples.pushT x l ≠ [] := fun x l => by simp [Triples.pushT]
  unfold Triples.addT
  by_cases h0 : 128 - t.bitsInLast = 0
  · simp only [h0, if_true]
    exact ⟨_, rfl, fun _ => ⟨hp _ _, hp _ _, hp _ _⟩⟩
  · obtain ⟨h1, h2, h3⟩ := h (by omega)
    simp only [h0, if_false]
    split
    · obtain ⟨a', ea, ha⟩ := modifyLast_shape (g := fun w => ⟨Triples.addAllWord a.a w.a, Triples.addAllWord a.b w.b⟩) h1
      obtain ⟨b', eb, hb⟩ := modifyLast_shape (g := fun w => ⟨Triples.addAllWord b.a w.a, Triples.addAllWord b.b w.b⟩) h2
      obtain ⟨c', ec, hc⟩ := modifyLast_shape (g := fun w => ⟨Triples.addAllWord c.a w.a, Triples.addAllWord c.b w.b⟩) h3
      unfold Triples.addAllT
      rw [ea, eb, ec]
      exact ⟨_, rfl, fun _ => ⟨ha, hb, hc⟩⟩
    · have hs : ∀ (x : AShare K) {l : List (AShare 128)}, l ≠ [] →
          ∃ l', Triples.splitAndAddT x l (128 - t.bitsInLast) = .ok l' ∧ l' ≠ [] := by
        intro x l hl
        obtain ⟨l', el, hl'⟩ := modifyLast_shape (g := fun w => ⟨Triples.splitLow (128 - t.bitsInLast) x.a w.a,
          Triples.splitLow (128 - t.bitsInLast) x.b w.b⟩) hl
        unfold Triples.splitAndAddT
        rw [el]
        exact ⟨_, rfl, by simp⟩
      obtain ⟨a', ea, ha⟩ := hs a h1
      obtain ⟨b', eb, hb⟩ := hs b h2
      obtain ⟨c', ec, hc⟩ := hs c h3
      rw [ea, eb, ec]
      exact ⟨_, rfl, fun _ => ⟨ha, hb, hc⟩⟩

theorem addMany_shape {t : Triples} (h : BufShape t) (a b c : List (AShare K)) : ∃ t', t.addMany a b c = .ok t' ∧ BufShape t' := by
  unfold Triples.addMany
  generalize (a.zip b).zip c = l
  induction l generalizing t with
  | nil => exact ⟨t, rfl, h⟩
  | cons x l ih =>
    obtain ⟨⟨a, b⟩, c⟩ := x
    obtain ⟨t1, e1, h1⟩ := addT_shape h a b c
    obtain ⟨t2, e2, h2⟩ := ih h1
    refine ⟨t2, ?_, h2⟩
    show (t.addT a b c >>= fun t => Triples.addLoop t l) = _
    rw [e1]
    exact e2

/-- All buffers are in order, and `L` values wait for the verification of their MACs. -/
def Buf (L : Nat) (st : Bool → Party → SpdzSt (idealPrg f) V) : Prop :=
  ∀ w j, BufShape (st w j).buffer ∧ (st w j).verifyQueue.length = L

theorem TwinS.buf {r : Bool → BitVec V} {n : Nat} {st : Bool → Party → SpdzSt (idealPrg f) V} (h : TwinS i r n st) (w : Bool) (j : Party) :
    BufShape (st w j).buffer := by
  intro hb
  obtain ⟨ws, bits, h1, h2, h3, h4, h5⟩ := (h.1 w []).2.2.2.2
  have hb' : bits < 128 := by
    have := h2 j
    rw [← this]
    exact hb
  have hw : ws ≠ 0 := by rintro rfl; omega
  obtain ⟨xs, ys, l1, l2, r1, r2, r3⟩ := h1
  have g : ∀ {l : List (AShare 128)}, l.length = ws → l ≠ [] := fun hl e => hw (by rw [← hl, e]; rfl)
  refine ⟨g ?_, g ?_, g ?_⟩
  · exact (r1.length j).trans (by simp [l1])
  · exact (r2.length j).trans (by simp [l2])
  · exact (r3.length j).trans (by simp [l1, l2])

/-- A coupling that keeps the buffers in order. -/
def CplB (L : Nat) (i : Party) (n : Nat) (p : Bool → Party → Proto (SpdzSt (idealPrg f) V) α) (Q : (Bool → Party → α) → Prop) : Prop :=
  CplS i n (Buf L) p fun a t => Q a ∧ Buf L t

namespace CplB

variable {n m L : Nat}

theorem mono {p : Bool → Party → Proto (SpdzSt (idealPrg f) V) α} {Q Q' : (Bool → Party → α) → Prop} (h : CplB L i n p Q)
    (hQ : ∀ a, Q a → Q' a) : CplB L i n p Q' := CplS.mono h fun a _ h => ⟨hQ a h.1, h.2⟩

theorem congr {p q : Bool → Party → Proto (SpdzSt (idealPrg f) V) α} {Q : (Bool → Party → α) → Prop} (hpq : ∀ w j, p w j = q w j)
    (h : CplB L i n q Q) : CplB L i n p Q := CplS.congr hpq h

theorem pure {a : Bool → Party → α} {Q : (Bool → Party → α) → Prop} (h : Q a) :
    CplB L i 0 (fun w j => (Pure.pure (a w j) : Proto (SpdzSt (idealPrg f) V) α)) Q := CplS.pure fun _ hst => ⟨h, hst⟩

theorem lift {x : Bool → Party → Except Err α} {a : Bool → Party → α} {Q : (Bool → Party → α) → Prop} (hx : ∀ w j, x w j = .ok (a w j))
    (h : Q a) : CplB L i 0 (fun w j => (Proto.lift (x w j) : Proto (SpdzSt (idealPrg f) V) α)) Q := CplS.lift hx fun _ hst => ⟨h, hst⟩

theorem ite_neg {c : Bool → Party → Prop} [∀ w k, Decidable (c w k)] {p q : Bool → Party → Proto (SpdzSt (idealPrg f) V) α}
    {Q : (Bool → Party → α) → Prop} (hc : ∀ w k, ¬ c w k) (h : CplB L i n q Q) : CplB L i n (fun w k => if c w k then p w k else q w k) Q :=
  CplS.ite_neg hc h

theorem bind {p : Bool → Party → Proto (SpdzSt (idealPrg f) V) α} {k : Bool → Party → α → Proto (SpdzSt (idealPrg f) V) β}
    {Q : (Bool → Party → α) → Prop} {Q' : (Bool → Party → β) → Prop} (h : CplB L i n p Q)
    (hk : ∀ a, Q a → CplB L i m (fun w j => k w j (a w j)) Q') : CplB L i (n + m) (fun w j => p w j >>= k w j) Q' :=
  CplS.bind h fun a => CplS.assume fun ha => hk a ha

theorem bind' {p : Bool → Party → Proto (SpdzSt (idealPrg f) V) α} {k : Bool → Party → α → Proto (SpdzSt (idealPrg f) V) β}
    {Q : (Bool → Party → α) → Prop} {Q' : (Bool → Party → β) → Prop} (h : CplB L i 0 p Q)
    (hk : ∀ a, Q a → CplB L i m (fun w j => k w j (a w j)) Q') : CplB L i m (fun w j => p w j >>= k w j) Q' :=
  CplS.bind' h fun a => CplS.assume fun ha => hk a ha

theorem bind_local {p : Bool → Party → Proto (SpdzSt (idealPrg f) V) α} {k : Bool → Party → α → Proto (SpdzSt (idealPrg f) V) β}
    {Q : (Bool → Party → α) → Prop} {Q' : (Bool → Party → β) → Prop} (h : CplB L i n p Q)
    (hk : ∀ a, Q a → CplB L i 0 (fun w j => k w j (a w j)) Q') : CplB L i n (fun w j => p w j >>= k w j) Q' := bind (m := 0) h hk

end CplB

/-- The update of the buffer after AND gates. -/
theorem bufStep_cpl {L : Nat} {g : Bool → Party → Triples → Except Err Triples} (hg : ∀ w j t, BufShape t → ∃ t', g w j t = .ok t' ∧ BufShape t')
    (c : Bool → Party → α) :
    CplB L i 0 (fun w j => ((do
      let s ← get
      let buffer ← Proto.lift (g w j s.buffer)
      Proto.step fun s : SpdzSt (idealPrg f) V => (c w j, { s with buffer := buffer })) : Proto (SpdzSt (idealPrg f) V) α)) (· = c) := by
  refine CplS.zero fun st hst => ?_
  choose b hb hb' using fun w j => hg w j _ (hst w j).1
  refine LockS.loc (a := c) (t := fun w j => { st w j with buffer := b w j }) (fun w rest j P => ?_) ⟨rfl, fun w j => ⟨hb' w j, (hst w j).2⟩⟩
  show ((Proto.lift (g w j (st w j).buffer) : Proto (SpdzSt (idealPrg f) V) _) ((tapeS i ([] ++ rest) (st w) j).put P) >>= fun r => _) = _
  rw [hb]
  rfl

theorem andMany_cplB {L m : Nat} {a b : Bool → Party → List (AShare K)} (ha : ∀ w j, (a w j).length = m) (hb : ∀ w j, (b w j).length = m) :
    CplB (f := f) (V := V) L i (K * m) (fun w j => Spdz.andMany j (a w j) (b w j)) fun c => ∀ w j, (c w j).length = m := by
  refine CplS.congr (q := fun w j => viaAby (Aby3.andLoop ((a w j).zip (b w j))) >>= fun x =>
    Proto.net (sendSliceAndReceiveIter j x) >>= fun y => (do
      let s ← get
      let buffer ← Proto.lift (s.buffer.addMany (a w j) (b w j) (List.zipWith AShare.mk x y))
      Proto.step fun s : SpdzSt (idealPrg f) V => (List.zipWith AShare.mk x y, { s with buffer := buffer }))) (fun w j => ?_) ?_
  · unfold Spdz.andMany Aby3.andMany
    rw [if_neg (by rw [ha, hb]; simp)]
    unfold viaAby
    simp only [viaPrf_bind, viaPrf_net, viaPrf_pure, viaJmp_bind, viaJmp_pure, viaJmp_net, bind_assoc, pure_bind]
  · refine Masked.cpl (n := 0) (fun w j => andLoop_masked (by simp [ha, hb])) Talk.iter_id fun x hx => ?_
    refine (bufStep_cpl (g := fun w j t => t.addMany (a w j) (b w j) (List.zipWith AShare.mk (x w j) (x w j.prev)))
      (fun w j t ht => addMany_shape ht _ _ _) fun w j => List.zipWith AShare.mk (x w j) (x w j.prev)).mono (fun c hc => ?_) |>.pre ?_
    · rw [hc]
      intro w j
      simp [hx]
    · rintro _ ⟨st, hst, rfl⟩
      exact hst

theorem and_cplB {L : Nat} {a b : Bool → Party → AShare K} :
    CplB (f := f) (V := V) L i (K * 1) (fun w j => Spdz.and j (a w j) (b w j)) fun _ => True := by
  refine CplS.congr (q := fun w j => (viaAby (Aby3.andLoop [(a w j, b w j)]) >>= fun x => Pure.pure (x.headD 0)) >>= fun x =>
    Proto.net (sendAndReceiveValue j x) >>= fun y => (do
      let s ← get
      let buffer ← Proto.lift (s.buffer.addT (a w j) (b w j) ⟨x, y⟩)
      Proto.step fun s : SpdzSt (idealPrg f) V => (⟨x, y⟩, { s with buffer := buffer }))) (fun w j => ?_) ?_
  · unfold Spdz.and Aby3.and Aby3.andLoop Aby3.andLoop viaAby
    simp only [viaPrf_bind, viaPrf_net, viaPrf_pure, viaJmp_bind, viaJmp_pure, viaJmp_net, bind_assoc, pure_bind, List.headD_cons]
  · refine Masked.cpl (n := 0) (m := 1) (K := K) (out := fun x => x.headD 0) (res := fun x => x.headD 0) (fun w j => ?_)
      Talk.value_head fun x hx => ?_
    · obtain ⟨val, h1, h2⟩ := andLoop_masked (f := f) (V := V) (ps := [(a w j, b w j)]) (m := 1) rfl
      refine ⟨val, fun s => ?_, h2⟩
      show (viaAby (Aby3.andLoop [(a w j, b w j)]) s >>= fun r => Prog.ret (r.1.headD 0, r.2)) = _
      rw [h1]
      rfl
    · refine (bufStep_cpl (g := fun w j t => t.addT (a w j) (b w j) ⟨(x w j).headD 0, (x w j.prev).headD 0⟩)
        (fun w j t ht => addT_shape ht _ _ _) fun w j => (⟨(x w j).headD 0, (x w j.prev).headD 0⟩ : AShare K)).mono (fun c hc => trivial) |>.pre ?_
      rintro _ ⟨st, hst, rfl⟩
      exact hst

end Verif
