import Verif.Spec.Pair
import Verif.Proof.Pair

/-! # The sacrifice check with a corrupt party -/

namespace Verif

variable {σ α β : Type} {G : Prg} {K V : Nat} {i : Party} {E : List Bytes → Prop}

/-- Only what the honest parties run matters. -/
theorem PWS.agree {p q : Party → Proto σ α} {st st' : Party → σ} {Q : List Bytes → (Party → α) → (Party → σ) → Prop}
    (h1 : p i (st i) = q i (st' i)) (h2 : p i.next (st i.next) = q i.next (st' i.next)) (h : PWS i q st' E Q) :
    PWS i p st E Q := by
  intro r s a b l1 l2
  exact h r s a b (by simp only [← h1]; exact l1) (by simp only [← h2]; exact l2)

/-- Finished runs of the two honest parties. -/
theorem PW.views {p : Party → Prog α} {Q : List Bytes → (Party → α) → Prop} (h : PW i p E Q)
    {rcvd sent : Party → Party → List Bytes} {out : Party → α} (hv : HonestViews p i.prev rcvd sent out) :
    E (rcvd i i.prev) ∨ ∃ o : Party → α, o i = out i ∧ o i.next = out i.next ∧ Q (rcvd i i.prev) o := by
  have n2 := Party.prev_ne i
  have n3 := Party.next_ne_prev i
  obtain he | ⟨-, -, o, o1, o2, hq⟩ := h rcvd sent _ _ (hv.run i n2.symm) (hv.run i.next n3)
    (.inr (hv.chan i i.next n2.symm n3 (Party.next_ne i).symm)) (.inr (hv.chan i.next i n3 n2.symm (Party.next_ne i)))
  · exact .inl he
  · exact .inr ⟨o, o1, o2, hq⟩

/-- A reachable state in which both honest parties are done gives their views. -/
theorem Reaches.honestViews {p : Party → Prog α} {c : Party} {adv : Prog α} {conf : Config α}
    (h : Reaches (corrupt p c adv) conf) {out : Party → α} (ho : ∀ k, k ≠ c → conf.prog k = .ret (out k)) :
    ∃ rcvd sent, HonestViews p c rcvd sent out := by
  obtain ⟨r, s, hl, hc⟩ := h.views
  refine ⟨r, s, ?_, ?_⟩
  · intro k hk
    have := hl k
    rwa [corrupt_of_ne hk, ho k hk] at this
  · intro k l _ _ _
    rw [hc k l]
    exact List.prefix_append _ _

theorem SharesOf.pair {x : BitVec K} {s : Party → AShare K} (h : SharesOf x s) (i : Party) :
    PairOf i x (s i) (s i.next) := by
  have h1 := h.1
  have h2 := h.2 i
  have h3 := h.2 i.next
  rw [Party.prev_next] at h3
  refine ⟨?_, h3⟩
  rw [h2, ← h1]
  match i with
  | 0 => simp only [Party.prev_zero, Party.next_zero]; ring
  | 1 => simp only [Party.prev_one, Party.next_one]; ring
  | 2 => simp only [Party.prev_two, Party.next_two]; ring

theorem openPair {X A C : Type} {R : X → (Party → A) → Prop} {g : A → C → X} {h : A → C} {k l : Party} {xs : List X}
    {F : Party → List A} (hF : Rels R xs F) (hg : ∀ x s, R x s → g (s k) (h (s l)) = x) :
    List.zipWith g (F k) ((F l).map h) = xs := by
  induction xs generalizing F with
  | nil => rw [hF.eq_nil]; rfl
  | cons x xs ih =>
    obtain ⟨b, ls, hb, h', rfl⟩ := hF.uncons
    simp only [List.map_cons, List.zipWith_cons_cons, ih h', hg _ _ hb]

theorem ringSliceToBytes_inj' {xs ys : List (BitVec K)} (hl : xs.length = ys.length)
    (h : ringSliceToBytes xs = ringSliceToBytes ys) : xs = ys := by
  have h1 := ringVecFromBytes_roundtrip xs
  have h2 := ringVecFromBytes_roundtrip ys
  rw [h, hl, h2] at h1
  injection h1 with h1
  exact h1.symm

namespace Jmp

variable {st : Party → JmpSt G}

/-- Queues as before, correlated generators. -/
structure Kept (st st' : Party → JmpSt G) : Prop where
  prf : PrfOk fun k => (st' k).prf
  snd : ∀ k, (st' k).sendQueuePrev = (st k).sendQueuePrev
  rcv : ∀ k, (st' k).rcvQueueNext = (st k).rcvQueueNext

theorem Kept.trans {st st' st'' : Party → JmpSt G} (h : Kept st st') (h' : Kept st' st'') : Kept st st'' :=
  ⟨h'.prf, fun k => (h'.snd k).trans (h.snd k), fun k => (h'.rcv k).trans (h.rcv k)⟩

theorem genRand_kept (hP : PrfOk fun k => (st k).prf) :
    WPS (fun _ => genRand K) st (fun s st' => (∃ x, SharesOf x s) ∧ Kept st st') := by
  obtain ⟨h1, h2⟩ := PrfOk.genRand K hP
  exact WPS.step ⟨shares_of_agree h2, h1, fun _ => rfl, fun _ => rfl⟩

theorem viaPrf_kept {p : Party → Proto (Aby3St G) α} {Q : (Party → α) → Prop} (hP : PrfOk fun k => (st k).prf)
    (h : ∀ st' : Party → Aby3St G, Aby3.Inv 0 st' → WPS p st' (fun a st'' => Q a ∧ Aby3.Inv 0 st'')) :
    WPS (fun i => viaPrf (p i)) st (fun a st' => Q a ∧ Kept st st') := by
  refine WPS.zoom ((h (fun i => ⟨(st i).prf⟩) hP).mono ?_)
  rintro a st' ⟨ha, hI'⟩
  exact ⟨ha, hI', fun _ => rfl, fun _ => rfl⟩

theorem genRandMany_kept (n : Nat) (hP : PrfOk fun k => (st k).prf) :
    WPS (fun _ => genRandMany K n) st (fun s st' => (∃ xs, xs.length = n ∧ Rels SharesOf xs s) ∧ Kept st st') := by
  induction n generalizing st with
  | zero => exact WPS.pure (a := fun _ => []) ⟨⟨[], rfl, Rels.nil⟩, hP, fun _ => rfl, fun _ => rfl⟩
  | succ n ih =>
    unfold genRandMany
    refine WPS.bind ((genRand_kept hP).mono ?_)
    rintro s st1 ⟨⟨x, hx⟩, hk⟩
    refine WPS.bind ((ih hk.prf).mono ?_)
    rintro ss st2 ⟨⟨xs, hl, hxs⟩, hk'⟩
    exact WPS.pure (a := fun i => s i :: ss i) ⟨⟨x :: xs, by simp [hl], .cons hx hxs⟩, hk.trans hk'⟩

theorem netFree_step {f : σ → α × σ} : NetFree (Proto.step f) := fun s => .inl ⟨f s, rfl⟩

theorem netFree_genRand : NetFree (genRand K : Proto (JmpSt G) _) := netFree_step

theorem netFree_genRandMany (n : Nat) : NetFree (genRandMany K n : Proto (JmpSt G) _) := by
  induction n with
  | zero => exact .pure _
  | succ n ih => exact netFree_genRand.bind fun _ => ih.bind fun _ => .pure _

theorem netFree_viaPrf {p : Proto (Aby3St G) α} (h : NetFree p) : NetFree (viaPrf p) := by
  intro s
  rcases h ⟨s.prf⟩ with ⟨r, hr⟩ | ⟨e, he⟩
  · exact .inl ⟨(r.1, { s with prf := r.2.prf }), by simp only [viaPrf, Proto.zoom, hr]; rfl⟩
  · exact .inr ⟨e, by simp only [viaPrf, Proto.zoom, he]; rfl⟩

theorem netFree_mulLoop (ps : List (AShare K × AShare K)) : NetFree (Aby3.mulLoop ps : Proto (Aby3St G) _) := by
  induction ps with
  | nil => exact .pure _
  | cons p ps ih =>
    obtain ⟨x, y⟩ := p
    exact netFree_step.bind fun _ => ih.bind fun _ => .pure _

theorem netFree_dotLoop (ps : List (List (AShare K) × List (AShare K))) :
    NetFree (Aby3.dotLoop ps : Proto (Aby3St G) _) := by
  induction ps with
  | nil => exact .pure _
  | cons p ps ih =>
    obtain ⟨x, y⟩ := p
    exact netFree_step.bind fun _ => .ite (.throw _) (ih.bind fun _ => .pure _)

/-- Empty queues, correlated generators. -/
structure Fresh (st : Party → JmpSt G) : Prop where
  prf : PrfOk fun k => (st k).prf
  snd : ∀ k, (st k).sendQueuePrev = []
  rcv : ∀ k, (st k).rcvQueueNext = []

/-- The next seeds of the parties' own generators. -/
def seeds (st : Party → JmpSt G) (k : Party) : Bytes := (G.genSeed (st k).prf.my).1

/-- The coin: `i.next` has the right one, `i` if it got the right message. -/
theorem coin_pw (hP : PrfOk fun k => (st k).prf) {Q : List Bytes → (Party → Bytes) → (Party → JmpSt G) → Prop}
    (h : ∀ z : Bytes, z.length = 32 → ∀ (sd : Party → Bytes) (st' : Party → JmpSt G),
      sd i.next = coinOf (seeds st) → (z = seeds st i.next → sd i = coinOf (seeds st)) →
      (PrfOk fun k => (st' k).prf) →
      (st' i).rcvQueueNext = (st i).rcvQueueNext ++ ringSliceToBytes (K := 8) z →
      (st' i.next).sendQueuePrev = (st i.next).sendQueuePrev ++ ringSliceToBytes (K := 8) (seeds st i.next) →
      Q [ringSliceToBytes (K := 8) z] sd st') : PWS i (fun k => coin k) st E Q := by
  unfold coin
  have n1 := Party.next_ne i
  have e : ∀ l, (G.genSeed (st l).prf.next).1 = seeds st l.prev := fun l => by
    have := hP l; simp only at this; simp only [seeds, this]
  refine PWS.bind (PWS.step ?_)
  simp only [e]
  refine PWS.bind (jmpSendReceiveMany_pw (snd := fun l => seeds st l.prev) (buf := fun l => seeds st l)
    (by simp only [seeds]; rw [G.genSeed_length, G.genSeed_length]) ?_)
  rintro z hz c rfl
  refine PWS.pure (a := fun l => List.zipWith (fun s1 (p : Byte × Byte) => s1 ^^^ (p.2 ^^^ p.1)) (seeds st l)
    ((seeds st l.prev).zip (if l = i then z else seeds st l.prev.prev))) ?_
  refine h z (by simpa [seeds, G.genSeed_length] using hz) _ _ ?_ ?_ ?_ ?_ ?_
  · simp only [n1, if_false]
    rw [prev_prev]
    exact coinOf_eq (seeds st) i.next
  · rintro rfl
    simp only [if_true]
    exact coinOf_eq (seeds st) i
  · intro l; have := hP l; simp only at this; simp only [this]
  · simp
  · simp

theorem coinElem_pw (hP : PrfOk fun k => (st k).prf)
    {Q : List Bytes → (Party → BitVec V) → (Party → JmpSt G) → Prop}
    (h : ∀ z : Bytes, z.length = 32 → ∀ (r : Party → BitVec V) (st' : Party → JmpSt G),
      r i.next = coinVal V st → (z = seeds st i.next → r i = coinVal V st) → (PrfOk fun k => (st' k).prf) →
      (st' i).rcvQueueNext = (st i).rcvQueueNext ++ ringSliceToBytes (K := 8) z →
      (st' i.next).sendQueuePrev = (st i.next).sendQueuePrev ++ ringSliceToBytes (K := 8) (seeds st i.next) →
      Q [ringSliceToBytes (K := 8) z] r st') : PWS i (fun k => MalAby3.coinElem V k) st E Q := by
  unfold MalAby3.coinElem
  refine PWS.bind (coin_pw hP ?_)
  intro z hz sd st' h1 h2 h3 h4 h5
  refine PWS.pure (a := fun l => (G.gen V (G.ofSeed (sd l))).1) ?_
  refine h z hz _ st' ?_ ?_ h3 h4 h5
  · simp only [h1]; rfl
  · intro hz'; simp only [h2 hz']; rfl

/-- A coin, a value depending on it that is opened, and the comparison of the queues: both honest parties have the right
coin and the right value, or the strings they have hashed collide. -/
theorem coinOpen1_pw {H : Hash} (hP : PrfOk fun k => (st k).prf)
    (hq : (st i).rcvQueueNext.length = (st i.next).sendQueuePrev.length)
    {f : Party → BitVec V → AShare V} {x : BitVec V} (hf : SharesOf x fun l => f l (coinVal V st))
    {k : Party → BitVec V → BitVec V → Proto (JmpSt G) β}
    {Q : List Bytes → (Party → β) → (Party → JmpSt G) → Prop}
    (hbad : ∀ m m' ms, Collision H ((st i).rcvQueueNext ++ m ++ m')
      ((st i.next).sendQueuePrev ++ ringSliceToBytes (K := 8) (seeds st i.next) ++ toBytes (f i.next (coinVal V st)).a) →
      E (m :: m' :: ms))
    (h : (st i).rcvQueueNext = (st i.next).sendQueuePrev → ∀ m m' (st' : Party → JmpSt G),
      Fresh st' →
      PWS i (fun l => k l (coinVal V st) x) st' (fun ms => E (m :: m' :: ms)) (fun ms => Q (m :: m' :: ms))) :
    PWS i (fun l => MalAby3.coinElem V l >>= fun r => reconstruct l (f l r) >>= fun v => jmpVerify H l >>= fun _ =>
      k l r v) st E Q := by
  have n1 := Party.next_ne i
  refine PWS.bind (coinElem_pw hP ?_)
  intro z hz r st1 hr hr' hP1 hrcv hsnd
  unfold reconstruct
  simp only [bind_assoc, pure_bind]
  refine PWS.bind (jmpSendReceive_pw ?_)
  rintro w c rfl
  refine PWS.bind (jmpVerify_pw ?_)
  intro hh
  simp only [hrcv, hsnd, hr] at hh
  simp only [if_true] at hh
  by_cases hs : (st i).rcvQueueNext ++ ringSliceToBytes (K := 8) z ++ toBytes w = (st i.next).sendQueuePrev ++
      ringSliceToBytes (K := 8) (seeds st i.next) ++ toBytes (f i.next (coinVal V st)).a
  · have hw := toBytes_inj (List.append_inj_right' hs (by simp))
    have hs' := List.append_inj_left' hs (by simp)
    have hz' := ringSliceToBytes_inj' (by rw [hz, seeds, G.genSeed_length]) (List.append_inj_right hs' hq)
    have hq' := List.append_inj_left hs' hq
    have ri := hr' hz'
    obtain ⟨p1, p2⟩ := hf.pair i
    refine PWS.agree (q := fun l => k l (coinVal V st) x) (st' := cleared st1) ?_ ?_
      (h hq' (ringSliceToBytes (K := 8) z) (toBytes w) (cleared st1) ⟨hP1, fun _ => rfl, fun _ => rfl⟩)
    · simp only [if_true, ri, hw, p1]
      rfl
    · simp only [hr, n1, if_false, Party.prev_next, ri]
      have : (f i.next (coinVal V st)).a + (f i.next (coinVal V st)).b + (f i (coinVal V st)).b = x := by
        rw [p2, ← p1]; ring
      rw [this]
      rfl
  · refine PWS.bad fun m' => ?_
    exact hbad _ _ _ ⟨hs, hh⟩

/-- The same for a vector of values. -/
theorem coinOpen_pw {H : Hash} (hP : PrfOk fun k => (st k).prf)
    (hq : (st i).rcvQueueNext.length = (st i.next).sendQueuePrev.length) {n : Nat}
    {f : Party → BitVec V → List (AShare V)} {xs : List (BitVec V)} (hl : ∀ l r, (f l r).length = n)
    (hf : Rels SharesOf xs fun l => f l (coinVal V st))
    {k : Party → BitVec V → List (BitVec V) → Proto (JmpSt G) β}
    {Q : List Bytes → (Party → β) → (Party → JmpSt G) → Prop}
    (hbad : ∀ m m' ms, Collision H ((st i).rcvQueueNext ++ m ++ m')
      ((st i.next).sendQueuePrev ++ ringSliceToBytes (K := 8) (seeds st i.next) ++
        ringSliceToBytes ((f i.next (coinVal V st)).map (·.a))) → E (m :: m' :: ms))
    (h : (st i).rcvQueueNext = (st i.next).sendQueuePrev → ∀ m m' (st' : Party → JmpSt G),
      Fresh st' →
      PWS i (fun l => k l (coinVal V st) xs) st' (fun ms => E (m :: m' :: ms)) (fun ms => Q (m :: m' :: ms))) :
    PWS i (fun l => MalAby3.coinElem V l >>= fun r => reconstructMany l (f l r) >>= fun v => jmpVerify H l >>= fun _ =>
      k l r v) st E Q := by
  have n1 := Party.next_ne i
  refine PWS.bind (coinElem_pw hP ?_)
  intro z hz r st1 hr hr' hP1 hrcv hsnd
  unfold reconstructMany
  simp only [bind_assoc, pure_bind]
  refine PWS.bind (jmpSendReceiveMany_pw (by simp [hl]) ?_)
  rintro w hw c rfl
  refine PWS.bind (jmpVerify_pw ?_)
  intro hh
  simp only [hrcv, hsnd, hr] at hh
  simp only [if_true] at hh
  simp only [List.length_map, hl] at hw
  by_cases hs : (st i).rcvQueueNext ++ ringSliceToBytes (K := 8) z ++ ringSliceToBytes w = (st i.next).sendQueuePrev ++
      ringSliceToBytes (K := 8) (seeds st i.next) ++ ringSliceToBytes ((f i.next (coinVal V st)).map (·.a))
  · have hw := ringSliceToBytes_inj' (by simp [hl, hw]) (List.append_inj_right' hs (by simp [ringSliceToBytes_length, hl, hw]))
    have hs' := List.append_inj_left' hs (by simp [ringSliceToBytes_length, hl, hw])
    have hz' := ringSliceToBytes_inj' (by rw [hz, seeds, G.genSeed_length]) (List.append_inj_right hs' hq)
    have hq' := List.append_inj_left hs' hq
    have ri := hr' hz'
    refine PWS.agree (q := fun l => k l (coinVal V st) xs) (st' := cleared st1) ?_ ?_
      (h hq' (ringSliceToBytes (K := 8) z) (ringSliceToBytes w) (cleared st1) ⟨hP1, fun _ => rfl, fun _ => rfl⟩)
    · simp only [if_true, ri, hw]
      have : List.zipWith (fun s c => c + s.a + s.b) (f i (coinVal V st))
          ((f i.next (coinVal V st)).map (·.a)) = xs := by
        refine openPair hf (fun x s h => ?_)
        rw [← (h.pair i).1]; ring
      rw [this]
      rfl
    · simp only [hr, n1, if_false, Party.prev_next, ri]
      have : List.zipWith (fun s c => c + s.a + s.b) (f i.next (coinVal V st))
          ((f i (coinVal V st)).map (·.b)) = xs := by
        refine openPair hf (fun x s h => ?_)
        rw [← (h.pair i).1, (h.pair i).2]; ring
      rw [this]
      rfl
  · refine PWS.bad fun m' => ?_
    exact hbad _ _ _ ⟨hs, hh⟩

end Jmp

namespace MalAby3

open Jmp

variable {st : Party → JmpSt G} {H : Hash}

/-- A corrupt party that sends `z` instead of its component makes the value wrong by the difference. -/
theorem SumsTo.replaced {x : BitVec K} {c : Party → BitVec K} (h : SumsTo x c) (i : Party) (z : BitVec K) :
    SumsTo (x + (z - c i.prev)) (fun l => if l = i.prev then z else c l) := by
  unfold SumsTo at h ⊢
  rw [← h]
  match i with
  | 0 => simp [Party.prev]
  | 1 => simp [Party.prev]; ring
  | 2 => simp [Party.prev]; ring

/-- What the two honest parties hold after the exchange of components. -/
theorem SumsTo.resharedPair {x : BitVec K} {c : Party → BitVec K} (h : SumsTo x c) (i : Party) (z : BitVec K) :
    ∃ s : Party → AShare K, SharesOf (x + (z - c i.prev)) s ∧ s i = ⟨c i, z⟩ ∧ s i.next = ⟨c i.next, c i⟩ := by
  refine ⟨_, (SumsTo.replaced h i z).shares, ?_, ?_⟩
  · simp [(Party.prev_ne i).symm]
  · simp [(Party.next_ne_prev i), (Party.prev_ne i).symm]

/-- Local code that finishes at all parties satisfies what holds of its joint runs. -/
theorem local_rel {p : Party → Proto σ α} {st st1 : Party → σ} {a : Party → α}
    (hd : ∀ k, p k (st k) = .ret (a k, st1 k)) {Q : (Party → α) → (Party → σ) → Prop} (h : WPS p st Q) : Q a st1 := by
  obtain ⟨o, ⟨n, hn⟩, hq⟩ := h
  have heq := hn.toSteps.eq_of_stuck (Config.stuck_of_done fun k => .inl ⟨_, hd k⟩)
  have hr : o = fun k => (a k, st1 k) := by
    funext k
    have : p k (st k) = .ret (o k) := congrArg (fun c => c.prog k) heq
    rw [hd k] at this
    injection this with this
    exact this.symm
  subst hr
  exact hq

theorem tripleDraws_wp (V : Nat) (hP : PrfOk fun k => (st k).prf) :
    WPS (fun _ => tripleDraws V) st (fun t st' => ∃ A A' B, SharesOf A (fun k => (t k).1) ∧
      SharesOf A' (fun k => (t k).2.1) ∧ SharesOf B (fun k => (t k).2.2.1) ∧
      Rels SumsTo [A * B, A' * B] (fun k => (t k).2.2.2) ∧ Kept st st') := by
  unfold tripleDraws
  refine WPS.bind ((genRand_kept hP).mono ?_)
  rintro a st1 ⟨⟨A, ha⟩, k1⟩
  refine WPS.bind ((genRand_kept k1.prf).mono ?_)
  rintro a' st2 ⟨⟨A', ha'⟩, k2⟩
  refine WPS.bind ((genRand_kept k2.prf).mono ?_)
  rintro b st3 ⟨⟨B, hb⟩, k3⟩
  refine WPS.bind ((viaPrf_kept (p := fun k => Aby3.mulLoop ([a k, a' k].zip [b k, b k])) k3.prf
    fun _ h => Aby3.mulLoop_wp h (.cons (b := a) ha (.singleton ha'))
    (.cons (b := b) hb (.singleton hb)) rfl).mono ?_)
  rintro cs st4 ⟨hcs, k4⟩
  exact WPS.pure (a := fun k => (a k, a' k, b k, cs k)) ⟨A, A', B, ha, ha', hb, hcs, ((k1.trans k2).trans k3).trans k4⟩

theorem tripleDraws_rel (hP : PrfOk fun k => (st k).prf) {a a' b : Party → AShare V} {cs : Party → List (BitVec V)}
    {st1 : Party → JmpSt G} (hd : ∀ k, tripleDraws V (st k) = .ret ((a k, a' k, b k, cs k), st1 k)) :
    ∃ A A' B, SharesOf A a ∧ SharesOf A' a' ∧ SharesOf B b ∧ Rels SumsTo [A * B, A' * B] cs ∧ Kept st st1 :=
  local_rel (p := fun _ => tripleDraws V) hd (tripleDraws_wp V hP)

theorem tripleDraws_run (V : Nat) (hP : PrfOk fun k => (st k).prf) :
    ∃ o : Party → (AShare V × AShare V × AShare V × List (BitVec V)) × JmpSt G,
      (∀ k, tripleDraws V (st k) = .ret (o k)) ∧ ∃ A A' B, SharesOf A (fun k => (o k).1.1) ∧
      SharesOf A' (fun k => (o k).1.2.1) ∧ SharesOf B (fun k => (o k).1.2.2.1) ∧
      Rels SumsTo [A * B, A' * B] (fun k => (o k).1.2.2.2) := by
  obtain ⟨o, ⟨n, hn⟩, A, A', B, h1, h2, h3, h4, -⟩ := tripleDraws_wp V hP
  have hf : NetFree (tripleDraws V : Proto (JmpSt G) _) :=
    netFree_genRand.bind fun _ => netFree_genRand.bind fun _ => netFree_genRand.bind fun _ =>
      (netFree_viaPrf (netFree_mulLoop _)).bind fun _ => .pure _
  have heq := hn.toSteps.eq_of_stuck (Config.stuck_of_done fun k => hf (st k))
  exact ⟨o, fun k => congrArg (fun c => c.prog k) heq, A, A', B, h1, h2, h3, h4⟩

theorem checkShare_rel {r v B C0 C1 : BitVec V} {b c0 c1 : Party → AShare V} (hb : SharesOf B b) (h0 : SharesOf C0 c0)
    (h1 : SharesOf C1 c1) : SharesOf (B * v - C0 * r + C1) (fun l => checkShare r v (b l) (c0 l) (c1 l)) :=
  ((hb.mulConst v).sub (h0.mulConst r)).add h1

theorem getMulTriple_pw (hV : 40 ≤ V - K) (hP : PrfOk fun k => (st k).prf)
    (hq : (st i).rcvQueueNext.length = (st i.next).sendQueuePrev.length)
    {a a' b : Party → AShare V} {c0 c1 : Party → BitVec V} {st1 : Party → JmpSt G}
    (hd : ∀ k, tripleDraws V (st k) = .ret ((a k, a' k, b k, [c0 k, c1 k]), st1 k))
    {A A' B : BitVec V} (ha : SharesOf A a) (ha' : SharesOf A' a') (hb : SharesOf B b) :
    PWS i (fun k => getMulTriple H V K k) st
      (fun ms => ∃ m0 m1 m2 rest, ms = m0 :: m1 :: m2 :: rest ∧ Collision H ((st i).rcvQueueNext ++ m1 ++ m2)
        ((st i.next).sendQueuePrev ++ ringSliceToBytes (K := 8) (seeds st1 i.next) ++
          toBytes (((a i.next).mulConst (coinVal V st1)).sub (a' i.next)).a))
      (fun ms t s => Fresh s ∧ ∃ (z0 z1 : BitVec V) (m1 m2 d : Bytes), ms = [ringSliceToBytes [z0, z1], m1, m2, d] ∧
        (st i).rcvQueueNext = (st i.next).sendQueuePrev ∧
        t i = ((a i).fromVerif K, (b i).fromVerif K, (⟨c0 i, z0⟩ : AShare V).fromVerif K) ∧
        t i.next = ((a i.next).fromVerif K, (b i.next).fromVerif K, (⟨c0 i.next, c0 i⟩ : AShare V).fromVerif K) ∧
        (Collision H
            (zeroBytes i (checkShare (coinVal V st1) (A * coinVal V st1 - A') (b i) ⟨c0 i, z0⟩ ⟨c1 i, z1⟩))
            (zeroBytes i.next (checkShare (coinVal V st1) (A * coinVal V st1 - A') (b i.next)
              ⟨c0 i.next, c0 i⟩ ⟨c1 i.next, c1 i⟩)) ∨
          coinVal V st1 * (z0 - c0 i.prev) = z1 - c1 i.prev ∧
          PairOf i (A.setWidth K) (t i).1 (t i.next).1 ∧ PairOf i (B.setWidth K) (t i).2.1 (t i.next).2.1 ∧
          PairOf i ((A * B + (z0 - c0 i.prev)).setWidth K) (t i).2.2 (t i.next).2.2)) := by
  have hKV : K ≤ V := by omega
  obtain ⟨A₁, A₁', B₁, h1, h2, h3, hcs, hk⟩ := tripleDraws_rel hP hd
  obtain rfl : A₁ = A := h1.1.symm.trans ha.1
  obtain rfl : A₁' = A' := h2.1.symm.trans ha'.1
  obtain rfl : B₁ = B := h3.1.symm.trans hb.1
  obtain ⟨d0, ds, hs0, hcs, e⟩ := hcs.uncons
  obtain ⟨d1, ds', hs1, -, rfl⟩ := hcs.uncons
  obtain ⟨rfl, rfl⟩ : d0 = c0 ∧ d1 = c1 := by
    constructor <;> funext l <;> have := congrFun e l <;> simp only [List.cons.injEq] at this
    · exact this.1.symm
    · exact this.2.1.symm
  set r := coinVal V st1 with hr
  unfold getMulTriple
  refine PWS.ite_neg (fun _ => by omega) ?_
  refine PWS.congr (q := fun k => tripleDraws V >>= fun t => Proto.net (sendSliceAndReceiveVec k t.2.2.2) >>= fun bs =>
    Proto.lift (idx (List.zipWith AShare.mk t.2.2.2 bs) 0) >>= fun c0 =>
    Proto.lift (idx (List.zipWith AShare.mk t.2.2.2 bs) 1) >>= fun c1 =>
    coinElem V k >>= fun r => reconstruct k ((t.1.mulConst r).sub t.2.1) >>= fun v => jmpVerify H k >>= fun _ => (do
      Proto.net (hashZeroVerify H k [checkShare r v t.2.2.1 c0 c1])
      pure (t.1.fromVerif K, t.2.2.1.fromVerif K, c0.fromVerif K))) (fun k => ?_) ?_
  · unfold tripleDraws abyMulMany
    simp only [bind_assoc, pure_bind]
    rfl
  refine PWS.bind_eq (a := fun k => (a k, a' k, b k, [d0 k, d1 k])) hd ?_
  refine PWS.bind (PWS.net (PW.exchangeVec (x := fun k => [d0 k, d1 k]) (by simp) ?_))
  intro z hz
  obtain ⟨z0, z1, rfl⟩ : ∃ z0 z1, z = [z0, z1] := by
    match z, hz with
    | [z0, z1], _ => exact ⟨z0, z1, rfl⟩
  obtain ⟨s0, hS0, s0i, s0j⟩ := SumsTo.resharedPair hs0 i z0
  obtain ⟨s1, hS1, s1i, s1j⟩ := SumsTo.resharedPair hs1 i z1
  have n1 := Party.next_ne i
  refine PWS.agree (q := fun l => coinElem V l >>= fun r => reconstruct l (((a l).mulConst r).sub (a' l)) >>= fun v =>
    jmpVerify H l >>= fun _ => (do
      Proto.net (hashZeroVerify H l [checkShare r v (b l) (s0 l) (s1 l)])
      pure ((a l).fromVerif K, (b l).fromVerif K, (s0 l).fromVerif K))) (st' := st1) ?_ ?_ ?_
  · simp only [if_true, s0i, s1i]; rfl
  · simp only [n1, if_false, Party.prev_next, s0j, s1j]; rfl
  refine coinOpen1_pw hk.prf (by rw [hk.rcv, hk.snd]; exact hq)
    (f := fun l r => ((a l).mulConst r).sub (a' l)) ((ha.mulConst _).sub ha') ?_ ?_
  · intro m m' ms hcol
    rw [hk.rcv, hk.snd] at hcol
    exact ⟨_, m, m', ms, rfl, hcol⟩
  · intro hqe m m' st2 hF
    rw [hk.rcv, hk.snd] at hqe
    refine PWS.bind (PWS.net (PW.hashZero ?_))
    intro hh
    refine PWS.pure (a := fun l => ((a l).fromVerif K, (b l).fromVerif K, (s0 l).fromVerif K)) ?_
    refine ⟨hF, z0, z1, _, _, _, rfl, hqe, by simp only [s0i], by simp only [s0j], ?_⟩
    have hw := checkShare_rel (r := r) (v := A₁ * r - A₁') hb hS0 hS1
    simp only [List.flatMap_cons, List.flatMap_nil, List.append_nil] at hh
    by_cases hz : zeroBytes i (checkShare r (A₁ * r - A₁') (b i) (s0 i) (s1 i)) =
        zeroBytes i.next (checkShare r (A₁ * r - A₁') (b i.next) (s0 i.next) (s1 i.next))
    · right
      have h0 := zeroBytes_eq hw n1.symm hz
      refine ⟨?_, (ha.fromVerif hKV).pair i, (hb.fromVerif hKV).pair i, (hS0.fromVerif hKV).pair i⟩
      have e : B₁ * (A₁ * r - A₁') - (A₁ * B₁ + (z0 - d0 i.prev)) * r + (A₁' * B₁ + (z1 - d1 i.prev)) =
        (z1 - d1 i.prev) - r * (z0 - d0 i.prev) := by ring
      rw [e] at h0
      exact (sub_eq_zero.1 h0).symm
    · left
      rw [← s0i, ← s0j, ← s1i, ← s1j]
      exact ⟨hz, hh⟩

/-! ## Many products -/

theorem Rels.pairs {xs : List (BitVec K)} {s : Party → List (AShare K)} (h : Rels SharesOf xs s) (i : Party) :
    PairsOf i xs (s i) (s i.next) := by
  refine ⟨by rw [h.length, h.length], ?_⟩
  induction xs generalizing s with
  | nil => rw [h.eq_nil]; exact .nil
  | cons x xs ih =>
    obtain ⟨b, ls, hb, h', rfl⟩ := h.uncons
    exact .cons (hb.pair i) (ih h')

theorem Rels.resharedPair {xs : List (BitVec K)} {cs : Party → List (BitVec K)} (h : Rels SumsTo xs cs) (i : Party)
    {z : List (BitVec K)} (hz : z.length = xs.length) :
    ∃ s : Party → List (AShare K), Rels SharesOf (List.zipWith (· + ·) xs (errors z (cs i.prev))) s ∧
      s i = List.zipWith AShare.mk (cs i) z ∧ s i.next = List.zipWith AShare.mk (cs i.next) (cs i) := by
  induction xs generalizing cs z with
  | nil =>
    obtain rfl := List.eq_nil_of_length_eq_zero hz
    rw [h.eq_nil]
    exact ⟨_, Rels.nil, rfl, rfl⟩
  | cons x xs ih =>
    cases z with
    | nil => simp at hz
    | cons w z =>
      obtain ⟨c, cs', hc, h', rfl⟩ := h.uncons
      obtain ⟨s, hs, e1, e2⟩ := ih h' (by simpa using hz)
      obtain ⟨s0, hs0, f1, f2⟩ := SumsTo.resharedPair hc i w
      exact ⟨fun l => s0 l :: s l, Rels.cons hs0 hs, by simp [f1, e1], by simp [f2, e2]⟩

/-- The check values for wrong products. -/
theorem checkShares_rel (r : BitVec V) {A A' B E0 E1 : List (BitVec V)} {b c0 c1 : Party → List (AShare V)}
    (hl : A.length = B.length) (hl' : A'.length = B.length) (e0 : E0.length = B.length) (e1 : E1.length = B.length)
    (hb : Rels SharesOf B b) (h0 : Rels SharesOf (List.zipWith (· + ·) (List.zipWith (· * ·) A B) E0) c0)
    (h1 : Rels SharesOf (List.zipWith (· + ·) (List.zipWith (· * ·) A' B) E1) c1) :
    Rels SharesOf (List.zipWith (fun e0 e1 => e1 - r * e0) E0 E1)
      (fun i => checkShares r (List.zipWith (fun x y => x * r - y) A A') (b i) (c0 i) (c1 i)) := by
  induction B generalizing A A' E0 E1 b c0 c1 with
  | nil =>
    obtain rfl := List.eq_nil_of_length_eq_zero e0
    rw [hb.eq_nil]
    simpa [checkShares] using Rels.nil
  | cons y B ih =>
    match A, A', E0, E1, hl, hl', e0, e1 with
    | x :: A, x' :: A', u :: E0, w :: E1, hl, hl', e0, e1 =>
      simp only [List.zipWith_cons_cons] at h0 h1
      obtain ⟨b1, b2, hb1, hb2, rfl⟩ := hb.uncons
      obtain ⟨d1, d2, hd1, hd2, rfl⟩ := h0.uncons
      obtain ⟨f1, f2, hf1, hf2, rfl⟩ := h1.uncons
      have := ih (by simpa using hl) (by simpa using hl') (by simpa using e0) (by simpa using e1) hb2 hd2 hf2
      simp only [List.zipWith_cons_cons, checkShares, List.zip_cons_cons]
      refine Rels.cons (b := fun i => checkShare r (x * r - x') (b1 i) (d1 i) (f1 i)) ?_ this
      have hw := checkShare_rel (r := r) (v := x * r - x') hb1 hd1 hf1
      have e : y * (x * r - x') - (x * y + u) * r + (x' * y + w) = w - r * u := by ring
      rwa [e] at hw

theorem SharesOf.congr_val {x y : BitVec K} {s : Party → AShare K} (e : x = y) (h : SharesOf x s) : SharesOf y s := e ▸ h

theorem dotCheckShare_rel (r : BitVec V) {xs as ys : List (BitVec V)} (hl : xs.length = ys.length)
    (hl' : as.length = ys.length) {u w : BitVec V} {b : Party → List (AShare V)} {c0 c1 : Party → AShare V}
    (hb : Rels SharesOf ys b) (h0 : SharesOf ((List.zipWith (· * ·) xs ys).sum + u) c0)
    (h1 : SharesOf ((List.zipWith (· * ·) as ys).sum + w) c1) :
    SharesOf (w - r * u) (fun i => dotCheckShare r (List.zipWith (fun x y => x * r - y) xs as) (b i) (c0 i) (c1 i)) := by
  have := dotCheckAcc_rel ((h0.neg.mulConst r).add h1) hb (vs := List.zipWith (fun x y => x * r - y) xs as)
    (by simp [hl, hl'])
  rw [sacrifice_sum r xs as ys hl hl'] at this
  refine SharesOf.congr_val ?_ this
  ring

theorem dotCheckShares_rel (r : BitVec V) {xss ass yss : List (List (BitVec V))} {E0 E1 : List (BitVec V)}
    (hl : List.Forall₂ (fun xs ys => xs.length = ys.length) xss yss) (hl' : ass.map List.length = yss.map List.length)
    (e0 : E0.length = yss.length) (e1 : E1.length = yss.length)
    {b : Party → List (List (AShare V))} {c0 c1 : Party → List (AShare V)} (hb : Rels (Rels SharesOf) yss b)
    (h0 : Rels SharesOf (List.zipWith (· + ·)
      (List.zipWith (fun xs ys => (List.zipWith (· * ·) xs ys).sum) xss yss) E0) c0)
    (h1 : Rels SharesOf (List.zipWith (· + ·)
      (List.zipWith (fun xs ys => (List.zipWith (· * ·) xs ys).sum) ass yss) E1) c1) :
    Rels SharesOf (List.zipWith (fun e0 e1 => e1 - r * e0) E0 E1)
      (fun i => dotCheckShares r (List.zipWith (List.zipWith fun x y => x * r - y) xss ass) (b i) (c0 i) (c1 i)) ∧
      ∀ i, dotCheckLoop r (List.zipWith (List.zipWith fun x y => x * r - y) xss ass).flatten
        ((b i).zip ((c0 i).zip (c1 i))) =
        .ok (dotCheckShares r (List.zipWith (List.zipWith fun x y => x * r - y) xss ass) (b i) (c0 i) (c1 i)) := by
  induction hl generalizing ass b c0 c1 E0 E1 with
  | nil =>
    obtain rfl := List.eq_nil_of_length_eq_zero e0
    rw [hb.eq_nil]
    exact ⟨by simpa [dotCheckShares] using Rels.nil, fun i => by simp [dotCheckShares, dotCheckLoop]⟩
  | @cons xs ys xss yss hl _ ih =>
    match ass, E0, E1, hl', e0, e1 with
    | as :: ass, u :: E0, w :: E1, hl', e0, e1 =>
      simp only [List.map_cons, List.cons.injEq] at hl'
      simp only [List.zipWith_cons_cons] at h0 h1
      obtain ⟨b1, b2, hb1, hb2, rfl⟩ := hb.uncons
      obtain ⟨d1, d2, hd1, hd2, rfl⟩ := h0.uncons
      obtain ⟨f1, f2, hf1, hf2, rfl⟩ := h1.uncons
      obtain ⟨hws, ew⟩ := ih hl'.2 (by simpa using e0) (by simpa using e1) hb2 hd2 hf2
      refine ⟨?_, fun i => ?_⟩
      · simp only [List.zipWith_cons_cons, dotCheckShares, List.zip_cons_cons]
        exact Rels.cons (b := fun i => dotCheckShare r (List.zipWith (fun x y => x * r - y) xs as) (b1 i) (d1 i) (f1 i))
          (dotCheckShare_rel r hl hl'.1 hb1 hd1 hf1) hws
      · have lz : (List.zipWith (fun x y => x * r - y) xs as).length = (b1 i).length := by
          rw [hb1.length]; simp [hl, hl'.1]
        simp only [List.zipWith_cons_cons, List.flatten_cons, List.zip_cons_cons, dotCheckLoop, dotCheckShares]
        rw [if_neg (by rw [List.length_append]; omega), ← lz, List.drop_left, List.take_left, ew i]
        rfl

theorem errors_zero (r : BitVec V) {E0 E1 : List (BitVec V)} (hl : E0.length = E1.length)
    (h : ∀ x ∈ List.zipWith (fun e0 e1 => e1 - r * e0) E0 E1, x = 0) : E1 = E0.map (r * ·) := by
  induction E0 generalizing E1 with
  | nil => obtain rfl := List.eq_nil_of_length_eq_zero hl.symm; rfl
  | cons u E0 ih =>
    cases E1 with
    | nil => simp at hl
    | cons w E1 =>
      simp only [List.zipWith_cons_cons, List.mem_cons, forall_eq_or_imp] at h
      simp only [List.map_cons, List.cons.injEq]
      exact ⟨sub_eq_zero.1 h.1, ih (by simpa using hl) h.2⟩

/-- The last part of the sacrifice: the hash-based comparison. -/
theorem sacrificeTail_pw (r : BitVec V) {E0 E1 : List (BitVec V)} (hl : E0.length = E1.length)
    {ws : Party → List (AShare V)} (hw : Rels SharesOf (List.zipWith (fun e0 e1 => e1 - r * e0) E0 E1) ws)
    {out : Party → α} {Q : List Bytes → (Party → α) → (Party → JmpSt G) → Prop}
    (h : ∀ m, Collision H ((ws i).flatMap (zeroBytes i)) ((ws i.next).flatMap (zeroBytes i.next)) ∨
      E1 = E0.map (r * ·) → Q [m] out st) :
    PWS i (fun l => do Proto.net (hashZeroVerify H l (ws l)); pure (out l)) st E Q := by
  refine PWS.bind (PWS.net (PW.hashZero ?_))
  intro hh
  refine PWS.pure (a := out) (h _ ?_)
  by_cases hz : (ws i).flatMap (zeroBytes i) = (ws i.next).flatMap (zeroBytes i.next)
  · exact .inr (errors_zero r hl (zeroBytes_all hw (Party.next_ne i).symm hz))
  · exact .inl ⟨hz, hh⟩

theorem SharesOf.unique {x y : BitVec K} {s : Party → AShare K} (h : SharesOf x s) (h' : SharesOf y s) : x = y :=
  h.1.symm.trans h'.1

theorem Rels.unique {X B : Type} {R : X → (Party → B) → Prop} (hR : ∀ x y s, R x s → R y s → x = y) {xs ys : List X}
    {s : Party → List B} (h : Rels R xs s) (h' : Rels R ys s) : xs = ys := by
  induction xs generalizing ys s with
  | nil =>
    have := h'.length 0
    rw [h.eq_nil] at this
    exact (List.eq_nil_of_length_eq_zero this.symm).symm
  | cons x xs ih =>
    obtain ⟨b, ls, hb, h1, rfl⟩ := h.uncons
    cases ys with
    | nil => have := congrFun h'.eq_nil 0; simp at this
    | cons y ys =>
      obtain ⟨b', ls', hb', h2, e⟩ := h'.uncons
      have e1 : b = b' := funext fun l => by have := congrFun e l; simp only [List.cons.injEq] at this; exact this.1
      have e2 : ls = ls' := funext fun l => by have := congrFun e l; simp only [List.cons.injEq] at this; exact this.2
      subst e1 e2
      rw [hR _ _ _ hb hb', ih h1 h2]

theorem Rels.uniqueShares {xs ys : List (BitVec K)} {s : Party → List (AShare K)} (h : Rels SharesOf xs s)
    (h' : Rels SharesOf ys s) : xs = ys :=
  Rels.unique (R := SharesOf) (fun _ _ _ h h' => SharesOf.unique h h') h h'

theorem tripleCheck_eq (r : BitVec V) (b : List (AShare V)) (v : List (BitVec V)) (c0 c1 : List (AShare V)) :
    tripleCheck r b v c0 c1 = checkShares r v b c0 c1 := by
  unfold tripleCheck checkShares
  induction b generalizing v c0 c1 with
  | nil => simp
  | cons x b ih =>
    cases v with
    | nil => simp
    | cons y v =>
      cases c0 with
      | nil => simp
      | cons u c0 =>
        cases c1 with
        | nil => simp
        | cons w c1 =>
          simp only [List.zip_cons_cons, List.zipWith_cons_cons, ih]
          rfl

theorem tripleManyDraws_rel {n : Nat} (hP : PrfOk fun k => (st k).prf) {a b a' : Party → List (AShare V)}
    {cs : Party → List (BitVec V)} {st1 : Party → JmpSt G}
    (hd : ∀ k, tripleManyDraws V n (st k) = .ret ((a k, b k, a' k, cs k), st1 k)) :
    ∃ A B A', A.length = n ∧ B.length = n ∧ A'.length = n ∧ Rels SharesOf A a ∧ Rels SharesOf B b ∧ Rels SharesOf A' a' ∧
      Rels SumsTo (List.zipWith (· * ·) A B ++ List.zipWith (· * ·) A' B) cs ∧ Kept st st1 := by
  refine local_rel (p := fun _ => tripleManyDraws V n) hd (Q := fun t st' => ∃ A B A', A.length = n ∧ B.length = n ∧
    A'.length = n ∧ Rels SharesOf A (fun k => (t k).1) ∧ Rels SharesOf B (fun k => (t k).2.1) ∧
    Rels SharesOf A' (fun k => (t k).2.2.1) ∧
    Rels SumsTo (List.zipWith (· * ·) A B ++ List.zipWith (· * ·) A' B) (fun k => (t k).2.2.2) ∧ Kept st st') ?_
  unfold tripleManyDraws
  refine WPS.bind ((genRandMany_kept n hP).mono ?_)
  rintro a st1 ⟨⟨A, lA, ha⟩, k1⟩
  refine WPS.bind ((genRandMany_kept n k1.prf).mono ?_)
  rintro b st2 ⟨⟨B, lB, hb⟩, k2⟩
  refine WPS.bind ((genRandMany_kept n k2.prf).mono ?_)
  rintro a' st3 ⟨⟨A', lA', ha'⟩, k3⟩
  refine WPS.bind ((viaPrf_kept (p := fun k => Aby3.mulLoop ((a k ++ a' k).zip (b k ++ b k))) k3.prf
    fun _ h => Aby3.mulLoop_wp h (ha.append ha') (hb.append hb) (by simp [lA, lA', lB])).mono ?_)
  rintro cs st4 ⟨hcs, k4⟩
  rw [List.zipWith_append (by omega)] at hcs
  exact WPS.pure (a := fun k => (a k, b k, a' k, cs k))
    ⟨A, B, A', lA, lB, lA', ha, hb, ha', hcs, ((k1.trans k2).trans k3).trans k4⟩

theorem getMulTripleMany_pw {n : Nat} (hV : 40 ≤ V - K) (hP : PrfOk fun k => (st k).prf)
    (hq : (st i).rcvQueueNext.length = (st i.next).sendQueuePrev.length)
    {a b a' : Party → List (AShare V)} {cs : Party → List (BitVec V)} {st1 : Party → JmpSt G}
    (hd : ∀ k, tripleManyDraws V n (st k) = .ret ((a k, b k, a' k, cs k), st1 k))
    {A B A' : List (BitVec V)} (ha : Rels SharesOf A a) (hb : Rels SharesOf B b) (ha' : Rels SharesOf A' a') :
    PWS i (fun k => getMulTripleMany H V K k n) st
      (fun ms => ∃ m0 m1 m2 rest, ms = m0 :: m1 :: m2 :: rest ∧ Collision H ((st i).rcvQueueNext ++ m1 ++ m2)
        ((st i.next).sendQueuePrev ++ ringSliceToBytes (K := 8) (seeds st1 i.next) ++
          ringSliceToBytes ((List.zipWith (fun x y => (x.mulConst (coinVal V st1)).sub y) (a i.next) (a' i.next)).map
            (·.a))))
      (fun ms t s => Fresh s ∧ ∃ (z : List (BitVec V)) (m1 m2 d : Bytes), ms = [ringSliceToBytes z, m1, m2, d] ∧ z.length = n + n ∧
        (st i).rcvQueueNext = (st i.next).sendQueuePrev ∧
        (Collision H
            ((checkShares (coinVal V st1) (List.zipWith (fun x y => x * coinVal V st1 - y) A A') (b i)
              ((List.zipWith AShare.mk (cs i) z).take n) ((List.zipWith AShare.mk (cs i) z).drop n)).flatMap (zeroBytes i))
            ((checkShares (coinVal V st1) (List.zipWith (fun x y => x * coinVal V st1 - y) A A') (b i.next)
              ((List.zipWith AShare.mk (cs i.next) (cs i)).take n)
              ((List.zipWith AShare.mk (cs i.next) (cs i)).drop n)).flatMap (zeroBytes i.next)) ∨
          (errors z (cs i.prev)).drop n = ((errors z (cs i.prev)).take n).map (coinVal V st1 * ·) ∧
          PairsOf i (A.map (·.setWidth K)) (t i).1 (t i.next).1 ∧
          PairsOf i (B.map (·.setWidth K)) (t i).2.1 (t i.next).2.1 ∧
          PairsOf i ((List.zipWith (· + ·) (List.zipWith (· * ·) A B) ((errors z (cs i.prev)).take n)).map (·.setWidth K))
            (t i).2.2 (t i.next).2.2)) := by
  have hKV : K ≤ V := by omega
  obtain ⟨A₁, B₁, A₁', lA, lB, lA', h1, h2, h3, hcs, hk⟩ := tripleManyDraws_rel hP hd
  obtain rfl : A₁ = A := Rels.uniqueShares h1 ha
  obtain rfl : A₁' = A' := Rels.uniqueShares h3 ha'
  obtain rfl : B₁ = B := Rels.uniqueShares h2 hb
  set r := coinVal V st1 with hr
  have lcs : ∀ k, (cs k).length = n + n := by
    intro k
    rw [hcs.length, List.length_append, List.length_zipWith, List.length_zipWith, lA, lB, lA', Nat.min_self]
  unfold getMulTripleMany
  refine PWS.ite_neg (fun _ => by omega) ?_
  refine PWS.congr (q := fun k => tripleManyDraws V n >>= fun t =>
    Proto.net (sendSliceAndReceiveVec k t.2.2.2) >>= fun bs =>
    coinElem V k >>= fun r => reconstructMany k (List.zipWith (fun x y => (x.mulConst r).sub y) t.1 t.2.2.1) >>= fun v =>
    jmpVerify H k >>= fun _ => (do
      Proto.net (hashZeroVerify H k (checkShares r v t.2.1 ((List.zipWith AShare.mk t.2.2.2 bs).take n)
        ((List.zipWith AShare.mk t.2.2.2 bs).drop n)))
      pure (t.1.map (·.fromVerif K), t.2.1.map (·.fromVerif K),
        ((List.zipWith AShare.mk t.2.2.2 bs).take n).map (·.fromVerif K)))) (fun k => ?_) ?_
  · unfold tripleManyDraws abyMulMany
    simp only [bind_assoc, pure_bind, tripleCheck_eq]
  refine PWS.bind_eq (a := fun k => (a k, b k, a' k, cs k)) hd ?_
  refine PWS.bind (PWS.net (PW.exchangeVec (x := cs) (by rw [lcs, lcs]) ?_))
  intro z hz
  rw [lcs] at hz
  obtain ⟨s, hS, si, sj⟩ := Rels.resharedPair hcs i (z := z) (by simp [hz, lA, lB, lA'])
  have n1 := Party.next_ne i
  have lerr : (errors z (cs i.prev)).length = n + n := by simp [errors, hz, lcs]
  refine PWS.agree (q := fun l => coinElem V l >>= fun r =>
    reconstructMany l (List.zipWith (fun x y => (x.mulConst r).sub y) (a l) (a' l)) >>= fun v =>
    jmpVerify H l >>= fun _ => (do
      Proto.net (hashZeroVerify H l (checkShares r v (b l) ((s l).take n) ((s l).drop n)))
      pure ((a l).map (·.fromVerif K), (b l).map (·.fromVerif K), ((s l).take n).map (·.fromVerif K)))) (st' := st1) ?_ ?_ ?_
  · simp only [if_true, si]
  · simp only [n1, if_false, Party.prev_next, sj]
  have hlen : ∀ l (r : BitVec V), (List.zipWith (fun x y => (AShare.mulConst x r).sub y) (a l) (a' l)).length = n := by
    intro l r
    rw [List.length_zipWith, h1.length, h3.length, lA, lA', Nat.min_self]
  have hopen := sacrificeOpen_rel r ha ha'
  have hq1 : (st1 i).rcvQueueNext.length = (st1 i.next).sendQueuePrev.length := by rw [hk.rcv, hk.snd]; exact hq
  apply coinOpen_pw (st := st1) (V := V) hk.prf hq1 (n := n)
    (f := fun l r => List.zipWith (fun x y => (x.mulConst r).sub y) (a l) (a' l))
    (xs := List.zipWith (fun x y => x * r - y) A₁ A₁')
    (k := fun l r v => do
      Proto.net (hashZeroVerify H l (checkShares r v (b l) ((s l).take n) ((s l).drop n)))
      pure ((a l).map (·.fromVerif K), (b l).map (·.fromVerif K), ((s l).take n).map (·.fromVerif K)))
    hlen hopen
  · intro m m' ms hcol
    rw [hk.rcv, hk.snd] at hcol
    exact ⟨_, m, m', ms, rfl, hcol⟩
  · intro hqe m m' st2 hF
    rw [hk.rcv, hk.snd] at hqe
    rw [show errors z (cs i.prev) = (errors z (cs i.prev)).take n ++ (errors z (cs i.prev)).drop n from
      (List.take_append_drop _ _).symm, List.zipWith_append (by simp [lA, lB, lerr])] at hS
    have h0 := hS.take n
    have h1 := hS.drop n
    rw [List.take_left' (by simp [lA, lB, lerr])] at h0
    rw [List.drop_left' (by simp [lA, lB, lerr])] at h1
    apply sacrificeTail_pw (st := st2) r (by simp [lerr])
      (ws := fun l => checkShares r (List.zipWith (fun x y => x * r - y) A₁ A₁') (b l) ((s l).take n) ((s l).drop n))
      (out := fun l => ((a l).map (·.fromVerif K), (b l).map (·.fromVerif K), ((s l).take n).map (·.fromVerif K)))
      (checkShares_rel r (by omega) (by omega) (by simp [lerr, lB]) (by simp [lerr, lB]) hb h0 h1)
    intro ms h
    refine ⟨hF, z, _, _, _, rfl, hz, hqe, ?_⟩
    rcases h with h | h
    · left
      rw [si, sj] at h
      exact h
    · exact .inr ⟨h, Rels.pairs (ha.fromVerif hKV) i, Rels.pairs (hb.fromVerif hKV) i, Rels.pairs (h0.fromVerif hKV) i⟩

/-! ## Dot products -/

theorem dotDraws_rel (hP : PrfOk fun k => (st k).prf) {X Y : List (BitVec V)} {x y : Party → List (AShare V)}
    (hx : Rels SharesOf X x) (hy : Rels SharesOf Y y) (hl : X.length = Y.length) {a' : Party → List (AShare V)}
    {cs : Party → List (BitVec V)} {st1 : Party → JmpSt G}
    (hd : ∀ k, dotDraws V (x k) (y k) (st k) = .ret ((a' k, cs k), st1 k)) :
    ∃ A', A'.length = X.length ∧ Rels SharesOf A' a' ∧
      Rels SumsTo [(List.zipWith (· * ·) X Y).sum, (List.zipWith (· * ·) A' Y).sum] cs ∧ Kept st st1 := by
  refine local_rel (p := fun k => dotDraws V (x k) (y k)) hd (Q := fun t st' => ∃ A', A'.length = X.length ∧
    Rels SharesOf A' (fun k => (t k).1) ∧
    Rels SumsTo [(List.zipWith (· * ·) X Y).sum, (List.zipWith (· * ·) A' Y).sum] (fun k => (t k).2) ∧ Kept st st') ?_
  unfold dotDraws
  simp only [hx.length]
  refine WPS.bind ((genRandMany_kept X.length hP).mono ?_)
  rintro a' st1 ⟨⟨A', lA', ha'⟩, k1⟩
  refine WPS.bind ((viaPrf_kept (p := fun k => Aby3.dotLoop ([x k, a' k].zip [y k, y k])) k1.prf
    fun _ h => Aby3.dotLoop_wp h (a := fun k => [x k, a' k]) (b := fun k => [y k, y k])
      (.cons (b := x) hx (.singleton ha')) (.cons (b := y) hy (.singleton hy))
      (.cons hl (.cons (lA'.trans hl) .nil))).mono ?_)
  rintro cs st4 ⟨hcs, k4⟩
  exact WPS.pure (a := fun k => (a' k, cs k)) ⟨A', lA', ha', hcs, k1.trans k4⟩

theorem dotSacrifice_pw (hV : 40 ≤ V - K) (hP : PrfOk fun k => (st k).prf)
    (hq : (st i).rcvQueueNext.length = (st i.next).sendQueuePrev.length)
    {xs ys : List (BitVec K)} {x y : Party → List (AShare K)} (hx : Rels SharesOf xs x) (hy : Rels SharesOf ys y)
    (hl : xs.length = ys.length) {a' : Party → List (AShare V)} {c0 c1 : Party → BitVec V} {st1 : Party → JmpSt G}
    (hd : ∀ k, dotDraws V ((x k).map (·.toVerif V)) ((y k).map (·.toVerif V)) (st k) = .ret ((a' k, [c0 k, c1 k]), st1 k))
    {X A' : List (BitVec V)} (hX : Rels SharesOf X fun k => (x k).map (·.toVerif V)) (ha' : Rels SharesOf A' a') :
    PWS i (fun k => dotSacrifice H V k (x k) (y k)) st
      (fun ms => ∃ m0 m1 m2 rest, ms = m0 :: m1 :: m2 :: rest ∧ Collision H ((st i).rcvQueueNext ++ m1 ++ m2)
        ((st i.next).sendQueuePrev ++ ringSliceToBytes (K := 8) (seeds st1 i.next) ++
          ringSliceToBytes ((List.zipWith (fun x y => (x.mulConst (coinVal V st1)).sub y)
            ((x i.next).map (·.toVerif V)) (a' i.next)).map (·.a))))
      (fun ms t s => Fresh s ∧ ∃ (z0 z1 : BitVec V) (m1 m2 d : Bytes), ms = [ringSliceToBytes [z0, z1], m1, m2, d] ∧
        (st i).rcvQueueNext = (st i.next).sendQueuePrev ∧ t i.next = (⟨c0 i.next, c0 i⟩ : AShare V).fromVerif K ∧
        (Collision H
            (zeroBytes i (dotCheckShare (coinVal V st1) (List.zipWith (fun x y => x * coinVal V st1 - y) X A')
              ((y i).map (·.toVerif V)) ⟨c0 i, z0⟩ ⟨c1 i, z1⟩))
            (zeroBytes i.next (dotCheckShare (coinVal V st1) (List.zipWith (fun x y => x * coinVal V st1 - y) X A')
              ((y i.next).map (·.toVerif V)) ⟨c0 i.next, c0 i⟩ ⟨c1 i.next, c1 i⟩)) ∨
          coinVal V st1 * (z0 - c0 i.prev) = z1 - c1 i.prev ∧
          PairOf i ((List.zipWith (· * ·) xs ys).sum + (z0 - c0 i.prev).setWidth K) (t i) (t i.next))) := by
  have hKV : K ≤ V := by omega
  obtain ⟨X₁, rfl, hX₁⟩ := hx.toVerif hKV
  obtain ⟨Y, rfl, hY⟩ := hy.toVerif hKV
  obtain rfl : X₁ = X := Rels.uniqueShares hX₁ hX
  simp only [List.length_map] at hl
  obtain ⟨A₁', lA', h3, hcs, hk⟩ := dotDraws_rel hP hX hY hl hd
  obtain rfl : A₁' = A' := Rels.uniqueShares h3 ha'
  obtain ⟨d0, ds, hs0, hcs, e⟩ := hcs.uncons
  obtain ⟨d1, ds', hs1, -, rfl⟩ := hcs.uncons
  obtain ⟨rfl, rfl⟩ : d0 = c0 ∧ d1 = c1 := by
    constructor <;> funext l <;> have := congrFun e l <;> simp only [List.cons.injEq] at this
    · exact this.1.symm
    · exact this.2.1.symm
  set r := coinVal V st1 with hr
  unfold dotSacrifice
  refine PWS.ite_neg (fun _ => by omega) ?_
  refine PWS.congr (q := fun k => dotDraws V ((x k).map (·.toVerif V)) ((y k).map (·.toVerif V)) >>= fun t =>
    Proto.net (sendSliceAndReceiveVec k t.2) >>= fun bs =>
    Proto.lift (idx (List.zipWith AShare.mk t.2 bs) 0) >>= fun c0 =>
    Proto.lift (idx (List.zipWith AShare.mk t.2 bs) 1) >>= fun c1 =>
    coinElem V k >>= fun r => reconstructMany k
      (List.zipWith (fun x y => (x.mulConst r).sub y) ((x k).map (·.toVerif V)) t.1) >>= fun v =>
    jmpVerify H k >>= fun _ => (do
      Proto.net (hashZeroVerify H k [dotCheckShare r v ((y k).map (·.toVerif V)) c0 c1])
      pure (c0.fromVerif K))) (fun k => ?_) ?_
  · unfold dotDraws abyDotMany
    simp only [bind_assoc, pure_bind, List.length_map, List.length_cons, List.length_nil, ne_eq, not_true_eq_false,
      if_false]
    rfl
  refine PWS.bind_eq (a := fun k => (a' k, [d0 k, d1 k])) hd ?_
  refine PWS.bind (PWS.net (PW.exchangeVec (x := fun k => [d0 k, d1 k]) (by simp) ?_))
  intro z hz
  obtain ⟨z0, z1, rfl⟩ : ∃ z0 z1, z = [z0, z1] := by
    match z, hz with
    | [z0, z1], _ => exact ⟨z0, z1, rfl⟩
  obtain ⟨s0, hS0, s0i, s0j⟩ := SumsTo.resharedPair hs0 i z0
  obtain ⟨s1, hS1, s1i, s1j⟩ := SumsTo.resharedPair hs1 i z1
  have n1 := Party.next_ne i
  refine PWS.agree (q := fun l => coinElem V l >>= fun r => reconstructMany l
      (List.zipWith (fun x y => (x.mulConst r).sub y) ((x l).map (·.toVerif V)) (a' l)) >>= fun v =>
    jmpVerify H l >>= fun _ => (do
      Proto.net (hashZeroVerify H l [dotCheckShare r v ((y l).map (·.toVerif V)) (s0 l) (s1 l)])
      pure ((s0 l).fromVerif K))) (st' := st1) ?_ ?_ ?_
  · simp only [if_true, s0i, s1i]; rfl
  · simp only [n1, if_false, Party.prev_next, s0j, s1j]; rfl
  have hlen : ∀ l (r : BitVec V), (List.zipWith (fun x y => (AShare.mulConst x r).sub y) ((x l).map (·.toVerif V))
      (a' l)).length = X₁.length := by
    intro l r
    rw [List.length_zipWith, hX.length, h3.length, lA', Nat.min_self]
  have hopen := sacrificeOpen_rel r hX ha'
  have hq1 : (st1 i).rcvQueueNext.length = (st1 i.next).sendQueuePrev.length := by rw [hk.rcv, hk.snd]; exact hq
  apply coinOpen_pw (st := st1) (V := V) hk.prf hq1 (n := X₁.length)
    (f := fun l r => List.zipWith (fun x y => (x.mulConst r).sub y) ((x l).map (·.toVerif V)) (a' l))
    (xs := List.zipWith (fun x y => x * r - y) X₁ A₁')
    (k := fun l r v => do
      Proto.net (hashZeroVerify H l [dotCheckShare r v ((y l).map (·.toVerif V)) (s0 l) (s1 l)])
      pure ((s0 l).fromVerif K))
    hlen hopen
  · intro m m' ms hcol
    rw [hk.rcv, hk.snd] at hcol
    exact ⟨_, m, m', ms, rfl, hcol⟩
  · intro hqe m m' st2 hF
    rw [hk.rcv, hk.snd] at hqe
    apply sacrificeTail_pw (st := st2) r (E0 := [z0 - d0 i.prev]) (E1 := [z1 - d1 i.prev]) rfl
      (ws := fun l => [dotCheckShare r (List.zipWith (fun x y => x * r - y) X₁ A₁') ((y l).map (·.toVerif V)) (s0 l) (s1 l)])
      (out := fun l => (s0 l).fromVerif K)
      (.singleton (dotCheckShare_rel r hl (lA'.trans hl) hY hS0 hS1))
    intro ms h
    refine ⟨hF, z0, z1, _, _, _, rfl, hqe, by simp only [s0j], ?_⟩
    rcases h with h | h
    · left
      simp only [List.flatMap_cons, List.flatMap_nil, List.append_nil, s0i, s0j, s1i, s1j] at h
      exact h
    · refine .inr ⟨?_, ?_⟩
      · simp only [List.map_cons, List.map_nil, List.cons.injEq, and_true] at h; exact h.symm
      · have := (hS0.fromVerif hKV).pair i
        rwa [BitVec.setWidth_add _ _ hKV, setWidth_sum hKV, setWidth_prods hKV] at this

theorem genRandVecs_kept (ns : List Nat) (hP : PrfOk fun k => (st k).prf) :
    WPS (fun _ => genRandVecs V ns) st
      (fun s st' => (∃ xss : List (List (BitVec V)), xss.map List.length = ns ∧ Rels (Rels SharesOf) xss s) ∧
        Kept st st') := by
  induction ns generalizing st with
  | nil => exact WPS.pure (a := fun _ => []) ⟨⟨[], rfl, Rels.nil⟩, hP, fun _ => rfl, fun _ => rfl⟩
  | cons n ns ih =>
    unfold genRandVecs
    refine WPS.bind ((genRandMany_kept n hP).mono ?_)
    rintro s st' ⟨⟨x, hx, hs⟩, hk⟩
    refine WPS.bind ((ih hk.prf).mono ?_)
    rintro ss st'' ⟨⟨xs, hl, hxs⟩, hk'⟩
    exact WPS.pure (a := fun i => s i :: ss i) ⟨⟨x :: xs, by simp [hl, hx], Rels.cons hs hxs⟩, hk.trans hk'⟩

theorem Rels.lengths {X : List (List (BitVec V))} {s : Party → List (List (AShare V))} (h : Rels (Rels SharesOf) X s)
    (k : Party) : (s k).map List.length = X.map List.length := by
  induction X generalizing s with
  | nil => rw [h.eq_nil]; rfl
  | cons x X ih =>
    obtain ⟨b, ls, hb, h', rfl⟩ := h.uncons
    simp only [List.map_cons, ih h', hb.length]

theorem forall₂_lengths {X Y : List (List (BitVec V))} (h : X.map List.length = Y.map List.length) :
    List.Forall₂ (fun xs ys => xs.length = ys.length) X Y := by
  induction Y generalizing X with
  | nil => simp at h; subst h; exact .nil
  | cons y Y ih =>
    cases X with
    | nil => simp at h
    | cons x X =>
      simp only [List.map_cons, List.cons.injEq] at h
      exact .cons h.1 (ih h.2)

theorem dotManyDraws_rel (hP : PrfOk fun k => (st k).prf) {X Y : List (List (BitVec V))}
    {x y : Party → List (List (AShare V))} (hx : Rels (Rels SharesOf) X x) (hy : Rels (Rels SharesOf) Y y)
    (hl : List.Forall₂ (fun xs ys => xs.length = ys.length) X Y) {a' : Party → List (List (AShare V))}
    {cs : Party → List (BitVec V)} {st1 : Party → JmpSt G}
    (hd : ∀ k, dotManyDraws V (x k) (y k) (st k) = .ret ((a' k, cs k), st1 k)) :
    ∃ A', A'.map List.length = Y.map List.length ∧ Rels (Rels SharesOf) A' a' ∧
      Rels SumsTo (List.zipWith (fun xs ys => (List.zipWith (· * ·) xs ys).sum) X Y ++
        List.zipWith (fun xs ys => (List.zipWith (· * ·) xs ys).sum) A' Y) cs ∧ Kept st st1 := by
  refine local_rel (p := fun k => dotManyDraws V (x k) (y k)) hd (Q := fun t st' => ∃ A',
    A'.map List.length = Y.map List.length ∧ Rels (Rels SharesOf) A' (fun k => (t k).1) ∧
      Rels SumsTo (List.zipWith (fun xs ys => (List.zipWith (· * ·) xs ys).sum) X Y ++
        List.zipWith (fun xs ys => (List.zipWith (· * ·) xs ys).sum) A' Y) (fun k => (t k).2) ∧ Kept st st') ?_
  unfold dotManyDraws
  simp only [Rels.lengths hy]
  refine WPS.bind ((genRandVecs_kept _ hP).mono ?_)
  rintro a' st1 ⟨⟨A', lA', ha'⟩, k1⟩
  refine WPS.bind ((viaPrf_kept (p := fun k => Aby3.dotLoop ((x k ++ a' k).zip (y k ++ y k))) k1.prf
    fun _ h => Aby3.dotLoop_wp h (hx.append ha') (hy.append hy) (List.rel_append hl (forall₂_lengths lA'))).mono ?_)
  rintro cs st4 ⟨hcs, k4⟩
  rw [List.zipWith_append hl.length_eq] at hcs
  exact WPS.pure (a := fun k => (a' k, cs k)) ⟨A', lA', ha', hcs, k1.trans k4⟩

theorem genRandVecs_run (ns : List Nat) (s : JmpSt G) :
    ∃ a' s', genRandVecs V ns s = .ret (a', s') ∧ a'.length = ns.length := by
  induction ns generalizing s with
  | nil => exact ⟨[], s, rfl, rfl⟩
  | cons n ns ih =>
    obtain ⟨r, hr⟩ : ∃ r, genRandMany V n s = .ret r := by
      clear ih
      induction n generalizing s with
      | zero => exact ⟨_, rfl⟩
      | succ n ih =>
        obtain ⟨r, hr⟩ := ih { s with prf := (s.prf.genRand V).2 }
        refine ⟨((s.prf.genRand V).1 :: r.1, r.2), ?_⟩
        show (genRandMany V n _ >>= _ : Prog _) = _
        rw [hr]; rfl
    obtain ⟨a', s', e, l⟩ := ih r.2
    refine ⟨r.1 :: a', s', ?_, by simp [l]⟩
    show (genRandMany V n s >>= fun x => _ : Prog _) = _
    rw [hr]
    show (genRandVecs V ns r.2 >>= fun x => _ : Prog _) = _
    rw [e]; rfl

theorem bind_congr_run {p : Proto σ α} {F F' : α → Proto σ β} {s s' : σ} {a : α} (h : p s = .ret (a, s'))
    (hF : F a s' = F' a s') : (p >>= F) s = (p >>= F') s := by
  show (p s >>= fun r => F r.1 r.2) = (p s >>= fun r => F' r.1 r.2)
  rw [h]
  exact hF

theorem setWidth_addList (hK : K ≤ V) (xs ys : List (BitVec V)) :
    (List.zipWith (· + ·) xs ys).map (·.setWidth K) =
      List.zipWith (· + ·) (xs.map (·.setWidth K)) (ys.map (·.setWidth K)) := by
  rw [List.map_zipWith, List.zipWith_map]
  congr 1
  funext x y
  exact BitVec.setWidth_add _ _ hK

theorem setWidth_dots (hK : K ≤ V) (xss yss : List (List (BitVec V))) :
    (List.zipWith (fun xs ys => (List.zipWith (· * ·) xs ys).sum) xss yss).map (·.setWidth K) =
      List.zipWith (fun xs ys => (List.zipWith (· * ·) xs ys).sum) (xss.map fun l => l.map (·.setWidth K))
        (yss.map fun l => l.map (·.setWidth K)) := by
  rw [List.map_zipWith, List.zipWith_map]
  congr 1
  funext x y
  rw [setWidth_sum hK, setWidth_prods hK]

theorem dotSacrificeMany_pw (hV : 40 ≤ V - K) (hP : PrfOk fun k => (st k).prf)
    (hq : (st i).rcvQueueNext.length = (st i.next).sendQueuePrev.length)
    {xss yss : List (List (BitVec K))} {x y : Party → List (List (AShare K))} (hx : Rels (Rels SharesOf) xss x)
    (hy : Rels (Rels SharesOf) yss y) (hl : List.Forall₂ (fun xs ys => xs.length = ys.length) xss yss)
    {a' : Party → List (List (AShare V))} {cs : Party → List (BitVec V)} {st1 : Party → JmpSt G}
    (hd : ∀ k, dotManyDraws V ((x k).map fun l => l.map (·.toVerif V)) ((y k).map fun l => l.map (·.toVerif V)) (st k) =
      .ret ((a' k, cs k), st1 k))
    {X A' : List (List (BitVec V))} (hX : Rels (Rels SharesOf) X fun k => (x k).map fun l => l.map (·.toVerif V))
    (ha' : Rels (Rels SharesOf) A' a') :
    PWS i (fun k => dotSacrificeMany H V k (x k) (y k)) st
      (fun ms => ∃ m0 m1 m2 rest, ms = m0 :: m1 :: m2 :: rest ∧ Collision H ((st i).rcvQueueNext ++ m1 ++ m2)
        ((st i.next).sendQueuePrev ++ ringSliceToBytes (K := 8) (seeds st1 i.next) ++
          ringSliceToBytes ((List.zipWith (List.zipWith fun x y => (x.mulConst (coinVal V st1)).sub y)
            ((x i.next).map fun l => l.map (·.toVerif V)) (a' i.next)).flatten.map (·.a))))
      (fun ms t s => Fresh s ∧ ∃ (z : List (BitVec V)) (m1 m2 d : Bytes), ms = [ringSliceToBytes z, m1, m2, d] ∧
        z.length = xss.length + xss.length ∧ (st i).rcvQueueNext = (st i.next).sendQueuePrev ∧
        t i.next = ((List.zipWith AShare.mk (cs i.next) (cs i)).take xss.length).map (·.fromVerif K) ∧
        (Collision H
            ((dotCheckShares (coinVal V st1) (List.zipWith (List.zipWith fun x y => x * coinVal V st1 - y) X A')
              ((y i).map fun l => l.map (·.toVerif V)) ((List.zipWith AShare.mk (cs i) z).take xss.length)
              ((List.zipWith AShare.mk (cs i) z).drop xss.length)).flatMap (zeroBytes i))
            ((dotCheckShares (coinVal V st1) (List.zipWith (List.zipWith fun x y => x * coinVal V st1 - y) X A')
              ((y i.next).map fun l => l.map (·.toVerif V)) ((List.zipWith AShare.mk (cs i.next) (cs i)).take xss.length)
              ((List.zipWith AShare.mk (cs i.next) (cs i)).drop xss.length)).flatMap (zeroBytes i.next)) ∨
          (errors z (cs i.prev)).drop xss.length =
            ((errors z (cs i.prev)).take xss.length).map (coinVal V st1 * ·) ∧
          PairsOf i (List.zipWith (· + ·) (List.zipWith (fun xs ys => (List.zipWith (· * ·) xs ys).sum) xss yss)
            (((errors z (cs i.prev)).take xss.length).map (·.setWidth K))) (t i) (t i.next))) := by
  have hKV : K ≤ V := by omega
  obtain ⟨X₁, rfl, hX₁⟩ := hx.toVerifs hKV
  obtain ⟨Y, rfl, hY⟩ := hy.toVerifs hKV
  obtain rfl : X₁ = X := Rels.unique (R := Rels SharesOf) (fun _ _ _ h h' => Rels.uniqueShares h h') hX₁ hX
  have hXY : List.Forall₂ (fun xs ys => xs.length = ys.length) X₁ Y := by
    rw [List.forall₂_map_left_iff, List.forall₂_map_right_iff] at hl
    simpa using hl
  obtain ⟨A₁', lA', h3, hcs, hk⟩ := dotManyDraws_rel hP hX hY hXY hd
  obtain rfl : A₁' = A' := Rels.unique (R := Rels SharesOf) (fun _ _ _ h h' => Rels.uniqueShares h h') h3 ha'
  have hn : X₁.length = Y.length := hXY.length_eq
  have hn' : A₁'.length = Y.length := by simpa using congrArg List.length lA'
  set r := coinVal V st1 with hr
  simp only [List.length_map]
  have lx : ∀ k, (x k).length = X₁.length := fun k => by rw [hx.length, List.length_map]
  have ly : ∀ k, (y k).length = Y.length := fun k => by rw [hy.length, List.length_map]
  have lcs : ∀ k, (cs k).length = X₁.length + X₁.length := by
    intro k
    rw [hcs.length, List.length_append, List.length_zipWith, List.length_zipWith, hn, hn', Nat.min_self]
  unfold dotSacrificeMany
  refine PWS.ite_neg (fun _ => by omega) ?_
  simp only [lx]
  refine PWS.congr (q := fun k => dotManyDraws V ((x k).map fun l => l.map (·.toVerif V))
      ((y k).map fun l => l.map (·.toVerif V)) >>= fun t =>
    Proto.net (sendSliceAndReceiveVec k t.2) >>= fun bs =>
    coinElem V k >>= fun r => reconstructMany k
      (List.zipWith (List.zipWith fun x y => (x.mulConst r).sub y) ((x k).map fun l => l.map (·.toVerif V))
        t.1).flatten >>= fun v =>
    jmpVerify H k >>= fun _ =>
    Proto.lift (dotCheckLoop r v (((y k).map fun l => l.map (·.toVerif V)).zip
      (((List.zipWith AShare.mk t.2 bs).take X₁.length).zip ((List.zipWith AShare.mk t.2 bs).drop X₁.length)))) >>= fun ws =>
    (do
      Proto.net (hashZeroVerify H k ws)
      pure (((List.zipWith AShare.mk t.2 bs).take X₁.length).map (·.fromVerif K)))) (fun k => ?_) ?_
  · unfold dotManyDraws abyDotMany
    simp only [bind_assoc, pure_bind]
    funext s
    obtain ⟨a', s', e, l⟩ := genRandVecs_run (V := V)
      (((y k).map fun l => l.map (·.toVerif V)).map List.length) s
    refine bind_congr_run e ?_
    simp only [List.length_map] at l
    rw [if_neg (by simp only [List.length_append, List.length_map, l, lx, ly, hn, ne_eq, not_true_eq_false,
      not_false_eq_true])]
    simp only [bind_assoc, pure_bind]
  refine PWS.bind_eq (a := fun k => (a' k, cs k)) hd ?_
  refine PWS.bind (PWS.net (PW.exchangeVec (x := cs) (by rw [lcs, lcs]) ?_))
  intro z hz
  rw [lcs] at hz
  obtain ⟨s, hS, si, sj⟩ := Rels.resharedPair hcs i (z := z) (by
    rw [hz, List.length_append, List.length_zipWith, List.length_zipWith, hn, hn', Nat.min_self])
  have n1 := Party.next_ne i
  have lerr : (errors z (cs i.prev)).length = X₁.length + X₁.length := by
    rw [errors, List.length_zipWith, hz, lcs, Nat.min_self]
  refine PWS.agree (q := fun l => coinElem V l >>= fun r => reconstructMany l
      (List.zipWith (List.zipWith fun x y => (x.mulConst r).sub y) ((x l).map fun l => l.map (·.toVerif V))
        (a' l)).flatten >>= fun v =>
    jmpVerify H l >>= fun _ =>
    Proto.lift (dotCheckLoop r v (((y l).map fun l => l.map (·.toVerif V)).zip
      (((s l).take X₁.length).zip ((s l).drop X₁.length)))) >>= fun ws =>
    (do
      Proto.net (hashZeroVerify H l ws)
      pure (((s l).take X₁.length).map (·.fromVerif K)))) (st' := st1) ?_ ?_ ?_
  · simp only [if_true, si]
  · simp only [n1, if_false, Party.prev_next, sj]
  have ho : ∀ r, Rels SharesOf (List.zipWith (List.zipWith fun x y => x * r - y) X₁ A₁').flatten fun l =>
      (List.zipWith (List.zipWith fun x y => (AShare.mulConst x r).sub y) ((x l).map fun l => l.map (·.toVerif V))
        (a' l)).flatten := fun r =>
    (Rels.zipWith (f := fun xs ys => List.zipWith (fun x y => x * r - y) xs ys)
      (g := fun _ xs ys => List.zipWith (fun x y => (AShare.mulConst x r).sub y) xs ys)
      (fun _ _ _ _ h h' => sacrificeOpen_rel r h h') hX ha').flatten
  have hq1 : (st1 i).rcvQueueNext.length = (st1 i.next).sendQueuePrev.length := by rw [hk.rcv, hk.snd]; exact hq
  have hlen : ∀ l (r : BitVec V), (List.zipWith (List.zipWith fun x y => (AShare.mulConst x r).sub y)
      ((x l).map fun l => l.map (·.toVerif V)) (a' l)).flatten.length =
      (List.zipWith (List.zipWith fun x y => x * coinVal V st1 - y) X₁ A₁').flatten.length := by
    intro l r
    rw [(ho r).length]
    simp only [List.length_flatten, List.map_zipWith, List.length_zipWith]
  apply coinOpen_pw (st := st1) (V := V) hk.prf hq1
    (n := (List.zipWith (List.zipWith fun x y => x * coinVal V st1 - y) X₁ A₁').flatten.length)
    (f := fun l r => (List.zipWith (List.zipWith fun x y => (x.mulConst r).sub y)
      ((x l).map fun l => l.map (·.toVerif V)) (a' l)).flatten)
    (xs := (List.zipWith (List.zipWith fun x y => x * coinVal V st1 - y) X₁ A₁').flatten)
    (k := fun l r v =>
      Proto.lift (dotCheckLoop r v (((y l).map fun l => l.map (·.toVerif V)).zip
        (((s l).take X₁.length).zip ((s l).drop X₁.length)))) >>= fun ws =>
      (do
        Proto.net (hashZeroVerify H l ws)
        pure (((s l).take X₁.length).map (·.fromVerif K))))
    hlen (ho (coinVal V st1))
  · intro m m' ms hcol
    rw [hk.rcv, hk.snd] at hcol
    exact ⟨_, m, m', ms, rfl, hcol⟩
  · intro hqe m m' st2 hF
    rw [hk.rcv, hk.snd] at hqe
    rw [show errors z (cs i.prev) = (errors z (cs i.prev)).take X₁.length ++ (errors z (cs i.prev)).drop X₁.length from
      (List.take_append_drop _ _).symm, List.zipWith_append (by simp [hn, lerr])] at hS
    have h0 := hS.take X₁.length
    have h1 := hS.drop X₁.length
    rw [List.take_left' (by simp [hn, lerr])] at h0
    rw [List.drop_left' (by simp [hn, lerr])] at h1
    obtain ⟨hw, ew⟩ := dotCheckShares_rel r hXY lA' (by simp [lerr, hn]) (by simp [lerr, hn]) hY h0 h1
    refine PWS.bind (PWS.lift_ok ew ?_)
    apply sacrificeTail_pw (st := st2) r (by simp [lerr]) hw (out := fun l => ((s l).take X₁.length).map (·.fromVerif K))
    intro ms h
    refine ⟨hF, z, _, _, _, rfl, hz, hqe, by simp only [sj], ?_⟩
    rcases h with h | h
    · left
      rw [si, sj] at h
      exact h
    · refine .inr ⟨h, ?_⟩
      have := Rels.pairs (h0.fromVerif hKV) i
      rw [setWidth_addList hKV, setWidth_dots hKV] at this
      exact this

/-! ## Opening -/

/-- `open`: the first comparison settles the pending messages, the second one the opened value. -/
theorem openShare_pw {x : BitVec K} {s : Party → AShare K}
    (hs : (st i).rcvQueueNext = (st i.next).sendQueuePrev → PairOf i x (s i) (s i.next))
    {Q : List Bytes → (Party → BitVec K) → (Party → JmpSt G) → Prop}
    (hbad : ∀ ms, Collision H (st i).rcvQueueNext (st i.next).sendQueuePrev → E ms)
    (hbad' : ∀ m ms, Collision H m (toBytes (s i.next).a) → E (m :: ms))
    (hQ : ∀ ms st', (st i).rcvQueueNext = (st i.next).sendQueuePrev → Q ms (fun _ => x) st') :
    PWS i (fun k => openShare H k (s k)) st E Q := by
  have n1 := Party.next_ne i
  unfold openShare
  refine PWS.bind (jmpVerify_pw ?_)
  intro hh
  by_cases hq : (st i).rcvQueueNext = (st i.next).sendQueuePrev
  · obtain ⟨p1, p2⟩ := hs hq
    refine PWS.bind (jmpSendReceive_pw ?_)
    rintro w c rfl
    refine PWS.bind (jmpVerify_pw ?_)
    intro hh'
    simp only [cleared, List.nil_append, if_true] at hh'
    by_cases hw : w = (s i.next).a
    · subst hw
      apply PWS.ghost (PWS.pure (a := fun k => (s k).a + (s k).b + if k = i then (s i.next).a else (s k.prev).b)
        (Q := fun _ a _ => a = fun k => (s k).a + (s k).b + if k = i then (s i.next).a else (s k.prev).b) rfl)
      rintro m a s' rfl
      refine ⟨fun _ => x, s', ?_, ?_, rfl, rfl, ?_⟩
      · simp only [if_true]; exact p1.symm
      · simp only [n1, if_false, Party.prev_next]
        rw [← p1, p2]; ring
      · exact hQ _ _ hq
    · refine PWS.bad fun ms => ?_
      exact hbad' _ _ ⟨fun h => hw (toBytes_inj h), hh'⟩
  · exact PWS.bad fun ms => hbad _ ⟨hq, hh⟩

theorem mulShare_pair {x y p q e : BitVec K} {a b : Party → AShare K} {z : Party → AShare K}
    (ha : SharesOf x a) (hb : SharesOf y b) (hz : SharesOf (p * q + e) z) :
    SharesOf (x * y + e) (fun k => mulShare k (a k) (b k) (z k) (x - p) (y - q)) := by
  have := ((hz.add (hb.mulConst (x - p))).add (ha.mulConst (y - q))).subConst ((x - p) * (y - q))
  refine SharesOf.congr_val ?_ this
  ring

theorem PairOf.shares {x : BitVec K} {s s' : AShare K} (h : PairOf i x s s') :
    ∃ t : Party → AShare K, SharesOf x t ∧ t i = s ∧ t i.next = s' := by
  obtain ⟨h1, h2⟩ := h
  have n1 := Party.next_ne i
  have n2 := Party.prev_ne i
  have n3 := Party.next_ne_prev i
  refine ⟨fun k => if k = i then s else if k = i.next then s' else ⟨s.b, s'.a⟩, ⟨?_, ?_⟩, by simp, by simp [n1]⟩
  · rw [← h1]
    match i with
    | 0 => simp [Party.next]; ring
    | 1 => simp [Party.next]; ring
    | 2 => simp [Party.next]; ring
  · intro k
    have : k = i ∨ k = i.next ∨ k = i.prev := (by decide : ∀ i k : Party, k = i ∨ k = i.next ∨ k = i.prev) i k
    rcases this with rfl | rfl | rfl
    · simp [n2, n3.symm]
    · simp [n1, h2]
    · simp [n2, n3.symm, prev_prev, n1]

theorem mulOpen_pw (hV : 40 ≤ verifWidth K - K) (hP : PrfOk fun k => (st k).prf)
    (hq : (st i).rcvQueueNext.length = (st i.next).sendQueuePrev.length)
    {x y : BitVec K} {a b : Party → AShare K} (ha : SharesOf x a) (hb : SharesOf y b)
    {p p' q : Party → AShare (verifWidth K)} {c0 c1 : Party → BitVec (verifWidth K)} {st1 : Party → JmpSt G}
    (hd : ∀ k, tripleDraws (verifWidth K) (st k) = .ret ((p k, p' k, q k, [c0 k, c1 k]), st1 k))
    {P P' Q : BitVec (verifWidth K)} (hp : SharesOf P p) (hp' : SharesOf P' p') (hq' : SharesOf Q q) :
    PWS i (fun k => mul H k (a k) (b k) >>= fun c => openShare H k c) st
      (fun ms => ∃ m0 m1 m2 rest, ms = m0 :: m1 :: m2 :: rest ∧
        (Collision H ((st i).rcvQueueNext ++ m1 ++ m2)
          ((st i.next).sendQueuePrev ++ ringSliceToBytes (K := 8) (seeds st1 i.next) ++
            toBytes (((p i.next).mulConst (coinVal (verifWidth K) st1)).sub (p' i.next)).a) ∨
        (∃ z0 z1 : BitVec (verifWidth K), m0 = ringSliceToBytes [z0, z1] ∧ Collision H
          (zeroBytes i (checkShare (coinVal (verifWidth K) st1) (P * coinVal (verifWidth K) st1 - P') (q i) ⟨c0 i, z0⟩ ⟨c1 i, z1⟩))
          (zeroBytes i.next (checkShare (coinVal (verifWidth K) st1) (P * coinVal (verifWidth K) st1 - P') (q i.next)
              ⟨c0 i.next, c0 i⟩ ⟨c1 i.next, c1 i⟩))) ∨
        (∃ d m3 rest', rest = d :: m3 :: rest' ∧
          (Collision H m3 (ringSliceToBytes [((a i.next).sub ((p i.next).fromVerif K)).a,
            ((b i.next).sub ((q i.next).fromVerif K)).a]) ∨
          ∃ m4 rest'', rest' = m4 :: rest'' ∧ Collision H m4 (toBytes (mulShare i.next (a i.next) (b i.next)
            ((⟨c0 i.next, c0 i⟩ : AShare (verifWidth K)).fromVerif K) (x - P.setWidth K) (y - Q.setWidth K)).a)))))
      (fun ms r _ => ∃ (z0 z1 : BitVec (verifWidth K)) (rest : List Bytes), ms = ringSliceToBytes [z0, z1] :: rest ∧
        coinVal (verifWidth K) st1 * (z0 - c0 i.prev) = z1 - c1 i.prev ∧
        ∀ k, r k = x * y + (z0 - c0 i.prev).setWidth K) := by
  have hKV : K ≤ verifWidth K := by omega
  have n1 := Party.next_ne i
  refine PWS.congr (q := fun k => getMulTriple H (verifWidth K) K k >>= fun t =>
    reconstructMany k [(a k).sub t.1, (b k).sub t.2.1] >>= fun uv =>
    Proto.lift (idx uv 0) >>= fun u => Proto.lift (idx uv 1) >>= fun v =>
    openShare H k (mulShare k (a k) (b k) t.2.2 u v)) (fun k => ?_) ?_
  · unfold mul
    simp only [bind_assoc, pure_bind]
    rfl
  refine PWS.bind (PWS.conseq (getMulTriple_pw (i := i) hV hP hq hd hp hp' hq') ?_ ?_)
  · rintro ms ⟨m0, m1, m2, rest, rfl, hcol⟩ ms'
    exact ⟨m0, m1, m2, rest ++ ms', by simp, .inl hcol⟩
  rintro ms t s ⟨hF, z0, z1, m1, m2, d, rfl, -, ti, tj, hcol | ⟨heq, hx, hy, hz⟩⟩
  · exact PWS.bad fun ms' => ⟨_, m1, m2, d :: ms', by simp, .inr (.inl ⟨z0, z1, rfl, hcol⟩)⟩
  rw [ti, tj] at hz
  simp only at hz
  obtain ⟨zs, hzs, zi, zj⟩ := PairOf.shares hz
  rw [BitVec.setWidth_add _ _ hKV, BitVec.setWidth_mul _ _ hKV] at hzs
  have hfin := mulShare_pair ha hb hzs
  -- the opened differences
  have hu : SharesOf (x - P.setWidth K) (fun k => (a k).sub ((p k).fromVerif K)) := ha.sub (hp.fromVerif hKV)
  have hv : SharesOf (y - Q.setWidth K) (fun k => (b k).sub ((q k).fromVerif K)) := hb.sub (hq'.fromVerif hKV)
  refine PWS.agree (q := fun k =>
    reconstructMany k [(a k).sub ((p k).fromVerif K), (b k).sub ((q k).fromVerif K)] >>= fun uv =>
    Proto.lift (idx uv 0) >>= fun u => Proto.lift (idx uv 1) >>= fun v =>
    openShare H k (mulShare k (a k) (b k) (zs k) u v)) (st' := s) ?_ ?_ ?_
  · simp only [ti, zi]
  · simp only [tj, zj]
  unfold reconstructMany
  simp only [bind_assoc, pure_bind]
  refine PWS.bind (jmpSendReceiveMany_pw rfl ?_)
  rintro w hw c rfl
  obtain ⟨w0, w1, rfl⟩ : ∃ w0 w1, w = [w0, w1] := by
    match w, hw with
    | [w0, w1], _ => exact ⟨w0, w1, rfl⟩
  obtain ⟨u1, u2⟩ := hu.pair i
  obtain ⟨v1, v2⟩ := hv.pair i
  refine PWS.agree (q := fun k => openShare H k (mulShare k (a k) (b k) (zs k)
      (if k = i then w0 + ((a i).sub ((p i).fromVerif K)).a + ((a i).sub ((p i).fromVerif K)).b else x - P.setWidth K)
      (if k = i then w1 + ((b i).sub ((q i).fromVerif K)).a + ((b i).sub ((q i).fromVerif K)).b else y - Q.setWidth K)))
    (st' := fun k => ⟨(s k).prf, (s k).sendQueuePrev ++ ringSliceToBytes
        ([(a k).sub ((p k).fromVerif K), (b k).sub ((q k).fromVerif K)].map (·.a)),
      (s k).rcvQueueNext ++ ringSliceToBytes (if k = i then [w0, w1] else
        [(a k.prev).sub ((p k.prev).fromVerif K), (b k.prev).sub ((q k.prev).fromVerif K)].map (·.b))⟩) ?_ ?_ ?_
  · simp only [if_true]; rfl
  · simp only [n1, if_false, Party.prev_next]
    have e1 : ((a i).sub ((p i).fromVerif K)).b + ((a i.next).sub ((p i.next).fromVerif K)).a +
        ((a i.next).sub ((p i.next).fromVerif K)).b = x - P.setWidth K := by rw [u2, ← u1]; ring
    have e2 : ((b i).sub ((q i).fromVerif K)).b + ((b i.next).sub ((q i.next).fromVerif K)).a +
        ((b i.next).sub ((q i.next).fromVerif K)).b = y - Q.setWidth K := by rw [v2, ← v1]; ring
    rw [← e1, ← e2]; rfl
  refine openShare_pw (x := x * y + (z0 - c0 i.prev).setWidth K) ?_ ?_ ?_ ?_
  · intro hqe
    simp only [if_true, hF.snd, hF.rcv, List.nil_append] at hqe
    have := ringSliceToBytes_inj' (by simp) hqe
    simp only [List.map_cons, List.map_nil, List.cons.injEq, and_true] at this
    have f1 : w0 + ((a i).sub ((p i).fromVerif K)).a + ((a i).sub ((p i).fromVerif K)).b = x - P.setWidth K := by
      rw [this.1, ← u1]; ring
    have f2 : w1 + ((b i).sub ((q i).fromVerif K)).a + ((b i).sub ((q i).fromVerif K)).b = y - Q.setWidth K := by
      rw [this.2, ← v1]; ring
    simp only [if_true, n1, if_false, f1, f2]
    exact hfin.pair i
  · intro ms hcol
    simp only [if_true, hF.snd, hF.rcv, List.nil_append, List.map_cons, List.map_nil] at hcol
    exact ⟨_, m1, m2, _, rfl, .inr (.inr ⟨d, _, _, rfl, .inl hcol⟩)⟩
  · intro m ms hcol
    simp only [n1, if_false, zj] at hcol
    exact ⟨_, m1, m2, _, rfl, .inr (.inr ⟨d, _, _, rfl, .inr ⟨m, ms, rfl, hcol⟩⟩)⟩
  · intro ms st' _
    exact ⟨z0, z1, _, rfl, heq, fun _ => rfl⟩

theorem dotOpen_pw (hV : 40 ≤ verifWidth K - K) (hP : PrfOk fun k => (st k).prf)
    (hq : (st i).rcvQueueNext.length = (st i.next).sendQueuePrev.length)
    {xs ys : List (BitVec K)} {x y : Party → List (AShare K)} (hx : Rels SharesOf xs x) (hy : Rels SharesOf ys y)
    (hl : xs.length = ys.length) {a' : Party → List (AShare (verifWidth K))} {c0 c1 : Party → BitVec (verifWidth K)}
    {st1 : Party → JmpSt G}
    (hd : ∀ k, dotDraws (verifWidth K) ((x k).map (·.toVerif (verifWidth K))) ((y k).map (·.toVerif (verifWidth K))) (st k) =
      .ret ((a' k, [c0 k, c1 k]), st1 k))
    {X A' : List (BitVec (verifWidth K))} (hX : Rels SharesOf X fun k => (x k).map (·.toVerif (verifWidth K)))
    (ha' : Rels SharesOf A' a') :
    PWS i (fun k => dot H k (x k) (y k) >>= fun c => openShare H k c) st
      (fun ms => ∃ m0 m1 m2 rest, ms = m0 :: m1 :: m2 :: rest ∧
        (Collision H ((st i).rcvQueueNext ++ m1 ++ m2)
          ((st i.next).sendQueuePrev ++ ringSliceToBytes (K := 8) (seeds st1 i.next) ++
            ringSliceToBytes ((List.zipWith (fun x y => (x.mulConst (coinVal (verifWidth K) st1)).sub y)
              ((x i.next).map (·.toVerif (verifWidth K))) (a' i.next)).map (·.a))) ∨
        (∃ z0 z1 : BitVec (verifWidth K), m0 = ringSliceToBytes [z0, z1] ∧ Collision H
            (zeroBytes i (dotCheckShare (coinVal (verifWidth K) st1)
              (List.zipWith (fun x y => x * coinVal (verifWidth K) st1 - y) X A')
              ((y i).map (·.toVerif (verifWidth K))) ⟨c0 i, z0⟩ ⟨c1 i, z1⟩))
            (zeroBytes i.next (dotCheckShare (coinVal (verifWidth K) st1)
              (List.zipWith (fun x y => x * coinVal (verifWidth K) st1 - y) X A')
              ((y i.next).map (·.toVerif (verifWidth K))) ⟨c0 i.next, c0 i⟩ ⟨c1 i.next, c1 i⟩))) ∨
        ∃ d m3 rest', rest = d :: m3 :: rest' ∧
          Collision H m3 (toBytes ((⟨c0 i.next, c0 i⟩ : AShare (verifWidth K)).fromVerif K).a)))
      (fun ms r _ => ∃ (z0 z1 : BitVec (verifWidth K)) (rest : List Bytes), ms = ringSliceToBytes [z0, z1] :: rest ∧
        coinVal (verifWidth K) st1 * (z0 - c0 i.prev) = z1 - c1 i.prev ∧
        ∀ k, r k = (List.zipWith (· * ·) xs ys).sum + (z0 - c0 i.prev).setWidth K) := by
  refine PWS.congr (q := fun k => dotSacrifice H (verifWidth K) k (x k) (y k) >>= fun c => openShare H k c) (fun k => ?_) ?_
  · unfold dot
    rw [if_neg (by rw [hx.length, hy.length, hl]; simp)]
  refine PWS.bind (PWS.conseq (dotSacrifice_pw (i := i) hV hP hq hx hy hl hd hX ha') ?_ ?_)
  · rintro ms ⟨m0, m1, m2, rest, rfl, hcol⟩ ms'
    exact ⟨m0, m1, m2, rest ++ ms', by simp, .inl hcol⟩
  rintro ms t s ⟨hF, z0, z1, m1, m2, d, rfl, -, tj, hcol | ⟨heq, hz⟩⟩
  · exact PWS.bad fun ms' => ⟨_, m1, m2, d :: ms', by simp, .inr (.inl ⟨z0, z1, rfl, hcol⟩)⟩
  refine openShare_pw (fun _ => hz) ?_ ?_ ?_
  · intro ms hcol
    rw [hF.rcv, hF.snd] at hcol
    exact absurd rfl hcol.1
  · intro m ms hcol
    rw [tj] at hcol
    exact ⟨_, m1, m2, _, rfl, .inr (.inr ⟨d, m, ms, rfl, hcol⟩)⟩
  · intro ms st' _
    exact ⟨z0, z1, _, rfl, heq, fun _ => rfl⟩

theorem openMany_pw {xs : List (BitVec K)} {s : Party → List (AShare K)}
    (hs : (st i).rcvQueueNext = (st i.next).sendQueuePrev → PairsOf i xs (s i) (s i.next))
    (hl : (s i).length = (s i.next).length)
    {Q : List Bytes → (Party → List (BitVec K)) → (Party → JmpSt G) → Prop}
    (hbad : ∀ ms, Collision H (st i).rcvQueueNext (st i.next).sendQueuePrev → E ms)
    (hbad' : ∀ m ms, Collision H m (ringSliceToBytes ((s i.next).map (·.a))) → E (m :: ms))
    (hQ : ∀ ms st', (st i).rcvQueueNext = (st i.next).sendQueuePrev → Q ms (fun _ => xs) st') :
    PWS i (fun k => openMany H k (s k)) st E Q := by
  have n1 := Party.next_ne i
  unfold openMany
  refine PWS.bind (jmpVerify_pw ?_)
  intro hh
  by_cases hq : (st i).rcvQueueNext = (st i.next).sendQueuePrev
  · obtain ⟨p1, p2⟩ := hs hq
    refine PWS.bind (jmpSendReceiveMany_pw (by simp [hl]) ?_)
    rintro w hw c rfl
    refine PWS.bind (jmpVerify_pw ?_)
    intro hh'
    simp only [cleared, List.nil_append, if_true] at hh'
    by_cases he : w = (s i.next).map (·.a)
    · subst he
      apply PWS.ghost (PWS.pure (a := fun k => List.zipWith (fun s c => c + s.a + s.b) (s k)
          (if k = i then (s i.next).map (·.a) else (s k.prev).map (·.b)))
        (Q := fun _ a _ => a = fun k => List.zipWith (fun s c => c + s.a + s.b) (s k)
          (if k = i then (s i.next).map (·.a) else (s k.prev).map (·.b))) rfl)
      rintro m a s' rfl
      refine ⟨fun _ => xs, s', ?_, ?_, rfl, rfl, ?_⟩
      · simp only [if_true]
        clear hs hbad hbad' hQ hh hw hh' hq
        generalize s i = l at *
        generalize s i.next = l' at *
        induction xs generalizing l l' with
        | nil => cases l <;> cases l' <;> simp_all
        | cons x xs ih =>
          match l, l', p2 with
          | s0 :: l, s1 :: l', .cons h h' =>
            simp only [List.map_cons, List.zipWith_cons_cons]
            rw [← ih l l' (by simpa using hl) (by simpa using hl) h', ← h.1]
            congr 1; ring
      · simp only [n1, if_false, Party.prev_next]
        clear hs hbad hbad' hQ hh hw hh' hq
        generalize s i = l at *
        generalize s i.next = l' at *
        induction xs generalizing l l' with
        | nil => cases l <;> cases l' <;> simp_all
        | cons x xs ih =>
          match l, l', p2 with
          | s0 :: l, s1 :: l', .cons h h' =>
            simp only [List.map_cons, List.zipWith_cons_cons]
            rw [← ih l l' (by simpa using hl) (by simpa using hl) h', ← h.1, h.2]
            congr 1; ring
      · exact hQ _ _ hq
    · refine PWS.bad fun ms => ?_
      exact hbad' _ _ ⟨fun h => he (ringSliceToBytes_inj' (by simpa [hl] using hw) h), hh'⟩
  · exact PWS.bad fun ms => hbad _ ⟨hq, hh⟩

theorem dotManyOpen_pw (hV : 40 ≤ verifWidth K - K) (hP : PrfOk fun k => (st k).prf)
    (hq : (st i).rcvQueueNext.length = (st i.next).sendQueuePrev.length)
    {xss yss : List (List (BitVec K))} {x y : Party → List (List (AShare K))} (hx : Rels (Rels SharesOf) xss x)
    (hy : Rels (Rels SharesOf) yss y) (hl : List.Forall₂ (fun xs ys => xs.length = ys.length) xss yss)
    {a' : Party → List (List (AShare (verifWidth K)))} {cs : Party → List (BitVec (verifWidth K))} {st1 : Party → JmpSt G}
    (hd : ∀ k, dotManyDraws (verifWidth K) ((x k).map fun l => l.map (·.toVerif (verifWidth K)))
      ((y k).map fun l => l.map (·.toVerif (verifWidth K))) (st k) = .ret ((a' k, cs k), st1 k))
    {X A' : List (List (BitVec (verifWidth K)))}
    (hX : Rels (Rels SharesOf) X fun k => (x k).map fun l => l.map (·.toVerif (verifWidth K)))
    (ha' : Rels (Rels SharesOf) A' a') :
    PWS i (fun k => dotMany H k (x k) (y k) >>= fun c => openMany H k c) st
      (fun ms => ∃ m0 m1 m2 rest, ms = m0 :: m1 :: m2 :: rest ∧
        (Collision H ((st i).rcvQueueNext ++ m1 ++ m2)
          ((st i.next).sendQueuePrev ++ ringSliceToBytes (K := 8) (seeds st1 i.next) ++
            ringSliceToBytes ((List.zipWith (List.zipWith fun x y => (x.mulConst (coinVal (verifWidth K) st1)).sub y)
              ((x i.next).map fun l => l.map (·.toVerif (verifWidth K))) (a' i.next)).flatten.map (·.a))) ∨
        (∃ z : List (BitVec (verifWidth K)), m0 = ringSliceToBytes z ∧ z.length = xss.length + xss.length ∧ Collision H
            ((dotCheckShares (coinVal (verifWidth K) st1)
              (List.zipWith (List.zipWith fun x y => x * coinVal (verifWidth K) st1 - y) X A')
              ((y i).map fun l => l.map (·.toVerif (verifWidth K))) ((List.zipWith AShare.mk (cs i) z).take xss.length)
              ((List.zipWith AShare.mk (cs i) z).drop xss.length)).flatMap (zeroBytes i))
            ((dotCheckShares (coinVal (verifWidth K) st1)
              (List.zipWith (List.zipWith fun x y => x * coinVal (verifWidth K) st1 - y) X A')
              ((y i.next).map fun l => l.map (·.toVerif (verifWidth K)))
              ((List.zipWith AShare.mk (cs i.next) (cs i)).take xss.length)
              ((List.zipWith AShare.mk (cs i.next) (cs i)).drop xss.length)).flatMap (zeroBytes i.next))) ∨
        ∃ d m3 rest', rest = d :: m3 :: rest' ∧
          Collision H m3 (ringSliceToBytes ((((List.zipWith AShare.mk (cs i.next) (cs i)).take xss.length).map
            (·.fromVerif K)).map (·.a)))))
      (fun ms r _ => ∃ (z : List (BitVec (verifWidth K))) (rest : List Bytes), ms = ringSliceToBytes z :: rest ∧
        z.length = xss.length + xss.length ∧
        (errors z (cs i.prev)).drop xss.length =
          ((errors z (cs i.prev)).take xss.length).map (coinVal (verifWidth K) st1 * ·) ∧
        ∀ k, r k = List.zipWith (· + ·) (List.zipWith (fun xs ys => (List.zipWith (· * ·) xs ys).sum) xss yss)
            (((errors z (cs i.prev)).take xss.length).map (·.setWidth K))) := by
  refine PWS.congr (q := fun k => dotSacrificeMany H (verifWidth K) k (x k) (y k) >>= fun c => openMany H k c)
    (fun k => ?_) ?_
  · unfold dotMany
    rw [if_neg (by rw [hx.length, hy.length, hl.length_eq]; simp)]
  refine PWS.bind (PWS.conseq (dotSacrificeMany_pw (i := i) hV hP hq hx hy hl hd hX ha') ?_ ?_)
  · rintro ms ⟨m0, m1, m2, rest, rfl, hcol⟩ ms'
    exact ⟨m0, m1, m2, rest ++ ms', by simp, .inl hcol⟩
  rintro ms t s ⟨hF, z, m1, m2, d, rfl, hz, -, tj, hcol | ⟨heq, hp⟩⟩
  · exact PWS.bad fun ms' => ⟨_, m1, m2, d :: ms', by simp, .inr (.inl ⟨z, rfl, hz, hcol⟩)⟩
  refine openMany_pw (fun _ => hp) hp.1 ?_ ?_ ?_
  · intro ms hcol
    rw [hF.rcv, hF.snd] at hcol
    exact absurd rfl hcol.1
  · intro m ms hcol
    rw [tj] at hcol
    exact ⟨_, m1, m2, _, rfl, .inr (.inr ⟨d, m, ms, rfl, hcol⟩)⟩
  · intro ms st' _
    exact ⟨z, _, rfl, hz, heq, fun _ => rfl⟩

end MalAby3

end Verif
