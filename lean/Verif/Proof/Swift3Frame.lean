import Verif.Proof.Swift3Many
import Verif.Proof.Swift3Ops

/-!
# Swift3: what the operations leave alone

`Prog.Rets`: a condition on every value a program may return, whatever it receives. `Frames`: a program neither reads nor
changes the registered AND gates.
-/

namespace Verif

variable {α β σ : Type}

/-- Whatever is received, a returned value satisfies `Q`. -/
def Prog.Rets (Q : α → Prop) : Prog α → Prop
  | .ret a => Q a
  | .fail _ => True
  | .send _ _ k => k.Rets Q
  | .recv _ k => ∀ m, (k m).Rets Q

theorem Prog.Rets.bind {Q : α → Prop} {R : β → Prop} {p : Prog α} {k : α → Prog β} (h : p.Rets Q)
    (hk : ∀ a, Q a → (k a).Rets R) : (p >>= k).Rets R := by
  induction p with
  | ret a => exact hk a h
  | fail e => trivial
  | send d m p ih => exact ih h
  | recv s p ih => exact fun m => ih m (h m)

theorem Prog.Rets.any (p : Prog α) : p.Rets fun _ => True := by
  induction p with
  | ret a => trivial
  | fail e => trivial
  | send d m p ih => exact ih
  | recv s p ih => exact fun m => ih m

theorem BStepsN.rets {cap : Party → Party → Nat} {n : Nat} {c c' : Config α} (h : BStepsN cap n c c') {i : Party}
    {Q : α → Prop} (hi : (c.prog i).Rets Q) : (c'.prog i).Rets Q := by
  induction h with
  | zero => exact hi
  | succ j h t ih =>
    apply ih
    cases h with
    | send h _ =>
      by_cases hj : i = j
      · subst hj
        rw [h] at hi
        dsimp only; rw [Function.update_self]; exact hi
      · simpa [Function.update_of_ne hj] using hi
    | recv h _ =>
      by_cases hj : i = j
      · subst hj
        rw [h] at hi
        dsimp only; rw [Function.update_self]; exact hi _
      · simpa [Function.update_of_ne hj] using hi

theorem WPS.rets {p : Party → Proto σ α} {st : Party → σ} {Q : (Party → α) → (Party → σ) → Prop} (h : WPS p st Q)
    (i : Party) {R : α → σ → Prop} (hi : (p i (st i)).Rets fun x => R x.1 x.2) :
    WPS p st (fun a st' => Q a st' ∧ R (a i) (st' i)) := by
  obtain ⟨r, ⟨n, hn⟩, hq⟩ := h
  exact ⟨r, ⟨n, hn⟩, hq, hn.rets (i := i) hi⟩

namespace Swift3

variable {G : Prg} {K L : Nat}

/-- The state with other AND gates. -/
def setAnd (s : S3St G K) (z : ZProof Bool) : S3St G K := { s with andProof := z }

/-- The program neither reads nor changes the AND gates. -/
def Frames (p : Proto (S3St G K) α) : Prop :=
  ∀ s z, p (setAnd s z) = p s >>= fun x => .ret (x.1, setAnd x.2 z)

theorem Frames.pure (a : α) : Frames (G := G) (K := K) (Pure.pure a) := fun _ _ => rfl

theorem Frames.throw (e : Err) : Frames (G := G) (K := K) (α := α) (Proto.throw e) := fun _ _ => rfl

theorem Frames.net (p : Prog α) : Frames (G := G) (K := K) (Proto.net p) := by
  intro s z
  show (p >>= fun a => .ret (a, setAnd s z)) = (p >>= fun a => .ret (a, s)) >>= fun x => .ret (x.1, setAnd x.2 z)
  rw [bind_assoc]; rfl

theorem Frames.lift (r : Except Err α) : Frames (G := G) (K := K) (Proto.lift r) := Frames.net _

theorem Frames.step {f : S3St G K → α × S3St G K}
    (h : ∀ s z, f (setAnd s z) = ((f s).1, setAnd (f s).2 z)) : Frames (Proto.step f) := by
  intro s z
  show Prog.ret (f (setAnd s z)) = _
  rw [h]; rfl

theorem Frames.bind {p : Proto (S3St G K) α} {k : α → Proto (S3St G K) β} (hp : Frames p) (hk : ∀ a, Frames (k a)) :
    Frames (p >>= k) := by
  intro s z
  show (p (setAnd s z) >>= fun x => k x.1 x.2) = (p s >>= fun x => k x.1 x.2) >>= fun x => .ret (x.1, setAnd x.2 z)
  rw [hp, bind_assoc, bind_assoc]
  congr 1
  funext x
  exact hk x.1 x.2 z

theorem Frames.ite {c : Prop} [Decidable c] {p q : Proto (S3St G K) α} (hp : Frames p) (hq : Frames q) :
    Frames (if c then p else q) := by split <;> assumption

theorem WPS.frame {p : Party → Proto (S3St G K) α} {st : Party → S3St G K}
    {Q : (Party → α) → (Party → S3St G K) → Prop} (h : WPS p st Q) (hf : ∀ i, Frames (p i)) (z : Party → ZProof Bool) :
    WPS p (fun i => setAnd (st i) (z i)) (fun a st' => ∃ st1, Q a st1 ∧ st' = fun i => setAnd (st1 i) (z i)) := by
  obtain ⟨r, hr, hq⟩ := h
  refine ⟨fun i => ((r i).1, setAnd (r i).2 (z i)), ?_, _, hq, rfl⟩
  have : (fun i => p i (setAnd (st i) (z i))) = fun i => p i (st i) >>= fun x => .ret (x.1, setAnd x.2 (z i)) :=
    funext fun i => hf i _ _
  show Runs (fun i => p i (setAnd (st i) (z i))) _
  rw [this]
  exact hr.bind ⟨0, .zero _⟩

/-! ## The operations -/

theorem gen1_frames : Frames (gen1 L : Proto (S3St G K) _) := Frames.step fun _ _ => rfl
theorem gen2_frames : Frames (gen2 L : Proto (S3St G K) _) := Frames.step fun _ _ => rfl
theorem genP_frames : Frames (genP L : Proto (S3St G K) _) := Frames.step fun _ _ => rfl

theorem jmpQueueMany_frames (me : Party) (xs : List (BitVec L)) (id : Nat) :
    Frames (jmpQueueMany me xs id : Proto (S3St G K) _) := by
  unfold jmpQueueMany
  exact .ite (.step fun _ _ => rfl) (.ite (.step fun _ _ => rfl) (.throw _))

theorem jmpReceiveMany_frames (me : Party) (id len : Nat) :
    Frames (jmpReceiveMany L me id len : Proto (S3St G K) _) := by
  unfold jmpReceiveMany
  exact .bind (.net _) fun _ => .ite (.step fun _ _ => rfl) (.ite (.step fun _ _ => rfl) (.throw _))

theorem jmpSendMany_frames (me : Party) (xs : List (BitVec L)) (id : Nat) :
    Frames (jmpSendMany me xs id : Proto (S3St G K) _) := .net _

theorem jmpVerify_frames (H : Hash) (me : Party) : Frames (jmpVerify H me : Proto (S3St G K) _) := by
  unfold jmpVerify
  refine .bind (.step fun _ _ => rfl) fun x => ?_
  exact .bind (.net _) fun _ => .bind (.net _) fun _ => .bind (.net _) fun _ => .bind (.net _) fun _ =>
    .ite (.throw _) (.pure _)

theorem andPostLoop_frames (l : List (AShare L × (S3Share L × S3Share L))) :
    Frames (andPostLoop l : Proto (S3St G K) _) := by
  induction l with
  | nil => exact .pure _
  | cons x l ih =>
    unfold andPostLoop
    exact .bind (.bind gen1_frames fun _ => .bind gen2_frames fun _ => .pure _) fun _ => .bind ih fun _ => .pure _

theorem jshareLoop1_frames (mix : BitVec L → BitVec L → BitVec L → BitVec L) (l : List (BitVec L)) :
    Frames (jshareLoop1 mix l : Proto (S3St G K) _) := by
  induction l with
  | nil => exact .pure _
  | cons x l ih =>
    unfold jshareLoop1
    exact .bind genP_frames fun _ => .bind gen1_frames fun _ => .bind ih fun _ => .pure _

theorem jshareLoop2_frames (mix : BitVec L → BitVec L → BitVec L → BitVec L) (l : List (BitVec L)) :
    Frames (jshareLoop2 mix l : Proto (S3St G K) _) := by
  induction l with
  | nil => exact .pure _
  | cons x l ih =>
    unfold jshareLoop2
    exact .bind genP_frames fun _ => .bind gen2_frames fun _ => .bind ih fun _ => .pure _

theorem jshareLoopR_frames (l : List (BitVec L)) : Frames (jshareLoopR l : Proto (S3St G K) _) := by
  induction l with
  | nil => exact .pure _
  | cons x l ih =>
    unfold jshareLoopR
    exact .bind genP_frames fun _ => .bind ih fun _ => .pure _

theorem jshareManyWith_frames (mix : BitVec L → BitVec L → BitVec L → BitVec L) (me : Party)
    (inp : Option (List (BitVec L))) (s1 s2 r len : Nat) :
    Frames (jshareManyWith mix me inp s1 s2 r len : Proto (S3St G K) _) := by
  unfold jshareManyWith
  refine .ite (.throw _) (.ite (.ite (.throw _) ?_) (.ite (.ite (.throw _) ?_) (.ite ?_ (.throw _))))
  · exact .bind (jshareLoop1_frames _ _) fun _ => .bind (jmpSendMany_frames _ _ _) fun _ => .pure _
  · exact .bind (jshareLoop2_frames _ _) fun _ => .bind (jmpQueueMany_frames _ _ _) fun _ => .pure _
  · exact .bind (jmpReceiveMany_frames _ _ _) fun _ => jshareLoopR_frames _

theorem postManyWith_frames (mix comb : BitVec L → BitVec L → BitVec L)
    (jmix : BitVec L → BitVec L → BitVec L → BitVec L) (out : S3Share L → S3Share L → S3Share L) (me : Party)
    (ps : List (Post L)) (len : Nat) : Frames (postManyWith mix comb jmix out me ps len : Proto (S3St G K) _) := by
  unfold postManyWith
  match me with
  | 0 => exact .bind (jmpSendMany_frames _ _ _) fun _ => .bind (jmpSendMany_frames _ _ _) fun _ =>
      .bind (jshareManyWith_frames _ _ _ _ _ _ _) fun _ => .pure _
  | 1 => exact .bind (jmpQueueMany_frames _ _ _) fun _ => .bind (jmpReceiveMany_frames _ _ _) fun _ =>
      .bind (jshareManyWith_frames _ _ _ _ _ _ _) fun _ => .pure _
  | 2 => exact .bind (jmpQueueMany_frames _ _ _) fun _ => .bind (jmpReceiveMany_frames _ _ _) fun _ =>
      .bind (jshareManyWith_frames _ _ _ _ _ _ _) fun _ => .pure _

theorem openBitMany_frames (H : Hash) (me : Party) (ss : List (S3Share 1)) :
    Frames (openBitMany H me ss : Proto (S3St G K) _) := by
  unfold openBitMany
  refine .bind (jmpVerify_frames _ _) fun _ => .bind ?_ fun _ => .bind (jmpVerify_frames _ _) fun _ => .pure _
  unfold openExchangeMany
  match me with
  | 0 => exact .bind (jmpSendMany_frames _ _ _) fun _ => .bind (jmpSendMany_frames _ _ _) fun _ =>
      jmpReceiveMany_frames _ _ _
  | 1 => exact .bind (jmpSendMany_frames _ _ _) fun _ => .bind (jmpQueueMany_frames _ _ _) fun _ =>
      jmpReceiveMany_frames _ _ _
  | 2 => exact .bind (jmpQueueMany_frames _ _ _) fun _ => .bind (jmpQueueMany_frames _ _ _) fun _ =>
      jmpReceiveMany_frames _ _ _

/-! ## The common generator -/

/-- The program moves the common generator by `f`. -/
def Moves (f : G.S → G.S) (p : Proto (S3St G K) α) : Prop :=
  ∀ s, (p s).Rets fun x => x.2.prf.pp = f s.prf.pp

theorem Moves.bind {f g : G.S → G.S} {p : Proto (S3St G K) α} {k : α → Proto (S3St G K) β} (hp : Moves f p)
    (hk : ∀ a, Moves g (k a)) : Moves (g ∘ f) (p >>= k) := by
  intro s
  refine Prog.Rets.bind (hp s) fun x hx => ?_
  have := hk x.1 x.2
  rw [hx] at this
  exact this

theorem Moves.bind' {g : G.S → G.S} {p : Proto (S3St G K) α} {k : α → Proto (S3St G K) β} (hp : Moves id p)
    (hk : ∀ a, Moves g (k a)) : Moves g (p >>= k) := Moves.bind (f := id) hp hk

theorem Moves.bind_post {g : G.S → G.S} {p : Proto (S3St G K) α} {k : α → Proto (S3St G K) β} (hp : Moves g p)
    (hk : ∀ a, Moves id (k a)) : Moves g (p >>= k) := Moves.bind (g := id) hp hk

theorem Moves.pure (a : α) : Moves (G := G) (K := K) id (Pure.pure a) := fun _ => rfl

theorem Moves.throw {f : G.S → G.S} (e : Err) : Moves (K := K) (α := α) f (Proto.throw e) := fun _ => trivial

theorem Moves.net (p : Prog α) : Moves (G := G) (K := K) id (Proto.net p) := fun _ =>
  Prog.Rets.bind (Prog.Rets.any p) fun _ _ => rfl

theorem Moves.step {f : S3St G K → α × S3St G K} {g : G.S → G.S} (h : ∀ s, (f s).2.prf.pp = g s.prf.pp) :
    Moves g (Proto.step f) := h

theorem Moves.ite {c : Prop} [Decidable c] {f : G.S → G.S} {p q : Proto (S3St G K) α} (hp : Moves f p)
    (hq : Moves f q) : Moves f (if c then p else q) := by split <;> assumption

theorem jmpQueueMany_moves (me : Party) (xs : List (BitVec L)) (id' : Nat) :
    Moves id (jmpQueueMany me xs id' : Proto (S3St G K) _) := by
  unfold jmpQueueMany
  exact .ite (.step fun _ => rfl) (.ite (.step fun _ => rfl) (.throw _))

theorem jmpReceiveMany_moves (me : Party) (id' len : Nat) :
    Moves id (jmpReceiveMany L me id' len : Proto (S3St G K) _) := by
  unfold jmpReceiveMany
  exact .bind' (.net _) fun _ => .ite (.step fun _ => rfl) (.ite (.step fun _ => rfl) (.throw _))

theorem andPostLoop_moves (l : List (AShare L × (S3Share L × S3Share L))) :
    Moves id (andPostLoop l : Proto (S3St G K) _) := by
  induction l with
  | nil => exact .pure _
  | cons x l ih =>
    unfold andPostLoop
    exact .bind' (.bind' (.step fun _ => rfl) fun _ => .bind' (.step fun _ => rfl) fun _ => .pure _) fun _ =>
      .bind' ih fun _ => .pure _

theorem abyAndLoop_moves (l : List (AShare L × AShare L)) : Moves id (abyAndLoop l : Proto (S3St G K) _) := by
  induction l with
  | nil => exact .pure _
  | cons x l ih =>
    unfold abyAndLoop
    exact .bind' (.bind' (.step fun _ => rfl) fun _ => .bind' (.step fun _ => rfl) fun _ => .pure _) fun _ =>
      .bind' ih fun _ => .pure _

/-- The state of a generator after `n` values of `L` bits. -/
def drawn (G : Prg) (L n : Nat) : G.S → G.S := (fun s => (G.gen L s).2)^[n]

theorem jshareLoop1_moves (mix : BitVec L → BitVec L → BitVec L → BitVec L) (l : List (BitVec L)) :
    Moves (drawn G L l.length) (jshareLoop1 mix l : Proto (S3St G K) _) := by
  induction l with
  | nil => exact Moves.pure _
  | cons x l ih =>
    unfold jshareLoop1
    refine Moves.bind (f := fun s => (G.gen L s).2) (g := drawn G L l.length) (.step fun _ => rfl) fun _ =>
      .bind' (.step fun _ => rfl) fun _ => .bind_post ih fun _ => .pure _

theorem postManyWith_moves (mix comb : BitVec L → BitVec L → BitVec L)
    (jmix : BitVec L → BitVec L → BitVec L → BitVec L) (out : S3Share L → S3Share L → S3Share L)
    (ps : List (Post L)) (len : Nat) :
    Moves (drawn G L len) (postManyWith mix comb jmix out 1 ps len : Proto (S3St G K) _) := by
  unfold postManyWith
  refine .bind' (jmpQueueMany_moves _ _ _) fun _ => .bind' (jmpReceiveMany_moves _ _ _) fun y =>
    .bind_post ?_ fun _ => .pure _
  generalize List.zipWith comb (ps.map fun p => mix (mix p.ya p.zc) p.yb) y = l
  unfold jshareManyWith
  refine .ite (.throw _) ?_
  rw [if_pos (by decide)]
  by_cases hl : l.length ≠ len
  · rw [if_pos (by simpa using hl)]; exact .throw _
  · rw [if_neg (by simpa using hl)]
    push Not at hl
    subst hl
    exact .bind_post (jshareLoop1_moves _ _) fun _ => .bind' (.net _) fun _ => .pure _

end Swift3

end Verif
