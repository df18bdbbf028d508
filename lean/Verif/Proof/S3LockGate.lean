import Verif.Proof.S3Lock
import Verif.Proof.SpdzLockGate

/-!
# Lock-step runs of the gates of the Swift3 backend

Every message of these gates is masked by a fresh random element, so the two runs can be coupled whatever the shares are.
-/

namespace Verif

open Swift3

variable {f : Bytes → List Bool} {K L m n : Nat} {α β γ δ : Type} {i : Party}

/-! ## The generators -/

/-- The tape of the first generator. -/
def S3St.t1 (s : S3St (idealPrg f) K) : List Bool := s.prf.p1
/-- The tape of the second generator. -/
def S3St.t2 (s : S3St (idealPrg f) K) : List Bool := s.prf.p2
/-- The tape of the common generator. -/
def S3St.tp (s : S3St (idealPrg f) K) : List Bool := s.prf.pp
/-- After `k` bits have been drawn from the first two generators. -/
def S3St.adv (k : Nat) (s : S3St (idealPrg f) K) : S3St (idealPrg f) K :=
  { s with prf := ⟨s.t1.drop k, s.t2.drop k, s.prf.pp⟩ }

theorem S3St.adv_adv (k l : Nat) (s : S3St (idealPrg f) K) : (s.adv k).adv l = s.adv (k + l) := by
  have e : ∀ t : List Bool, (t.drop k).drop l = t.drop (k + l) := fun t => List.drop_drop
  show ({ s with prf := ⟨(s.t1.drop k).drop l, (s.t2.drop k).drop l, s.prf.pp⟩ } : S3St (idealPrg f) K) = _
  rw [e, e]
  rfl

theorem s3TapeIn_adv {k : Nat} {u : List Bool} (hu : u.length = k) (t : List Bool) (st : Party → S3St (idealPrg f) K) (j : Party) :
    (s3TapeIn i (u ++ t) st j).adv k = s3TapeIn i t (fun j => (st j).adv k) j := by
  subst hu
  unfold s3TapeIn
  split_ifs <;> simp [S3St.adv, S3St.t1, S3St.t2]

theorem s3TapeIn_t1 (t : List Bool) (st : Party → S3St (idealPrg f) K) (j : Party) :
    (s3TapeIn i t st j).t1 = if j = i.next then t else (st j).t1 := by
  unfold s3TapeIn
  have := (by decide : ∀ c : Party, c.next ≠ c.prev) i
  split_ifs <;> first | rfl | (subst_vars; exact absurd ‹_› (by simp_all))

theorem s3TapeIn_t2 (t : List Bool) (st : Party → S3St (idealPrg f) K) (j : Party) :
    (s3TapeIn i t st j).t2 = if j = i.prev then t else (st j).t2 := by
  unfold s3TapeIn
  split_ifs <;> rfl

/-- The code draws `m` elements of `L` bits from each of the first two generators. -/
def Draws (L m : Nat) (d : Proto (S3St (idealPrg f) K) γ) (g : List (BitVec L) → List (BitVec L) → γ) : Prop :=
  ∀ s, d s = .ret (g (words L m s.t1) (words L m s.t2), s.adv (L * m))

namespace Draws

variable {d : Bool → Party → Proto (S3St (idealPrg f) K) γ} {g : Bool → Party → List (BitVec L) → List (BitVec L) → γ}
  {Q : (Bool → Party → γ) → Prop} {out : γ → List (BitVec L)}

/-- The draws when the unknown tape begins with the words `A w`. -/
theorem lock (hd : ∀ w j, Draws L m (d w j) (g w j)) {st : Bool → Party → S3St (idealPrg f) K} {A : Bool → List (BitVec L)}
    (hA : ∀ w, (A w).length = m)
    (hQ : Q fun w j => g w j (if j = i.next then A w else words L m (st w j).t1) (if j = i.prev then A w else words L m (st w j).t2)) :
    Lock3 i (fun w => tapesOf (A w)) d st fun a _ => Q a := by
  refine Lock3.loc (t := fun w j => (st w j).adv (L * m)) (fun w rest j => ?_) hQ
  rw [hd, s3TapeIn_adv (by rw [tapesOf_length, hA]), s3TapeIn_t1, s3TapeIn_t2]
  have e1 : ∀ (c : Prop) [Decidable c] t, words L m (if c then tapesOf (A w) ++ rest else t) = if c then A w else words L m t := by
    intro c _ t
    split_ifs
    · exact words_tapesOf (hA w) rest
    · rfl
  rw [e1, e1]

theorem core (hd : ∀ w j, Draws L m (d w j) (g w j))
    (h : ∀ st : Bool → Party → S3St (idealPrg f) K, ∃ A : Bool → List (BitVec L) → List (BitVec L),
      (∀ w c, c.length = m → (A w c).length = m) ∧ (∀ w c c', c.length = m → c'.length = m → A w c = A w c' → c = c') ∧
      ∀ c, c.length = m → Q fun w j => g w j (if j = i.next then A w c else words L m (st w j).t1)
        (if j = i.prev then A w c else words L m (st w j).t2)) : Cpl3 i (L * m) d Q := by
  intro st
  obtain ⟨A, h1, h2, h3⟩ := h st
  have lw : ∀ u, (words L m u).length = m := words_length L m
  refine ⟨fun w u => tapesOf (A w (words L m u)), fun w u _ => by rw [tapesOf_length, h1 _ _ (lw u)], fun w u u' hu hu' e => ?_,
    fun u _ => lock hd (fun w => h1 w _ (lw u)) (h3 _ (lw u))⟩
  exact words_inj hu hu' (h2 w _ _ (lw u) (lw u') (tapesOf_inj (by rw [h1 _ _ (lw u), h1 _ _ (lw u')]) e))

/-- A value of the predecessor is masked. -/
theorem prev (hd : ∀ w j, Draws L m (d w j) (g w j))
    (hg : ∀ w x c, x.length = m → c.length = m → ∃ y, y.length = m ∧ out (g w i.prev x y) = c)
    (hQ : ∀ x y : Bool → Party → List (BitVec L), (∀ w j, (x w j).length = m) → (∀ w j, (y w j).length = m) →
      out (g false i.prev (x false i.prev) (y false i.prev)) = out (g true i.prev (x true i.prev) (y true i.prev)) →
      Q fun w j => g w j (x w j) (y w j)) : Cpl3 i (L * m) d Q := by
  refine core hd fun st => ?_
  have : ∀ w c, ∃ y : List (BitVec L), c.length = m → y.length = m ∧ out (g w i.prev (words L m (st w i.prev).t1) y) = c := by
    intro w c
    by_cases hc : c.length = m
    · obtain ⟨y, hy⟩ := hg w _ c (words_length L m (st w i.prev).t1) hc
      exact ⟨y, fun _ => hy⟩
    · exact ⟨[], fun h => absurd h hc⟩
  choose A hA using this
  refine ⟨A, fun w c hc => (hA w c hc).1, fun w c c' hc hc' e => ?_, fun c hc => hQ _ _ (fun w j => ?_) (fun w j => ?_) ?_⟩
  · rw [← (hA w c hc).2, ← (hA w c' hc').2, e]
  · split_ifs
    · exact (hA w c hc).1
    · exact words_length _ _ _
  · split_ifs
    · exact (hA w c hc).1
    · exact words_length _ _ _
  · rw [if_neg ((by decide : ∀ c : Party, c.prev ≠ c.next) i), if_pos rfl, if_neg ((by decide : ∀ c : Party, c.prev ≠ c.next) i), if_pos rfl,
      (hA false c hc).2, (hA true c hc).2]

/-- A value of the successor is masked. -/
theorem next (hd : ∀ w j, Draws L m (d w j) (g w j))
    (hg : ∀ w y c, y.length = m → c.length = m → ∃ x, x.length = m ∧ out (g w i.next x y) = c)
    (hQ : ∀ x y : Bool → Party → List (BitVec L), (∀ w j, (x w j).length = m) → (∀ w j, (y w j).length = m) →
      out (g false i.next (x false i.next) (y false i.next)) = out (g true i.next (x true i.next) (y true i.next)) →
      Q fun w j => g w j (x w j) (y w j)) : Cpl3 i (L * m) d Q := by
  refine core hd fun st => ?_
  have : ∀ w c, ∃ x : List (BitVec L), c.length = m → x.length = m ∧ out (g w i.next x (words L m (st w i.next).t2)) = c := by
    intro w c
    by_cases hc : c.length = m
    · obtain ⟨y, hy⟩ := hg w _ c (words_length L m (st w i.next).t2) hc
      exact ⟨y, fun _ => hy⟩
    · exact ⟨[], fun h => absurd h hc⟩
  choose A hA using this
  refine ⟨A, fun w c hc => (hA w c hc).1, fun w c c' hc hc' e => ?_, fun c hc => hQ _ _ (fun w j => ?_) (fun w j => ?_) ?_⟩
  · rw [← (hA w c hc).2, ← (hA w c' hc').2, e]
  · split_ifs
    · exact (hA w c hc).1
    · exact words_length _ _ _
  · split_ifs
    · exact (hA w c hc).1
    · exact words_length _ _ _
  · rw [if_neg ((by decide : ∀ c : Party, c.next ≠ c.prev) i), if_pos rfl, if_neg ((by decide : ∀ c : Party, c.next ≠ c.prev) i), if_pos rfl,
      (hA false c hc).2, (hA true c hc).2]

/-- Nothing needs to be masked. -/
theorem any (hd : ∀ w j, Draws L m (d w j) (g w j))
    (hQ : ∀ x y : Bool → Party → List (BitVec L), (∀ w j, (x w j).length = m) → (∀ w j, (y w j).length = m) →
      Q fun w j => g w j (x w j) (y w j)) : Cpl3 i (L * m) d Q := by
  refine core hd fun st => ⟨fun _ c => c, fun _ _ h => h, fun _ _ _ _ _ e => e, fun c hc => hQ _ _ (fun w j => ?_) fun w j => ?_⟩
  · split_ifs
    · exact hc
    · exact words_length _ _ _
  · split_ifs
    · exact hc
    · exact words_length _ _ _

end Draws

/-! ## Loops that draw two elements for each item -/

/-- A loop with two draws for each item. -/
def drawLoop (F : α → BitVec L → BitVec L → β) : List α → Proto (S3St (idealPrg f) K) (List β)
  | [] => pure []
  | x :: xs => do
      let r1 ← gen1 L
      let r2 ← gen2 L
      let more ← drawLoop F xs
      pure (F x r1 r2 :: more)

/-- Its results. -/
def zip3 (F : α → BitVec L → BitVec L → β) (xs : List α) (a b : List (BitVec L)) : List β :=
  List.zipWith (fun x p => F x p.1 p.2) xs (a.zip b)

theorem zip3_length {F : α → BitVec L → BitVec L → β} {xs : List α} {a b : List (BitVec L)} (h : xs.length = m) (ha : a.length = m)
    (hb : b.length = m) : (zip3 F xs a b).length = m := by
  simp [zip3, h, ha, hb]

theorem drawLoop_draws (F : α → BitVec L → BitVec L → β) {xs : List α} (h : xs.length = m) :
    Draws L m (drawLoop F xs : Proto (S3St (idealPrg f) K) _) (zip3 F xs) := by
  subst h
  intro s
  induction xs generalizing s with
  | nil => rfl
  | cons x xs ih =>
    have e : (drawLoop F (x :: xs) : Proto (S3St (idealPrg f) K) _) s = ((drawLoop F xs) (s.adv L) >>= fun r =>
      Prog.ret (F x (tapeVal L s.t1) (tapeVal L s.t2) :: r.1, r.2)) := rfl
    rw [e, ih, S3St.adv_adv, List.length_cons, Nat.mul_succ, Nat.add_comm]
    rfl

theorem zip3_solve2 {F : α → BitVec L → BitVec L → β} {o : β → BitVec L} (h : ∀ x a c, ∃ b, o (F x a b) = c) (xs : List α) :
    ∀ (a c : List (BitVec L)), a.length = xs.length → c.length = xs.length →
      ∃ b : List (BitVec L), b.length = xs.length ∧ (zip3 F xs a b).map o = c := by
  induction xs with
  | nil => intro a c _ hc; exact ⟨[], rfl, (List.length_eq_zero_iff.1 hc).symm⟩
  | cons x xs ih =>
    intro a c ha hc
    obtain ⟨a0, a, rfl⟩ := List.exists_cons_of_length_eq_add_one ha
    obtain ⟨c0, c, rfl⟩ := List.exists_cons_of_length_eq_add_one hc
    obtain ⟨b, hb, e⟩ := ih a c (by simpa using ha) (by simpa using hc)
    obtain ⟨b0, e0⟩ := h x a0 c0
    exact ⟨b0 :: b, by simp [hb], by rw [← e, ← e0]; rfl⟩

theorem zip3_solve1 {F : α → BitVec L → BitVec L → β} {o : β → BitVec L} (h : ∀ x b c, ∃ a, o (F x a b) = c) (xs : List α) :
    ∀ (b c : List (BitVec L)), b.length = xs.length → c.length = xs.length →
      ∃ a : List (BitVec L), a.length = xs.length ∧ (zip3 F xs a b).map o = c := by
  induction xs with
  | nil => intro a c _ hc; exact ⟨[], rfl, (List.length_eq_zero_iff.1 hc).symm⟩
  | cons x xs ih =>
    intro b c hb hc
    obtain ⟨b0, b, rfl⟩ := List.exists_cons_of_length_eq_add_one hb
    obtain ⟨c0, c, rfl⟩ := List.exists_cons_of_length_eq_add_one hc
    obtain ⟨a, ha, e⟩ := ih b c (by simpa using hb) (by simpa using hc)
    obtain ⟨a0, e0⟩ := h x b0 c0
    exact ⟨a0 :: a, by simp [ha], by rw [← e, ← e0]; rfl⟩

/-- The predecessor's values are masked by its second draw. -/
theorem drawLoop_prev {F : α → BitVec L → BitVec L → β} {o : β → BitVec L} (h : ∀ x a c, ∃ b, o (F x a b) = c) {xs : Bool → Party → List α}
    (hx : ∀ w j, (xs w j).length = m) :
    Cpl3 (f := f) (K := K) i (L * m) (fun w j => drawLoop F (xs w j)) fun r => (∀ w j, (r w j).length = m) ∧
      (r false i.prev).map o = (r true i.prev).map o :=
  Draws.prev (out := List.map o) (fun w j => drawLoop_draws F (hx w j))
    (fun w x c h1 h2 => by
      obtain ⟨b, hb, e⟩ := zip3_solve2 h (xs w i.prev) x c (by rw [h1, hx]) (by rw [h2, hx])
      exact ⟨b, by rw [hb, hx], e⟩)
    fun x y h1 h2 e => ⟨fun w j => zip3_length (hx w j) (h1 w j) (h2 w j), e⟩

/-- The successor's values are masked by its first draw. -/
theorem drawLoop_next {F : α → BitVec L → BitVec L → β} {o : β → BitVec L} (h : ∀ x b c, ∃ a, o (F x a b) = c) {xs : Bool → Party → List α}
    (hx : ∀ w j, (xs w j).length = m) :
    Cpl3 (f := f) (K := K) i (L * m) (fun w j => drawLoop F (xs w j)) fun r => (∀ w j, (r w j).length = m) ∧
      (r false i.next).map o = (r true i.next).map o :=
  Draws.next (out := List.map o) (fun w j => drawLoop_draws F (hx w j))
    (fun w x c h1 h2 => by
      obtain ⟨b, hb, e⟩ := zip3_solve1 h (xs w i.next) x c (by rw [h1, hx]) (by rw [h2, hx])
      exact ⟨b, by rw [hb, hx], e⟩)
    fun x y h1 h2 e => ⟨fun w j => zip3_length (hx w j) (h1 w j) (h2 w j), e⟩

theorem drawLoop_any {F : α → BitVec L → BitVec L → β} {xs : Bool → Party → List α} (hx : ∀ w j, (xs w j).length = m) :
    Cpl3 (f := f) (K := K) i (L * m) (fun w j => drawLoop F (xs w j)) fun r => ∀ w j, (r w j).length = m :=
  Draws.any (fun w j => drawLoop_draws F (hx w j)) fun _ _ h1 h2 w j => zip3_length (hx w j) (h1 w j) (h2 w j)

/-! ## The loops of the gates -/

/-- One iteration of `abyAndLoop`. -/
def andStep (p : AShare L × AShare L) (r1 r2 : BitVec L) : BitVec L × AShare L := ((p.1.andLocal p.2).a ^^^ (r1 ^^^ r2), ⟨r1, r2⟩)

theorem abyAndLoop_eq (ps : List (AShare L × AShare L)) : (abyAndLoop ps : Proto (S3St (idealPrg f) K) _) = drawLoop andStep ps := by
  induction ps with
  | nil => rfl
  | cons p ps ih =>
    show (genForZeroShare L >>= fun r => abyAndLoop ps >>= fun more => pure (((p.1.andLocal p.2).a ^^^ (r.a ^^^ r.b), r) :: more) :
      Proto (S3St (idealPrg f) K) _) = _
    rw [ih]
    rfl

theorem andStep_masked (p : AShare L × AShare L) (a c : BitVec L) : ∃ b, (andStep p a b).1 = c :=
  ⟨c ^^^ (p.1.andLocal p.2).a ^^^ a, by
    show _ ^^^ (a ^^^ (c ^^^ _ ^^^ a)) = c
    rw [BitVec.xor_comm c, BitVec.xor_comm a, BitVec.xor_assoc, BitVec.xor_assoc, BitVec.xor_self, BitVec.xor_zero, ← BitVec.xor_assoc,
      BitVec.xor_self, BitVec.zero_xor]⟩

/-- One iteration of `abyDotLoop`. -/
def dotStep (p : List (AShare K) × List (AShare K)) (r1 r2 : BitVec K) : BitVec K × AShare K :=
  (Aby3.dotAcc (r1 - r2) (p.1.zip p.2), ⟨r1, r2⟩)

theorem abyDotLoop_eq (ps : List (List (AShare K) × List (AShare K))) :
    (abyDotLoop ps : Proto (S3St (idealPrg f) K) _) = drawLoop dotStep ps := by
  induction ps with
  | nil => rfl
  | cons p ps ih =>
    show (genForZeroShare K >>= fun r => abyDotLoop ps >>= fun more => pure ((Aby3.dotAcc (r.a - r.b) (p.1.zip p.2), r) :: more) :
      Proto (S3St (idealPrg f) K) _) = _
    rw [ih]
    rfl

theorem dotStep_masked (p : List (AShare K) × List (AShare K)) (a c : BitVec K) : ∃ b, (dotStep p a b).1 = c :=
  ⟨a + Aby3.dotAcc 0 (p.1.zip p.2) - c, by
    show Aby3.dotAcc _ _ = c
    rw [dotAcc_add]
    ring⟩

/-- One iteration of `andPostLoop`. -/
def andPostStep (x : AShare L × (S3Share L × S3Share L)) (r1 r2 : BitVec L) : Post L :=
  ⟨(x.2.1.a &&& x.2.2.c) ^^^ (x.2.2.a &&& x.2.1.c) ^^^ x.1.a ^^^ r1, (x.2.1.b &&& x.2.2.c) ^^^ (x.2.2.b &&& x.2.1.c) ^^^ x.1.b ^^^ r2,
    x.2.1.c &&& x.2.2.c, r1, r2⟩

theorem andPostLoop_eq (xs : List (AShare L × (S3Share L × S3Share L))) :
    (andPostLoop xs : Proto (S3St (idealPrg f) K) _) = drawLoop andPostStep xs := by
  induction xs with
  | nil => rfl
  | cons x xs ih =>
    show (andPostLocal x.2.1 x.2.2 x.1 >>= fun p => andPostLoop xs >>= fun more => pure (p :: more) : Proto (S3St (idealPrg f) K) _) = _
    rw [ih]
    rfl

/-- One iteration of `dotPostLoop`. -/
def dotPostStep (x : AShare K × (List (S3Share K) × List (S3Share K))) (r1 r2 : BitVec K) : Post K :=
  ⟨(dotPostAcc (x.1.a - r1, x.1.b - r2, 0) (x.2.1.zip x.2.2)).1, (dotPostAcc (x.1.a - r1, x.1.b - r2, 0) (x.2.1.zip x.2.2)).2.1,
    (dotPostAcc (x.1.a - r1, x.1.b - r2, 0) (x.2.1.zip x.2.2)).2.2, r1, r2⟩

theorem dotPostLoop_eq (xs : List (AShare K × (List (S3Share K) × List (S3Share K)))) :
    (dotPostLoop xs : Proto (S3St (idealPrg f) K) _) = drawLoop dotPostStep xs := by
  induction xs with
  | nil => rfl
  | cons x xs ih =>
    show (dotPostLocal x.2.1 x.2.2 x.1 >>= fun p => dotPostLoop xs >>= fun more => pure (p :: more) : Proto (S3St (idealPrg f) K) _) = _
    rw [ih]
    rfl

theorem xor_solve (h c : BitVec L) : ∃ r, h ^^^ r = c := ⟨h ^^^ c, by rw [← BitVec.xor_assoc, BitVec.xor_self, BitVec.zero_xor]⟩

theorem dotPostAcc_add (a b c : BitVec K) (ps : List (S3Share K × S3Share K)) :
    dotPostAcc (a, b, c) ps = (a + (dotPostAcc (0, 0, 0) ps).1, b + (dotPostAcc (0, 0, 0) ps).2.1, c + (dotPostAcc (0, 0, 0) ps).2.2) := by
  unfold dotPostAcc
  induction ps generalizing a b c with
  | nil => simp
  | cons p ps ih =>
    simp only [List.foldl_cons]
    rw [ih, ih (0 - _)]
    simp only [Prod.mk.injEq]
    refine ⟨by ring, by ring, by ring⟩

/-- The `y`s are masked: `ya` by the first draw, `yb` by the second one. -/
def PostMasked (F : α → BitVec L → BitVec L → Post L) : Prop :=
  (∀ x b c, ∃ a, (F x a b).ya = c) ∧ ∀ x a c, ∃ b, (F x a b).yb = c

theorem andPostStep_masked : PostMasked (andPostStep (L := L)) := ⟨fun _ _ _ => xor_solve _ _, fun _ _ _ => xor_solve _ _⟩

theorem dotPostStep_masked : PostMasked (dotPostStep (K := K)) := by
  refine ⟨fun x b c => ⟨x.1.a + (dotPostAcc (0, 0, 0) (x.2.1.zip x.2.2)).1 - c, ?_⟩,
    fun x a c => ⟨x.1.b + (dotPostAcc (0, 0, 0) (x.2.1.zip x.2.2)).2.1 - c, ?_⟩⟩
  · show (dotPostAcc _ _).1 = _
    rw [dotPostAcc_add]
    show _ - _ + _ = _
    ring
  · show (dotPostAcc _ _).2.1 = _
    rw [dotPostAcc_add]
    show _ - _ + _ = _
    ring

/-- What party 0 will send to party `i` is the same in both worlds. -/
def SameY (i : Party) (ps : Bool → Party → List (Post L)) : Prop :=
  (i = 1 → (ps false 0).map (·.yb) = (ps true 0).map (·.yb)) ∧ (i = 2 → (ps false 0).map (·.ya) = (ps true 0).map (·.ya))

theorem postLoop_cpl {F : α → BitVec L → BitVec L → Post L} (hF : PostMasked F) {xs : Bool → Party → List α}
    (hx : ∀ w j, (xs w j).length = m) :
    Cpl3 (f := f) (K := K) i (L * m) (fun w j => drawLoop F (xs w j)) fun r => (∀ w j, (r w j).length = m) ∧ SameY i r := by
  match i with
  | 0 => exact (drawLoop_any hx).mono fun r h => ⟨h, fun h => absurd h (by decide), fun h => absurd h (by decide)⟩
  | 1 => exact (drawLoop_prev (i := 1) hF.2 hx).mono fun r h => ⟨h.1, fun _ => h.2, fun h => absurd h (by decide)⟩
  | 2 => exact (drawLoop_next (i := 2) hF.1 hx).mono fun r h => ⟨h.1, fun h => absurd h (by decide), fun _ => h.2⟩

/-! ## The replicated product of the masks -/

theorem abyAndMany_cpl {a b : Bool → Party → List (AShare L)} (ha : ∀ w j, (a w j).length = m) (hb : ∀ w j, (b w j).length = m) :
    Cpl3 (f := f) (K := K) i (L * m) (fun w j => abyAndMany j (a w j) (b w j)) fun c => ∀ w j, (c w j).length = m := by
  unfold abyAndMany
  refine Cpl3.bind_local (Q := fun r => (∀ w j, (r w j).length = m) ∧ (r false i.prev).map (·.1) = (r true i.prev).map (·.1)) ?_ fun r hr => ?_
  · refine Cpl3.congr (fun w j => abyAndLoop_eq _) ?_
    exact drawLoop_prev (fun x a c => andStep_masked x a c) fun w j => by simp [ha, hb]
  · refine Cpl3.bind' (Cpl3.net (Talk.vec (x := fun w j => (r w j).map (·.1)) (fun w j => by simp [hr.1]) hr.2) rfl) fun y hy => ?_
    subst hy
    exact Cpl3.step (Q := fun c => ∀ w j, (c w j).length = m) (a := fun w j => List.zipWith AShare.mk ((r w j).map (·.1)) ((r w j.prev).map (·.1)))
      (g := fun w j s => { s with andProof := registerAnds s.andProof ((((a w j).zip (b w j)).zip
        (List.zipWith AShare.mk ((r w j).map (·.1)) ((r w j.prev).map (·.1)))).zip ((r w j).map (·.2))) })
      (fun w j => by simp [hr.1]) fun _ _ _ _ => rfl

theorem abyDotMany_cpl {a b : Bool → Party → List (List (AShare K))} (ha : ∀ w j, (a w j).length = m) (hb : ∀ w j, (b w j).length = m) :
    Cpl3 (f := f) (K := K) i (K * m) (fun w j => abyDotMany j (a w j) (b w j)) fun c => ∀ w j, (c w j).length = m := by
  unfold abyDotMany
  refine Cpl3.bind_local (Q := fun r => (∀ w j, (r w j).length = m) ∧ (r false i.prev).map (·.1) = (r true i.prev).map (·.1)) ?_ fun r hr => ?_
  · refine Cpl3.congr (fun w j => abyDotLoop_eq _) ?_
    exact drawLoop_prev (fun x a c => dotStep_masked x a c) fun w j => by simp [ha, hb]
  · refine Cpl3.bind' (Cpl3.net (Talk.vec (x := fun w j => (r w j).map (·.1)) (fun w j => by simp [hr.1]) hr.2) rfl) fun y hy => ?_
    subst hy
    exact Cpl3.step (Q := fun c => ∀ w j, (c w j).length = m) (a := fun w j => List.zipWith AShare.mk ((r w j).map (·.1)) ((r w j.prev).map (·.1)))
      (g := fun w j s => { s with dotProof := registerDots s.dotProof (((((a w j).zip (b w j)).map fun p => p.1.zip p.2).zip
        (List.zipWith AShare.mk ((r w j).map (·.1)) ((r w j.prev).map (·.1)))).zip ((r w j).map (·.2))) })
      (fun w j => by simp [hr.1]) fun _ _ _ _ => rfl

theorem abyAnd_cpl {a b : Bool → Party → AShare L} :
    Cpl3 (f := f) (K := K) i (L * 1) (fun w j => abyAnd j (a w j) (b w j)) fun _ => True := by
  refine Cpl3.congr (q := fun w j => drawLoop andStep [(a w j, b w j)] >>= fun r =>
    Proto.net (sendAndReceiveValue j ((r.map (·.1)).headD 0)) >>= fun y => Proto.step fun s : S3St (idealPrg f) K =>
      ((⟨(r.map (·.1)).headD 0, y⟩ : AShare L), { s with
        andProof := s.andProof.registerAnd (a w j) (b w j) ((r.map (·.2)).headD ⟨0, 0⟩) ⟨(r.map (·.1)).headD 0, y⟩ })) (fun w j => rfl) ?_
  refine Cpl3.bind_local (drawLoop_prev (m := 1) (o := (·.1)) (fun x a c => andStep_masked x a c) fun w j => rfl) fun r hr => ?_
  refine Cpl3.bind' (Cpl3.net (Talk.value (x := fun w j => ((r w j).map (·.1)).headD 0) (by rw [hr.2])) rfl) fun y hy => ?_
  subst hy
  exact Cpl3.step (a := fun w j => (⟨((r w j).map (·.1)).headD 0, ((r w j.prev).map (·.1)).headD 0⟩ : AShare L))
    (Q := fun _ => True) (g := fun w j s => { s with
      andProof := s.andProof.registerAnd (a w j) (b w j) (((r w j).map (·.2)).headD ⟨0, 0⟩) ⟨((r w j).map (·.1)).headD 0, ((r w j.prev).map (·.1)).headD 0⟩ }) trivial fun _ _ _ _ => rfl

end Verif
