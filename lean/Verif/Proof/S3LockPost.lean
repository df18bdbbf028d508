import Verif.Proof.S3LockGate

/-!
# Lock-step runs of the second half of a Swift3 multiplication: the exchange of the masked values
-/

namespace Verif

open Swift3

variable {f : Bytes → List Bool} {K L m n : Nat} {α β γ δ : Type} {i : Party}

/-! ## Messages -/

/-- Party 0 sends `x` to party 2 and `y` to party 1. -/
theorem Talk.fan {x y : Bool → Bytes} (hy : i = 1 → y false = y true) (hx : i = 2 → x false = x true) :
    Talk i (fun w j => match j with
      | 0 => Prog.send 2 (x w) (.send 1 (y w) (.ret []))
      | 1 => .recv 0 .ret
      | 2 => .recv 0 .ret) fun w j => match j with
      | 0 => []
      | 1 => y w
      | 2 => x w := by
  refine ⟨fun w j => match j with
    | 0 => []
    | 1 => [(0, y w)]
    | 2 => [(0, x w)], fun w acc => ?_, ?_⟩
  · suffices WP (fun j => (match j with
      | 0 => Prog.send 2 (x w) (.send 1 (y w) (.ret []))
      | 1 => .recv 0 .ret
      | 2 => .recv 0 .ret : Prog Bytes).record (acc j)) (· = fun j => (acc j ++ (match j with
    | 0 => []
    | 1 => [(0, y w)]
    | 2 => [(0, x w)] : Log), (match j with
      | 0 => []
      | 1 => y w
      | 2 => x w : Bytes))) by
      obtain ⟨r, hr, e⟩ := this
      rw [e] at hr
      exact hr
    apply WP.of3
    show R3 (.send 2 (x w) (.send 1 (y w) (.ret (acc 0, [])))) (.recv 0 fun a => .ret (acc 1 ++ [(0, a)], a))
      (.recv 0 fun a => .ret (acc 2 ++ [(0, a)], a)) [] [] [] [] [] [] _
    run3
    apply R3.done
    intro r h0 h1 h2
    exact party_ext (by simp [h0]) (by simp [h1]) (by simp [h2])
  · match i with
    | 0 => rfl
    | 1 => simp only [hy rfl]
    | 2 => simp only [hx rfl]

/-- Party 1 sends `x` to party 0. -/
theorem Talk.up {x : Bool → Bytes} (hx : i = 0 → x false = x true) :
    Talk i (fun w j => match j with
      | 0 => Prog.recv 1 .ret
      | 1 => .send 0 (x w) (.ret [])
      | 2 => .ret []) fun w j => match j with
      | 0 => x w
      | 1 => []
      | 2 => [] := by
  refine ⟨fun w j => match j with
    | 0 => [(1, x w)]
    | 1 => []
    | 2 => [], fun w acc => ?_, ?_⟩
  · suffices WP (fun j => (match j with
      | 0 => Prog.recv 1 .ret
      | 1 => .send 0 (x w) (.ret [])
      | 2 => .ret [] : Prog Bytes).record (acc j)) (· = fun j => (acc j ++ (match j with
    | 0 => [(1, x w)]
    | 1 => []
    | 2 => [] : Log), (match j with
      | 0 => x w
      | 1 => []
      | 2 => [] : Bytes))) by
      obtain ⟨r, hr, e⟩ := this
      rw [e] at hr
      exact hr
    apply WP.of3
    show R3 (.recv 1 fun a => .ret (acc 0 ++ [(1, a)], a)) (.send 0 (x w) (.ret (acc 1, [])))
      (.ret (acc 2, [])) [] [] [] [] [] [] _
    run3
    apply R3.done
    intro r h0 h1 h2
    exact party_ext (by simp [h0]) (by simp [h1]) (by simp [h2])
  · match i with
    | 0 => simp only [hx rfl]
    | 1 => rfl
    | 2 => rfl

/-! ## The joint sharing -/

/-- `alpha_1`, `alpha_p`, `beta`. -/
def jtriples (mix : BitVec L → BitVec L → BitVec L → BitVec L) (a p : List (BitVec L)) (xs : List (BitVec L)) :
    List (BitVec L × BitVec L × BitVec L) :=
  List.zipWith (fun x q => (q.1, q.2, mix q.1 q.2 x)) xs (a.zip p)

theorem jtriples_length {mix : BitVec L → BitVec L → BitVec L → BitVec L} {a p xs : List (BitVec L)} (ha : a.length = m) (hp : p.length = m)
    (hx : xs.length = m) : (jtriples mix a p xs).length = m := by
  simp [jtriples, ha, hp, hx]

theorem jshareLoop1_eq (mix : BitVec L → BitVec L → BitVec L → BitVec L) (xs : List (BitVec L)) (s : S3St (idealPrg f) K) :
    jshareLoop1 mix xs s = .ret (jtriples mix (words L xs.length s.t1) (words L xs.length s.tp) xs,
      { s with prf := ⟨s.t1.drop (L * xs.length), s.prf.p2, s.tp.drop (L * xs.length)⟩ }) := by
  induction xs generalizing s with
  | nil => rfl
  | cons x xs ih =>
    have e : jshareLoop1 mix (x :: xs) s = (jshareLoop1 mix xs { s with prf := ⟨s.t1.drop L, s.prf.p2, s.tp.drop L⟩ } >>= fun r =>
      Prog.ret ((tapeVal L s.t1, tapeVal L s.tp, mix (tapeVal L s.t1) (tapeVal L s.tp) x) :: r.1, r.2)) := rfl
    rw [e, ih]
    have e1 : ∀ t : List Bool, t.drop (L * (x :: xs).length) = (t.drop L).drop (L * xs.length) := fun t => by
      rw [List.drop_drop, List.length_cons, Nat.mul_succ, Nat.add_comm]
    rw [e1, e1]
    rfl

theorem jshareLoop2_eq (mix : BitVec L → BitVec L → BitVec L → BitVec L) (xs : List (BitVec L)) (s : S3St (idealPrg f) K) :
    jshareLoop2 mix xs s = .ret (jtriples mix (words L xs.length s.t2) (words L xs.length s.tp) xs,
      { s with prf := ⟨s.prf.p1, s.t2.drop (L * xs.length), s.tp.drop (L * xs.length)⟩ }) := by
  induction xs generalizing s with
  | nil => rfl
  | cons x xs ih =>
    have e : jshareLoop2 mix (x :: xs) s = (jshareLoop2 mix xs { s with prf := ⟨s.prf.p1, s.t2.drop L, s.tp.drop L⟩ } >>= fun r =>
      Prog.ret ((tapeVal L s.t2, tapeVal L s.tp, mix (tapeVal L s.t2) (tapeVal L s.tp) x) :: r.1, r.2)) := rfl
    rw [e, ih]
    have e1 : ∀ t : List Bool, t.drop (L * (x :: xs).length) = (t.drop L).drop (L * xs.length) := fun t => by
      rw [List.drop_drop, List.length_cons, Nat.mul_succ, Nat.add_comm]
    rw [e1, e1]
    rfl

theorem jshareLoopR_eq (xs : List (BitVec L)) (s : S3St (idealPrg f) K) :
    jshareLoopR xs s = .ret (List.zipWith (fun b p => (⟨p, p, b⟩ : S3Share L)) xs (words L xs.length s.tp),
      { s with prf := ⟨s.prf.p1, s.prf.p2, s.tp.drop (L * xs.length)⟩ }) := by
  induction xs generalizing s with
  | nil => rfl
  | cons x xs ih =>
    have e : jshareLoopR (x :: xs) s = (jshareLoopR xs { s with prf := ⟨s.prf.p1, s.prf.p2, s.tp.drop L⟩ } >>= fun r =>
      Prog.ret (⟨tapeVal L s.tp, tapeVal L s.tp, x⟩ :: r.1, r.2)) := rfl
    rw [e, ih]
    have e1 : ∀ t : List Bool, t.drop (L * (x :: xs).length) = (t.drop L).drop (L * xs.length) := fun t => by
      rw [List.drop_drop, List.length_cons, Nat.mul_succ, Nat.add_comm]
    rw [e1]
    rfl

/-- `beta` takes every value for a suitable `alpha_1`. -/
def MixOk (mix : BitVec L → BitVec L → BitVec L → BitVec L) : Prop := ∀ p x c, ∃ a, mix a p x = c

theorem mixXor_ok : MixOk (mixXor (L := L)) := fun p x c => ⟨c ^^^ x, by
  show c ^^^ x ^^^ x = c
  rw [BitVec.xor_assoc, BitVec.xor_self, BitVec.xor_zero]⟩

theorem mixAdd_ok : MixOk (mixAdd (L := L)) := fun p x c => ⟨c - p - p - x, by
  show c - p - p - x + p + p + x = c
  ring⟩

theorem jtriples_solve {mix : BitVec L → BitVec L → BitVec L → BitVec L} (h : MixOk mix) (xs : List (BitVec L)) :
    ∀ (p c : List (BitVec L)), p.length = xs.length → c.length = xs.length →
      ∃ a : List (BitVec L), a.length = xs.length ∧ (jtriples mix a p xs).map (·.2.2) = c := by
  induction xs with
  | nil => intro a c _ hc; exact ⟨[], rfl, (List.length_eq_zero_iff.1 hc).symm⟩
  | cons x xs ih =>
    intro b c hb hc
    obtain ⟨b0, b, rfl⟩ := List.exists_cons_of_length_eq_add_one hb
    obtain ⟨c0, c, rfl⟩ := List.exists_cons_of_length_eq_add_one hc
    obtain ⟨a, ha, e⟩ := ih b c (by simpa using hb) (by simpa using hc)
    obtain ⟨a0, e0⟩ := h b0 x c0
    exact ⟨a0 :: a, by simp [ha], by rw [← e, ← e0]; rfl⟩

/-- Code that draws from the common generator only. -/
def CommonDraw (z : Proto (S3St (idealPrg f) K) γ) : Prop :=
  ∃ (o : List Bool → γ) (k : Nat), ∀ s, z s = .ret (o s.tp, { s with prf := ⟨s.prf.p1, s.prf.p2, s.tp.drop k⟩ })

theorem CommonDraw.pure (a : γ) : CommonDraw (Pure.pure a : Proto (S3St (idealPrg f) K) γ) := ⟨fun _ => a, 0, fun _ => rfl⟩

/-- The code in which party 1 draws from its first generator and party 2 from its second one; `z` is the code of party 0. -/
def jdraw (mix : BitVec L → BitVec L → BitVec L → BitVec L) (z : Proto (S3St (idealPrg f) K) (List (BitVec L × BitVec L × BitVec L)))
    (j : Party) (xs : List (BitVec L)) : Proto (S3St (idealPrg f) K) (List (BitVec L × BitVec L × BitVec L)) :=
  match j with
  | 0 => z
  | 1 => jshareLoop1 mix xs
  | 2 => jshareLoop2 mix xs

/-- The number of bits that are drawn from the generator unknown to party `i`: only party 0 does not know it. -/
def jbits (i : Party) (n : Nat) : Nat := if i = 0 then n else 0

/-- The betas that party 0 will receive are the same in both worlds. -/
def SameB (i : Party) (ts : Bool → Party → List (BitVec L × BitVec L × BitVec L)) : Prop :=
  i = 0 → (ts false 1).map (·.2.2) = (ts true 1).map (·.2.2)

theorem jdraw_lock {mix : BitVec L → BitVec L → BitVec L → BitVec L} {z : Proto (S3St (idealPrg f) K) (List (BitVec L × BitVec L × BitVec L))} (hz : CommonDraw z)
    {xs : Bool → Party → List (BitVec L)} (hx : ∀ w j, (xs w j).length = m)
    {st : Bool → Party → S3St (idealPrg f) K} {A : Bool → List (BitVec L)} (hA : i = 0 → ∀ w, (A w).length = m) :
    Lock3 i (fun w => if i = 0 then tapesOf (A w) else []) (fun w j => jdraw mix z j (xs w j)) st fun a _ => ∃ o : Bool → List (BitVec L × BitVec L × BitVec L), a = fun w j => match j with
      | 0 => o w
      | 1 => jtriples mix (if i = 0 then A w else words L m (st w 1).t1) (words L m (st w 1).tp) (xs w 1)
      | 2 => jtriples mix (if i = 0 then A w else words L m (st w 2).t2) (words L m (st w 2).tp) (xs w 2) := by
  obtain ⟨o, k, hz⟩ := hz
  refine Lock3.loc (t := fun w j => match j with
    | 0 => { st w 0 with prf := ⟨(st w 0).prf.p1, (st w 0).prf.p2, (st w 0).tp.drop k⟩ }
    | 1 => { st w 1 with prf := ⟨(st w 1).t1.drop (L * m), (st w 1).prf.p2, (st w 1).tp.drop (L * m)⟩ }
    | 2 => { st w 2 with prf := ⟨(st w 2).prf.p1, (st w 2).t2.drop (L * m), (st w 2).tp.drop (L * m)⟩ }) (fun w rest j => ?_) ⟨fun w => o (st w 0).tp, rfl⟩
  have hd : i = 0 → ∀ t, (tapesOf (A w) ++ t).drop (L * m) = t := fun h t =>
    List.drop_left' (by rw [tapesOf_length, hA h])
  match j with
  | 0 =>
    show z _ = _
    rw [hz]
    match i with
    | 0 => rfl
    | 1 => rfl
    | 2 => rfl
  | 1 =>
    show jshareLoop1 mix (xs w 1) _ = _
    rw [jshareLoop1_eq, hx]
    match i with
    | 0 =>
      show Prog.ret (jtriples mix (words L m (tapesOf (A w) ++ rest)) (words L m (st w 1).tp) (xs w 1),
        { st w 1 with prf := ⟨(tapesOf (A w) ++ rest).drop (L * m), (st w 1).prf.p2, (st w 1).tp.drop (L * m)⟩ }) = _
      rw [words_tapesOf (hA rfl w), hd rfl]
      rfl
    | 1 => rfl
    | 2 => rfl
  | 2 =>
    show jshareLoop2 mix (xs w 2) _ = _
    rw [jshareLoop2_eq, hx]
    match i with
    | 0 =>
      show Prog.ret (jtriples mix (words L m (tapesOf (A w) ++ rest)) (words L m (st w 2).tp) (xs w 2),
        { st w 2 with prf := ⟨(st w 2).prf.p1, (tapesOf (A w) ++ rest).drop (L * m), (st w 2).tp.drop (L * m)⟩ }) = _
      rw [words_tapesOf (hA rfl w), hd rfl]
      rfl
    | 1 => rfl
    | 2 => rfl

theorem jdraw_cpl {mix : BitVec L → BitVec L → BitVec L → BitVec L} (hm : MixOk mix)
    {z : Proto (S3St (idealPrg f) K) (List (BitVec L × BitVec L × BitVec L))} (hz : CommonDraw z) {xs : Bool → Party → List (BitVec L)}
    (hx : ∀ w j, (xs w j).length = m) :
    Cpl3 (f := f) (K := K) i (jbits i (L * m)) (fun w j => jdraw mix z j (xs w j)) fun ts =>
      (∀ w j, j ≠ 0 → (ts w j).length = m) ∧ SameB i ts := by
  have lw : ∀ u, (words L m u).length = m := words_length L m
  by_cases hi : i = 0
  · subst hi
    intro st
    have : ∀ w c, ∃ y : List (BitVec L), c.length = m → y.length = m ∧ (jtriples mix y (words L m (st w 1).tp) (xs w 1)).map (·.2.2) = c := by
      intro w c
      by_cases hc : c.length = m
      · obtain ⟨y, hy, e⟩ := jtriples_solve hm (xs w 1) (words L m (st w 1).tp) c (by rw [lw, hx]) (by rw [hc, hx])
        exact ⟨y, fun _ => ⟨by rw [hy, hx], e⟩⟩
      · exact ⟨[], fun h => absurd h hc⟩
    choose A hA using this
    refine ⟨fun w u => tapesOf (A w (words L m u)), fun w u _ => ?_, fun w u u' hu hu' e => ?_, fun u _ => ?_⟩
    · rw [tapesOf_length, (hA w _ (lw u)).1]; rfl
    · have := tapesOf_inj (by rw [(hA w _ (lw u)).1, (hA w _ (lw u')).1]) e
      refine words_inj (K := L) (n := m) hu hu' ?_
      rw [← (hA w _ (lw u)).2, ← (hA w _ (lw u')).2, this]
    · refine (jdraw_lock (i := 0) (mix := mix) hz hx (st := st) (A := fun w => A w (words L m u)) (fun _ w => (hA w _ (lw u)).1)).mono ?_
      rintro ts _ ⟨o, rfl⟩
      refine ⟨fun w j hj => ?_, fun _ => ?_⟩
      · match j with
        | 0 => exact absurd rfl hj
        | 1 => exact jtriples_length ((hA w _ (lw u)).1) (lw _) (hx _ _)
        | 2 => exact jtriples_length ((hA w _ (lw u)).1) (lw _) (hx _ _)
      · show (jtriples mix (A false (words L m u)) _ _).map _ = (jtriples mix (A true (words L m u)) _ _).map _
        rw [(hA false _ (lw u)).2, (hA true _ (lw u)).2]
  · have e : jbits i (L * m) = 0 := if_neg hi
    rw [e]
    refine Cpl3.zero fun st => ?_
    have := jdraw_lock (i := i) (mix := mix) hz hx (st := st) (A := fun _ => []) (fun h => absurd h hi)
    simp only [if_neg hi] at this
    refine this.mono ?_
    rintro ts _ ⟨o, rfl⟩
    refine ⟨fun w j hj => ?_, fun h => absurd h hi⟩
    match j with
    | 0 => exact absurd rfl hj
    | 1 => exact jtriples_length (lw _) (lw _) (hx _ _)
    | 2 => exact jtriples_length (lw _) (lw _) (hx _ _)

/-- The part of party 0 after the last message. -/
theorem jlast_cpl {bs : Bool → Party → List (BitVec L)} (hb : ∀ w, (bs w 0).length = m) {o : Bool → Party → List (S3Share L)}
    (ho : ∀ w j, j ≠ 0 → (o w j).length = m) :
    Cpl3 (f := f) (K := K) i 0 (fun w j => (match j with
      | 0 => jshareLoopR (bs w j)
      | _ => pure (o w j) : Proto (S3St (idealPrg f) K) _)) fun r => ∀ w j, (r w j).length = m := by
  refine Cpl3.zero fun st => Lock3.loc (t := fun w j => match j with
    | 0 => { st w 0 with prf := ⟨(st w 0).prf.p1, (st w 0).prf.p2, (st w 0).tp.drop (L * m)⟩ }
    | 1 => st w 1
    | 2 => st w 2) (a := fun w j => match j with
    | 0 => List.zipWith (fun b p => (⟨p, p, b⟩ : S3Share L)) (bs w 0) (words L m (st w 0).tp)
    | 1 => o w 1
    | 2 => o w 2) (fun w rest j => ?_) ?_
  · match j with
    | 0 =>
      show jshareLoopR (bs w 0) _ = _
      rw [jshareLoopR_eq, hb]
      match i with
      | 0 => rfl
      | 1 => rfl
      | 2 => rfl
    | 1 => match i with
      | 0 => rfl
      | 1 => rfl
      | 2 => rfl
    | 2 => match i with
      | 0 => rfl
      | 1 => rfl
      | 2 => rfl
  · intro w j
    match j with
    | 0 =>
      show (List.zipWith _ _ _).length = m
      rw [List.length_zipWith, hb, words_length, Nat.min_self]
    | 1 => exact ho w 1 (by decide)
    | 2 => exact ho w 2 (by decide)

end Verif
