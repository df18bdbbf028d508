import Verif.Proof.AlikeInst

/-!
# Same traffic: the SPDZ-wise backend
-/

namespace Verif

variable {G : Prg} {K V : Nat}

namespace Triples

theorem alike_modifyLast {f g : AShare 128 → AShare 128} {x y r r' : List (AShare 128)} (h : SL x y)
    (hx : modifyLast f x = .ok r) (hy : modifyLast g y = .ok r') : SL r r' := by
  unfold modifyLast at hx hy
  split at hx
  · split at hy
    · cases hx; cases hy; simp only [SL, List.length_append, List.length_dropLast, List.length_singleton] at *; omega
    · cases hy
  · cases hx

theorem alike_splitAndAdd {a a' : AShare K} {x y r r' : List (AShare 128)} {n : Nat} (h : SL x y)
    (hx : splitAndAddT a x n = .ok r) (hy : splitAndAddT a' y n = .ok r') : SL r r' := by
  obtain ⟨u, hu, hx⟩ := OpsAlike.bindE hx
  obtain ⟨v, hv, hy⟩ := OpsAlike.bindE hy
  cases hx; cases hy
  exact SL.append (alike_modifyLast h hu hv) rfl

theorem alike_addT {t u r r' : Triples} (h : t.SameSize u) {a b c a' b' c' : AShare K} (ht : t.addT a b c = .ok r)
    (hu : u.addT a' b' c' = .ok r') : r.SameSize r' := by
  obtain ⟨ha, hb, hc, hd⟩ := h
  unfold addT at ht hu
  rw [← hd] at hu
  dsimp only at ht hu
  split at ht
  · cases ht; rw [if_pos (by assumption)] at hu; cases hu
    exact ⟨SL.append ha rfl, SL.append hb rfl, SL.append hc rfl, rfl⟩
  · rw [if_neg (by assumption)] at hu
    split at ht
    · rw [if_pos (by assumption)] at hu
      obtain ⟨x, hx, ht⟩ := OpsAlike.bindE ht
      obtain ⟨y, hy, ht⟩ := OpsAlike.bindE ht
      obtain ⟨z, hz, ht⟩ := OpsAlike.bindE ht
      obtain ⟨x', hx', hu⟩ := OpsAlike.bindE hu
      obtain ⟨y', hy', hu⟩ := OpsAlike.bindE hu
      obtain ⟨z', hz', hu⟩ := OpsAlike.bindE hu
      cases ht; cases hu
      exact ⟨alike_modifyLast ha hx hx', alike_modifyLast hb hy hy', alike_modifyLast hc hz hz', rfl⟩
    · rw [if_neg (by assumption)] at hu
      obtain ⟨x, hx, ht⟩ := OpsAlike.bindE ht
      obtain ⟨y, hy, ht⟩ := OpsAlike.bindE ht
      obtain ⟨z, hz, ht⟩ := OpsAlike.bindE ht
      obtain ⟨x', hx', hu⟩ := OpsAlike.bindE hu
      obtain ⟨y', hy', hu⟩ := OpsAlike.bindE hu
      obtain ⟨z', hz', hu⟩ := OpsAlike.bindE hu
      cases ht; cases hu
      exact ⟨alike_splitAndAdd ha hx hx', alike_splitAndAdd hb hy hy', alike_splitAndAdd hc hz hz', rfl⟩

theorem alike_addLoop : ∀ {x y : List ((AShare K × AShare K) × AShare K)} {t u r r' : Triples}, SL x y → t.SameSize u →
    addLoop t x = .ok r → addLoop u y = .ok r' → r.SameSize r'
  | [], [], _, _, _, _, _, h, ht, hu => by cases ht; cases hu; exact h
  | [], _ :: _, _, _, _, _, hl, _, _, _ => by simp [SL] at hl
  | _ :: _, [], _, _, _, _, hl, _, _, _ => by simp [SL] at hl
  | ((_, _), _) :: x, ((_, _), _) :: y, _, _, _, _, hl, h, ht, hu => by
      obtain ⟨_, e, ht⟩ := OpsAlike.bindE ht
      obtain ⟨_, e', hu⟩ := OpsAlike.bindE hu
      exact alike_addLoop (by simpa [SL] using hl) (alike_addT h e e') ht hu

end Triples

namespace Spdz

/-- States in which the queues have the same lengths. -/
abbrev SS (s t : SpdzSt G V) : Prop := SameSizes s t

variable {me : Party} {H : Hash}

theorem alike_viaJmp {α β : Type} {R : α → β → Prop} {p : Proto (JmpSt G) α} {q : Proto (JmpSt G) β} (h : PA Jmp.SJ R p q) :
    PA (SS (V := V)) R (viaJmp p) (viaJmp q) := h.zoom (fun _ _ _ => trivial) fun _ _ _ _ hst _ => hst

theorem alike_viaAby {α β : Type} {R : α → β → Prop} {p : Proto (Aby3St G) α} {q : Proto (Aby3St G) β} (h : PA Aby3.SA R p q) :
    PA (SS (V := V)) R (viaAby p) (viaAby q) := alike_viaJmp (Jmp.alike_viaPrf h)

theorem alike_queueAll {x y : List (SShare V)} (h : SL x y) : PA (SS (G := G)) Any (queueAll x) (queueAll y) :=
  PA.step fun _ _ hst => ⟨trivial, SL.append hst.1 h, hst.2⟩

theorem alike_macZero : PA (SS (G := G) (V := V)) Any (macZero me) (macZero me) := by
  refine PA.get.bind fun s t hst => ?_
  rw [show s.verifyQueue.length = t.verifyQueue.length from hst.1]
  refine (alike_viaJmp (Jmp.alike_genRandMany _)).bind fun _ _ _ => ?_
  refine (PA.step (R := SL) fun _ _ h => ⟨h.1, rfl, h.2⟩).bind fun _ _ _ => ?_
  refine (alike_viaAby (Aby3.alike_dotMany (a := [_, _]) (b := [_, _]) (a' := [_, _]) (b' := [_, _]) (by rfl) (by rfl))).bind
    fun _ _ _ => ?_
  refine PA.idxAny.bind fun _ _ _ => PA.idxAny.bind fun _ _ _ => (alike_viaAby (Aby3.alike_mul _ _ _ _)).bind fun _ _ _ => ?_
  exact PA.pure trivial

theorem alike_verifyMacs : PA (SS (G := G) (V := V)) Any (verifyMacs H me) (verifyMacs H me) := by
  refine PA.get.bind fun s t hst => ?_
  have e : s.verifyQueue.isEmpty = t.verifyQueue.isEmpty := by
    rw [Bool.eq_iff_iff, List.isEmpty_iff_length_eq_zero, List.isEmpty_iff_length_eq_zero, show _ = _ from hst.1]
  rw [e]
  split
  · exact PA.pure trivial
  · exact alike_macZero.bind fun _ _ _ => PA.net Alike.hashZeroVerify

theorem swapBitC_length (l : List (BitVec 128)) (i j : Nat) : (swapBitC l i j).length = l.length := by simp [swapBitC]

theorem swapBit_len {x y : List (AShare 128)} {i j i' j' : Nat} (h : SL x y) : SL (swapBit x i j) (swapBit y i' j') := by
  have e : ∀ (z : List (AShare 128)) i j, (swapBit z i j).length = z.length := fun z i j => by
    simp [swapBit, AShare.mapLists, swapBitC_length]
  rw [SL, e, e]; exact h

theorem permuteLoop_len : ∀ (n j : Nat) (s s' : G.S) {t u : List (AShare 128) × List (AShare 128) × List (AShare 128)},
    SL t.1 u.1 ∧ SL t.2.1 u.2.1 ∧ SL t.2.2 u.2.2 →
      SL (permuteLoop G n j s t).1 (permuteLoop G n j s' u).1 ∧ SL (permuteLoop G n j s t).2.1 (permuteLoop G n j s' u).2.1 ∧
        SL (permuteLoop G n j s t).2.2 (permuteLoop G n j s' u).2.2
  | 0, _, _, _, _, _, h => h
  | n + 1, j, s, s', (_, _, _), (_, _, _), h =>
      permuteLoop_len n (j + 1) _ _ ⟨swapBit_len h.1, swapBit_len h.2.1, swapBit_len h.2.2⟩

theorem alike_permute {a b c a' b' c' : List (AShare 128)} (ha : SL a a') (hb : SL b b') (hc : SL c c') :
    PA (SS (G := G) (V := V)) (fun x y => SL x.1 y.1 ∧ SL x.2.1 y.2.1 ∧ SL x.2.2 y.2.2) (permute me a b c) (permute me a' b' c') := by
  unfold permute
  rw [show a.length = a'.length from ha]
  exact PA.guard fun _ _ => (alike_viaJmp Jmp.alike_coin).bind fun _ _ _ => PA.pure (permuteLoop_len _ _ _ _ ⟨ha, hb, hc⟩)

theorem alike_openBinMany {a a' : List (AShare K)} (h : SL a a') :
    PA (SS (G := G) (V := V)) SL (openBinMany me a) (openBinMany me a') :=
  (PA.net (Alike.sendSliceAndReceiveIter (SL.map h))).bind fun _ _ hr => PA.pure (SL.zipWith h hr.2)

theorem alike_jmpOpenBinMany {a a' : List (AShare K)} (h : SL a a') :
    PA (SS (G := G) (V := V)) SL (jmpOpenBinMany H me a) (jmpOpenBinMany H me a') :=
  (alike_viaJmp (Jmp.alike_sendReceiveMany _ _ (SL.map h))).bind fun _ _ hr => (alike_viaJmp Jmp.alike_verify).bind fun _ _ _ =>
    PA.pure (SL.zipWith h hr.2)

theorem alike_verifyTriples {a b c x y z a' b' c' x' y' z' : List (AShare 128)} (ha : SL a a') (hb : SL b b') (hx : SL x x')
    (hy : SL y y') : PA (SS (G := G) (V := V)) Any (verifyTriples H me a b c x y z) (verifyTriples H me a' b' c' x' y' z') := by
  refine PA.bind (R := Any) ?_ fun _ _ _ => PA.net Alike.digests
  exact PA.guard fun _ _ => (alike_jmpOpenBinMany (SL.append (SL.zipWith ha hx) (SL.zipWith hb hy))).bind fun _ _ _ => PA.pure trivial

theorem alike_generateTriples (num : Nat) :
    PA (SS (G := G) (V := V)) Triples.SameSize (generateTriples H me num) (generateTriples H me num) := by
  unfold generateTriples
  dsimp only
  generalize max num minTriples = n
  refine (alike_viaJmp (Jmp.alike_genRandMany _)).bind fun a a' ha => (alike_viaJmp (Jmp.alike_genRandMany _)).bind fun b b' hb => ?_
  have ha : SL a a' := ha.1.trans ha.2.symm
  have hb : SL b b' := hb.1.trans hb.2.symm
  refine (alike_viaAby (Aby3.alike_andMany ha hb)).bind fun c c' hc => ?_
  refine (alike_permute (SL.drop n ha) (SL.drop n hb) (SL.drop n hc)).bind ?_
  rintro ⟨xs, ys, zs⟩ ⟨xs', ys', zs'⟩ ⟨hx, hy, hz⟩
  refine (PA.popLen hx).bind ?_
  rintro ⟨_, _⟩ ⟨_, _⟩ hx
  refine (PA.popLen hy).bind ?_
  rintro ⟨_, _⟩ ⟨_, _⟩ hy
  refine (PA.popLen hz).bind ?_
  rintro ⟨_, _⟩ ⟨_, _⟩ hz
  refine (alike_openBinMany (a := [_, _, _]) (a' := [_, _, _]) (by rfl)).bind fun _ _ _ => ?_
  refine PA.idxAny.bind fun _ _ _ => PA.idxAny.bind fun _ _ _ => PA.idxAny.bind fun _ _ _ => PA.guard fun _ _ => ?_
  refine (alike_verifyTriples (SL.take n ha) (SL.take n hb) hx hy).bind fun _ _ _ => PA.lift fun r r' hr hr' => ?_
  unfold Triples.new at hr hr'
  split at hr
  · cases hr
  · split at hr'
    · cases hr'
    · cases hr; cases hr'; exact ⟨SL.take n ha, SL.take n hb, SL.take n hc, rfl⟩

theorem alike_verifyTripleQueue : PA (SS (G := G) (V := V)) Any (verifyTripleQueue H me) (verifyTripleQueue H me) := by
  refine PA.get.bind fun s t hst => ?_
  have e : s.buffer.len = t.buffer.len := hst.2.2.1
  dsimp only
  rw [e]
  generalize t.buffer.len = len
  split
  · exact PA.pure trivial
  refine (PA.step (R := fun x y => SL x.1 y.1 ∧ SL x.2.1 y.2.1 ∧ SL x.2.2 y.2.2) fun s t h => ?_).bind ?_
  · exact ⟨⟨h.2.2.1, h.2.2.2.1, h.2.2.2.2.1⟩, h.1, h.2.1, rfl, rfl, rfl, rfl⟩
  rintro ⟨a, b, c⟩ ⟨a', b', c'⟩ ⟨ha, hb, hc⟩
  refine PA.get.bind fun s t hst => ?_
  refine (PA.lift (R := fun x y => (SL x.1.1 y.1.1 ∧ SL x.1.2.1 y.1.2.1 ∧ SL x.1.2.2 y.1.2.2) ∧ x.2.SameSize y.2)
    fun r r' hr hr' => ?_).bind ?_
  · obtain ⟨h1, h2, h3, h4⟩ := hst.2.1
    unfold Triples.get at hr hr'
    split at hr
    · cases hr
    · split at hr'
      · cases hr'
      · cases hr; cases hr'
        exact ⟨⟨SL.take _ h1, SL.take _ h2, SL.take _ h3⟩, SL.drop _ h1, SL.drop _ h2, SL.drop _ h3, rfl⟩
  rintro ⟨⟨x, y, z⟩, p⟩ ⟨⟨x', y', z'⟩, p'⟩ ⟨⟨hx, hy, hz⟩, hp⟩
  refine (PA.step (R := Any) fun s t h => ⟨trivial, h.1, hp, h.2.2⟩).bind fun _ _ _ => ?_
  refine (alike_permute hx hy hz).bind ?_
  rintro ⟨x, y, z⟩ ⟨x', y', z'⟩ ⟨hx, hy, hz⟩
  split
  · exact alike_verifyTriples ha hb (SL.take _ hx) (SL.take _ hy)
  · exact alike_verifyTriples ha hb hx hy

theorem alike_precompute (n : Nat) : PA (SS (G := G) (V := V)) Any (precompute H me n) (precompute H me n) := by
  refine PA.get.bind fun s t hst => ?_
  have e : s.prec.len = t.prec.len := hst.2.1.1
  dsimp only
  rw [e]
  split
  · refine (alike_generateTriples _).bind fun new new' hn => PA.get.bind fun s t hst => ?_
    refine (PA.lift (R := Triples.SameSize) fun r r' hr hr' => ?_).bind fun _ _ hp => ?_
    · obtain ⟨h1, h2, h3, h4⟩ := hst.2.1
      unfold Triples.extend at hr hr'
      split at hr
      · cases hr
      · split at hr'
        · cases hr'
        · cases hr; cases hr'
          exact ⟨SL.append h1 hn.1, SL.append h2 hn.2.1, SL.append h3 hn.2.2.1, h4⟩
    exact PA.step fun s t h => ⟨trivial, h.1, hp, h.2.2⟩
  · exact PA.pure trivial

theorem alike_and (a b a' b' : AShare K) : PA (SS (G := G) (V := V)) Any (and me a b) (and me a' b') := by
  refine (alike_viaAby (Aby3.alike_and a b a' b')).bind fun c c' _ => PA.get.bind fun s t hst => ?_
  refine (PA.lift (R := Triples.SameSize) fun r r' hr hr' => Triples.alike_addT hst.2.2 hr hr').bind fun _ _ hb => ?_
  exact PA.step fun s t h => ⟨trivial, h.1, h.2.1, hb⟩

theorem alike_andMany {a b a' b' : List (AShare K)} (h : SL a a') (h' : SL b b') :
    PA (SS (G := G) (V := V)) SL (andMany me a b) (andMany me a' b') := by
  refine (alike_viaAby (Aby3.alike_andMany h h')).bind fun c c' hc => PA.get.bind fun s t hst => ?_
  refine (PA.lift (R := Triples.SameSize) fun r r' hr hr' =>
    Triples.alike_addLoop (SL.zip (SL.zip h h') hc) hst.2.2 hr hr').bind fun _ _ hb => ?_
  exact PA.step fun s t h => ⟨hc, h.1, h.2.1, hb⟩

theorem fam_alike : FamAlike (SS (G := G) (V := V)) (fam G V me) where
  ops _ := ⟨fun a b a' b' => alike_and a b a' b', fun h h' => alike_andMany h h'⟩
  mapLists g hg _ _ h := Aby3.mapLists_len g hg h

theorem alike_maskedDotLoop {a a' : List (SShare V)} : ∀ {x y : List (List (SShare V) × IrisCodeArray)}, SL x y →
    PA (SS (G := G)) (fun u v => SL u.1 v.1 ∧ SL u.2 v.2) (maskedDotLoop a x) (maskedDotLoop a' y)
  | [], [], _ => PA.pure ⟨rfl, rfl⟩
  | [], _ :: _, h => by simp [SL] at h
  | _ :: _, [], h => by simp [SL] at h
  | (_, _) :: x, (_, _) :: y, h =>
      (alike_viaAby Aby3.alike_zero).bind fun _ _ _ => (alike_viaAby Aby3.alike_zero).bind fun _ _ _ =>
        (alike_maskedDotLoop (x := x) (y := y) (by simpa [SL] using h)).bind fun
          | (_, _), (_, _), hr => PA.pure (by simpa [SL] using hr)

theorem alike_dotLoop : ∀ {x y : List (List (SShare V) × List (SShare V))}, SL x y →
    PA (SS (G := G)) (fun u v => SL u.1 v.1 ∧ SL u.2 v.2) (dotLoop x) (dotLoop y)
  | [], [], _ => PA.pure ⟨rfl, rfl⟩
  | [], _ :: _, h => by simp [SL] at h
  | _ :: _, [], h => by simp [SL] at h
  | (_, _) :: x, (_, _) :: y, h => PA.guard fun _ _ =>
      (alike_viaAby Aby3.alike_zero).bind fun _ _ _ => (alike_viaAby Aby3.alike_zero).bind fun _ _ _ =>
        (alike_dotLoop (x := x) (y := y) (by simpa [SL] using h)).bind fun
          | (_, _), (_, _), hr => PA.pure (by simpa [SL] using hr)

theorem alike_exchange {x y x' y' : List (BitVec K)} (h : SL x x') (h' : SL y y') :
    Alike (fun a b => SL a.1 b.1 ∧ SL a.2 b.2) (sendSlicesAndReceiveIters me x y) (sendSlicesAndReceiveIters me x' y') := by
  refine .send (Alike.slice_len h) (.send (Alike.slice_len h') (.recv fun _ _ => .recv fun _ _ => ?_))
  refine (Alike.ofExcept (R := SL) fun _ _ ha hb => (Alike.iter_len ha).trans (Eq.trans h (Alike.iter_len hb).symm)).bind
    fun _ _ h1 => ?_
  refine (Alike.ofExcept (R := SL) fun _ _ ha hb => (Alike.iter_len ha).trans (Eq.trans h' (Alike.iter_len hb).symm)).bind
    fun _ _ h2 => ?_
  exact .ret ⟨h1, h2⟩

theorem alike_reshareQueue {x y x' y' : List (BitVec V)} (h : SL x x') (h' : SL y y') :
    PA (SS (G := G)) SL (reshareQueue me x y) (reshareQueue me x' y') := by
  refine (PA.net (alike_exchange h h')).bind ?_
  rintro ⟨_, _⟩ ⟨_, _⟩ ⟨h1, h2⟩
  have := SL.zipWith (f := fun (p q : BitVec V × BitVec V) => SShare.mk ⟨p.1, q.1⟩ ⟨p.2, q.2⟩)
    (g := fun (p q : BitVec V × BitVec V) => SShare.mk ⟨p.1, q.1⟩ ⟨p.2, q.2⟩) (SL.zip h h') (SL.zip h1 h2)
  exact (alike_queueAll this).bind fun _ _ _ => PA.pure this

theorem alike_maskedDotMany {a a' : List (SShare V)} {b b' : List (List (SShare V))} {m m' : List IrisCodeArray}
    (h : SL b b') (h' : SL m m') : PA (SS (G := G)) SL (maskedDotMany me a b m) (maskedDotMany me a' b' m') :=
  PA.guard fun _ _ => (alike_maskedDotLoop (SL.zip h h')).bind fun
    | (_, _), (_, _), hr => alike_reshareQueue hr.1 hr.2

theorem alike_dotMany {a b a' b' : List (List (SShare V))} (h : SL a a') (h' : SL b b') :
    PA (SS (G := G)) SL (dotMany me a b) (dotMany me a' b') :=
  PA.guard fun _ _ => (alike_dotLoop (SL.zip h h')).bind fun
    | (_, _), (_, _), hr => alike_reshareQueue hr.1 hr.2

theorem alike_mul (a b a' b' : SShare V) : PA (SS (G := G)) Any (mul me a b) (mul me a' b') := by
  refine (alike_viaAby (Aby3.alike_mulMany (a := [_, _]) (b := [_, _]) (a' := [_, _]) (b' := [_, _]) (by rfl) (by rfl))).bind
    fun _ _ _ => ?_
  exact PA.idxAny.bind fun _ _ _ => PA.idxAny.bind fun _ _ _ => (alike_queueAll (by rfl)).bind fun _ _ _ => PA.pure trivial

theorem alike_open (a a' : SShare V) : PA (SS (G := G)) Any (openShare H K me a) (openShare H K me a') :=
  (alike_queueAll (by rfl)).bind fun _ _ _ => alike_verifyMacs.bind fun _ _ _ =>
    (alike_viaAby (Aby3.alike_open _ _)).bind fun _ _ _ => PA.pure trivial

theorem alike_openMany {a a' : List (SShare V)} (h : SL a a') : PA (SS (G := G)) SL (openMany H K me a) (openMany H K me a') :=
  (alike_queueAll h).bind fun _ _ _ => alike_verifyMacs.bind fun _ _ _ =>
    (alike_viaAby (Aby3.alike_openMany (SL.map h))).bind fun _ _ hr => PA.pure (SL.map hr)

theorem alike_getMsb (a a' : SShare V) : PA (SS (G := G)) Any (getMsb H K me a) (getMsb H K me a') :=
  (alike_queueAll (by rfl)).bind fun _ _ _ => alike_verifyMacs.bind fun _ _ _ =>
    ((fam_alike.ops K).binaryAdd3 K _ _ _ _ _ _).bind fun _ _ _ => PA.pure trivial

theorem alike_getMsbMany {a a' : List (SShare V)} (h : SL a a') : PA (SS (G := G)) SL (getMsbMany H K me a) (getMsbMany H K me a') :=
  (alike_queueAll h).bind fun _ _ _ => alike_verifyMacs.bind fun _ _ _ =>
    fam_alike.msbAdderMany (SL.map (SL.map h)) (SL.map (SL.map h)) (SL.map (SL.map h))

theorem ops_alike (signed : Bool) : OpsAlike (SS (G := G)) (ops G H K signed me) where
  maskedDotMany _ hb hm := alike_maskedDotMany hb.len hm
  getMsb := alike_getMsb
  getMsbMany := alike_getMsbMany
  reduceBinaryOr n h := fam_alike.reduceBinaryOr n h
  precompute n := alike_precompute n
  verify := alike_verifyMacs.bind fun _ _ _ => alike_verifyTripleQueue
  openBit a a' := alike_viaJmp (Jmp.alike_openBit a a')

end Spdz

end Verif
