import Verif.Proof.AlikeInst
import Verif.Model.Swift3InputAll
import Verif.Spec.Traffic3

/-!
# Same traffic: the Swift3 backend, without the verification of the proofs
-/

set_option linter.unusedSectionVars false

namespace Verif

namespace Alike

theorem netSend {me : Party} {id : Nat} {m m' : Bytes} (h : m.length = m'.length) :
    Alike (Any : Unit → Unit → Prop) (Verif.netSend me id m) (Verif.netSend me id m') := by
  unfold Verif.netSend
  split
  · exact .send h (.ret trivial)
  · split
    · exact .send h (.ret trivial)
    · exact .failL

theorem netRecv {me : Party} {id : Nat} : Alike (Any : Bytes → Bytes → Prop) (Verif.netRecv me id) (Verif.netRecv me id) := by
  unfold Verif.netRecv
  split
  · exact .recv fun _ _ => .ret trivial
  · split
    · exact .recv fun _ _ => .ret trivial
    · exact .failL

end Alike

namespace Swift3

variable {G : Prg} {K L : Nat} {me : Party} {H : Hash}

/-- Relations between states that are kept as long as equally many gates are registered on both sides. -/
class Counts (S : S3St G K → S3St G K → Prop) : Prop where
  grow : ∀ {s t s' t' : S3St G K} (a b c : Nat), S s t →
    s'.mulProof.getMuls = s.mulProof.getMuls + a → s'.andProof.getMuls = s.andProof.getMuls + b →
    s'.dotProof.getMuls = s.dotProof.getMuls + c → t'.mulProof.getMuls = t.mulProof.getMuls + a →
    t'.andProof.getMuls = t.andProof.getMuls + b → t'.dotProof.getMuls = t.dotProof.getMuls + c → S s' t'

instance : Counts (G := G) (K := K) (fun _ _ => True) := ⟨fun _ _ _ _ _ _ _ _ _ _ => trivial⟩

instance : Counts (G := G) (K := K) SameKinds :=
  ⟨fun a b c h h1 h2 h3 h4 h5 h6 => by
    obtain ⟨x, y, z⟩ := h
    unfold ZProof.getMuls at h1 h2 h4 h5
    unfold DProof.getMuls at h3 h6
    exact ⟨by omega, by omega, by omega⟩⟩

variable {S : S3St G K → S3St G K → Prop} [Counts S]

theorem alike_step {α : Type} {f g : S3St G K → α × S3St G K} (hf : ∀ s, (f s).2.mulProof = s.mulProof ∧
    (f s).2.andProof = s.andProof ∧ (f s).2.dotProof = s.dotProof) (hg : ∀ s, (g s).2.mulProof = s.mulProof ∧
    (g s).2.andProof = s.andProof ∧ (g s).2.dotProof = s.dotProof) {R : α → α → Prop} (hr : ∀ s t, S s t → R (f s).1 (g t).1) :
    PA S R (Proto.step f) (Proto.step g) :=
  PA.step fun s t h => ⟨hr s t h, Counts.grow 0 0 0 h (by rw [(hf s).1]; rfl) (by rw [(hf s).2.1]; rfl) (by rw [(hf s).2.2]; rfl)
    (by rw [(hg t).1]; rfl) (by rw [(hg t).2.1]; rfl) (by rw [(hg t).2.2]; rfl)⟩

/-- A step that does not touch the registered gates. -/
macro "astep" : term => `(alike_step (fun _ => ⟨rfl, rfl, rfl⟩) (fun _ => ⟨rfl, rfl, rfl⟩) (fun _ _ _ => trivial))

theorem alike_gen1 : PA S Any (gen1 L) (gen1 L) := astep
theorem alike_gen2 : PA S Any (gen2 L) (gen2 L) := astep
theorem alike_genP : PA S Any (genP L) (genP L) := astep

theorem alike_genZ : PA S Any (genForZeroShare L) (genForZeroShare L) :=
  alike_gen1.bind fun _ _ _ => alike_gen2.bind fun _ _ _ => PA.pure trivial

/-! ## Joint message passing -/

theorem alike_jmpSend {x y : BitVec L} {id : Nat} : PA S Any (jmpSend me x id) (jmpSend me y id) :=
  PA.net (Alike.netSend (by simp))

theorem alike_jmpSendMany {x y : List (BitVec L)} {id : Nat} (h : SL x y) :
    PA S Any (jmpSendMany me x id) (jmpSendMany me y id) := PA.net (Alike.netSend (Alike.slice_len h))

theorem alike_sendValue {x y : BitVec L} {id : Nat} :
    PA S Any (Proto.net (sendValue me x id)) (Proto.net (sendValue me y id)) :=
  PA.net (Alike.netSend (by simp))

theorem alike_receiveValue {id : Nat} :
    PA S Any (Proto.net (receiveValue L me id)) (Proto.net (receiveValue L me id)) :=
  PA.net (Alike.netRecv.bind fun _ _ _ => .ofExcept fun _ _ _ _ => trivial)

theorem alike_jmpQueue {x y : BitVec L} {id : Nat} : PA S Any (jmpQueue me x id) (jmpQueue me y id) := by
  unfold jmpQueue
  split
  · exact astep
  · split
    · exact astep
    · exact PA.throwL

theorem alike_jmpQueueMany {x y : List (BitVec L)} {id : Nat} :
    PA S Any (jmpQueueMany me x id) (jmpQueueMany me y id) := by
  unfold jmpQueueMany
  split
  · exact astep
  · split
    · exact astep
    · exact PA.throwL

theorem alike_jmpReceive {id : Nat} : PA S Any (jmpReceive L me id) (jmpReceive L me id) := by
  refine alike_receiveValue.bind fun _ _ _ => ?_
  split
  · exact astep
  · split
    · exact astep
    · exact PA.throwL

theorem alike_jmpReceiveMany {id len : Nat} : PA S (fun a b => a.length = len ∧ b.length = len)
    (jmpReceiveMany L me id len) (jmpReceiveMany L me id len) := by
  refine (PA.net (R := fun a b => a.length = len ∧ b.length = len) (Alike.netRecv.bind fun _ _ _ =>
    .ofExcept fun _ _ ha hb => ⟨Alike.vec_len ha, Alike.vec_len hb⟩)).bind fun _ _ h => ?_
  split
  · exact alike_step (fun _ => ⟨rfl, rfl, rfl⟩) (fun _ => ⟨rfl, rfl, rfl⟩) fun _ _ _ => h
  · split
    · exact alike_step (fun _ => ⟨rfl, rfl, rfl⟩) (fun _ => ⟨rfl, rfl, rfl⟩) fun _ _ _ => h
    · exact PA.throwL

theorem alike_jmpVerify : PA S Any (jmpVerify H me) (jmpVerify H me) := by
  refine (alike_step (R := fun a b => SL a.1 b.1 ∧ SL a.2.1 b.2.1) (fun _ => ⟨rfl, rfl, rfl⟩) (fun _ => ⟨rfl, rfl, rfl⟩) fun _ _ _ =>
    ⟨by simp only [SL, H.len], by simp only [SL, H.len]⟩).bind ?_
  rintro ⟨a, b, c, d⟩ ⟨a', b', c', d'⟩ ⟨h, h'⟩
  refine (PA.net (Alike.netSend h)).bind fun _ _ _ => (PA.net (Alike.netSend h')).bind fun _ _ _ => ?_
  refine (PA.net Alike.netRecv).bind fun _ _ _ => (PA.net Alike.netRecv).bind fun _ _ _ => ?_
  exact PA.guard fun _ _ => PA.pure trivial

/-! ## Joint sharing -/

theorem alike_jshare {mix : BitVec L → BitVec L → BitVec L → BitVec L} {i i' : Option (BitVec L)} {s1 s2 r : Nat} :
    PA S Any (jshareWith mix me i s1 s2 r) (jshareWith mix me i' s1 s2 r) := by
  refine PA.guard fun _ _ => alike_genP.bind fun _ _ _ => ?_
  split
  · exact alike_gen1.bind fun _ _ _ => alike_jmpSend.bind fun _ _ _ => PA.pure trivial
  · split
    · exact alike_gen2.bind fun _ _ _ => alike_jmpQueue.bind fun _ _ _ => PA.pure trivial
    · split
      · exact alike_jmpReceive.bind fun _ _ _ => PA.pure trivial
      · exact PA.throwL

theorem alike_jshareLoop1 {mix : BitVec L → BitVec L → BitVec L → BitVec L} : ∀ {x y : List (BitVec L)}, SL x y →
    PA S (fun a b => SL a b ∧ a.length = x.length) (jshareLoop1 mix x) (jshareLoop1 mix y)
  | [], [], _ => PA.pure ⟨rfl, rfl⟩
  | [], _ :: _, h => by simp [SL] at h
  | _ :: _, [], h => by simp [SL] at h
  | _ :: x, _ :: y, h =>
      alike_genP.bind fun _ _ _ => alike_gen1.bind fun _ _ _ =>
        (alike_jshareLoop1 (x := x) (y := y) (by simpa [SL] using h)).bind fun _ _ hr =>
          PA.pure ⟨by simpa [SL] using hr.1, by simpa using hr.2⟩

theorem alike_jshareLoop2 {mix : BitVec L → BitVec L → BitVec L → BitVec L} : ∀ {x y : List (BitVec L)}, SL x y →
    PA S (fun a b => SL a b ∧ a.length = x.length) (jshareLoop2 mix x) (jshareLoop2 mix y)
  | [], [], _ => PA.pure ⟨rfl, rfl⟩
  | [], _ :: _, h => by simp [SL] at h
  | _ :: _, [], h => by simp [SL] at h
  | _ :: x, _ :: y, h =>
      alike_genP.bind fun _ _ _ => alike_gen2.bind fun _ _ _ =>
        (alike_jshareLoop2 (x := x) (y := y) (by simpa [SL] using h)).bind fun _ _ hr =>
          PA.pure ⟨by simpa [SL] using hr.1, by simpa using hr.2⟩

theorem alike_jshareLoopR : ∀ {x y : List (BitVec L)}, SL x y →
    PA S (fun a b => SL a b ∧ a.length = x.length) (jshareLoopR x) (jshareLoopR y)
  | [], [], _ => PA.pure ⟨rfl, rfl⟩
  | [], _ :: _, h => by simp [SL] at h
  | _ :: _, [], h => by simp [SL] at h
  | _ :: x, _ :: y, h =>
      alike_genP.bind fun _ _ _ => (alike_jshareLoopR (x := x) (y := y) (by simpa [SL] using h)).bind fun _ _ hr =>
        PA.pure ⟨by simpa [SL] using hr.1, by simpa using hr.2⟩

/-- The inputs may even have different lengths: the function compares them with the length it is given. -/
theorem alike_jshareMany {mix : BitVec L → BitVec L → BitVec L → BitVec L} {i i' : Option (List (BitVec L))}
    {s1 s2 r len : Nat} :
    PA S (fun a b => a.length = len ∧ b.length = len) (jshareManyWith mix me i s1 s2 r len)
      (jshareManyWith mix me i' s1 s2 r len) := by
  refine PA.guard fun _ _ => ?_
  split
  · refine PA.guard fun h h' => ?_
    push Not at h h'
    refine (alike_jshareLoop1 (h.trans h'.symm)).bind fun _ _ hr => ?_
    refine (alike_jmpSendMany (SL.map hr.1)).bind fun _ _ _ => PA.pure ?_
    have := hr.1
    simp only [SL] at this
    simp only [List.length_map]
    omega
  · split
    · refine PA.guard fun h h' => ?_
      push Not at h h'
      refine (alike_jshareLoop2 (h.trans h'.symm)).bind fun _ _ hr => ?_
      refine alike_jmpQueueMany.bind fun _ _ _ => PA.pure ?_
      have := hr.1
      simp only [SL] at this
      simp only [List.length_map]
      omega
    · split
      · refine alike_jmpReceiveMany.bind fun _ _ h => ?_
        refine (alike_jshareLoopR (h.1.trans h.2.symm)).mono fun _ _ hr => ?_
        have := hr.1
        simp only [SL] at this
        omega
      · exact PA.throwL

/-! ## Products -/

theorem muls_mul (z : ZProof (BitVec K)) (a b r s : AShare K) : (z.registerMul a b r s).getMuls = z.getMuls + 1 := by
  simp [ZProof.registerMul, ZProof.push, ZProof.getMuls]

theorem muls_andLoop : ∀ (n : Nat) (z : ZProof Bool) (a0 a1 b0 b1 r0 r1 s0 s1 : BitVec L),
    (ZProof.registerAndLoop n z a0 a1 b0 b1 r0 r1 s0 s1).getMuls = z.getMuls + n
  | 0, _, _, _, _, _, _, _, _, _ => rfl
  | n + 1, z, _, _, _, _, _, _, _, _ => by
      rw [ZProof.registerAndLoop, muls_andLoop n]
      simp [ZProof.registerBit, ZProof.push, ZProof.getMuls]; omega

theorem muls_and (z : ZProof Bool) (a b r s : AShare L) : (z.registerAnd a b r s).getMuls = z.getMuls + L := muls_andLoop _ _ _ _ _ _ _ _ _ _

theorem muls_dot (z : DProof K) (ps : List (AShare K × AShare K)) (r s : AShare K) :
    (z.registerDot ps r s).getMuls = z.getMuls + 1 := by
  simp [DProof.registerDot, DProof.getMuls]

theorem muls_ands : ∀ (gs : List (((AShare L × AShare L) × AShare L) × AShare L)) (z : ZProof Bool),
    (registerAnds z gs).getMuls = z.getMuls + L * gs.length
  | [], _ => rfl
  | g :: gs, z => by
      show (registerAnds (z.registerAnd g.1.1.1 g.1.1.2 g.2 g.1.2) gs).getMuls = _
      rw [muls_ands gs, muls_and, List.length_cons, Nat.mul_succ]; omega

theorem muls_dots : ∀ (gs : List ((List (AShare K × AShare K) × AShare K) × AShare K)) (z : DProof K),
    (registerDots z gs).getMuls = z.getMuls + gs.length
  | [], _ => rfl
  | g :: gs, z => by
      show (registerDots (z.registerDot g.1.1 g.2 g.1.2) gs).getMuls = _
      rw [muls_dots gs, muls_dot, List.length_cons]; omega

theorem alike_abyMul (a b a' b' : AShare K) : PA S Any (abyMul me a b) (abyMul me a' b') :=
  alike_genZ.bind fun _ _ _ => (PA.net Alike.sendAndReceiveValue).bind fun _ _ _ =>
    PA.step fun _ _ h => ⟨trivial, Counts.grow 1 0 0 h (muls_mul ..) rfl rfl (muls_mul ..) rfl rfl⟩

theorem alike_abyAnd (a b a' b' : AShare L) : PA S Any (abyAnd me a b) (abyAnd me a' b') :=
  alike_genZ.bind fun _ _ _ => (PA.net Alike.sendAndReceiveValue).bind fun _ _ _ =>
    PA.step fun _ _ h => ⟨trivial, Counts.grow 0 L 0 h rfl (muls_and ..) rfl rfl (muls_and ..) rfl⟩

theorem alike_abyDot (a b a' b' : List (AShare K)) : PA S Any (abyDot me a b) (abyDot me a' b') :=
  alike_genZ.bind fun _ _ _ => (PA.net Alike.sendAndReceiveValue).bind fun _ _ _ =>
    PA.step fun _ _ h => ⟨trivial, Counts.grow 0 0 1 h rfl rfl (muls_dot ..) rfl rfl (muls_dot ..)⟩

theorem alike_abyAndLoop : ∀ {x y : List (AShare L × AShare L)}, SL x y →
    PA S SL (abyAndLoop x) (abyAndLoop y)
  | [], [], _ => PA.pure rfl
  | [], _ :: _, h => by simp [SL] at h
  | _ :: _, [], h => by simp [SL] at h
  | (_, _) :: x, (_, _) :: y, h =>
      alike_genZ.bind fun _ _ _ => (alike_abyAndLoop (x := x) (y := y) (by simpa [SL] using h)).bind fun _ _ hr =>
        PA.pure (by simpa [SL] using hr)

theorem alike_abyDotLoop : ∀ {x y : List (List (AShare K) × List (AShare K))}, SL x y →
    PA S SL (abyDotLoop x) (abyDotLoop y)
  | [], [], _ => PA.pure rfl
  | [], _ :: _, h => by simp [SL] at h
  | _ :: _, [], h => by simp [SL] at h
  | (_, _) :: x, (_, _) :: y, h =>
      alike_genZ.bind fun _ _ _ => (alike_abyDotLoop (x := x) (y := y) (by simpa [SL] using h)).bind fun _ _ hr =>
        PA.pure (by simpa [SL] using hr)

theorem alike_abyAndMany {a b a' b' : List (AShare L)} (h : SL a a') (h' : SL b b') :
    PA S SL (abyAndMany me a b) (abyAndMany me a' b') :=
  (alike_abyAndLoop (SL.zip h h')).bind fun _ _ hr =>
    (PA.net (Alike.sendSliceAndReceiveVec (SL.map hr))).bind fun _ _ hs =>
      PA.step fun _ _ hst => ⟨SL.zipWith (SL.map hr) hs.2, Counts.grow 0 _ 0 hst rfl (muls_ands ..) rfl rfl
        ((muls_ands ..).trans (by rw [show SL _ _ from SL.zip (SL.zip (SL.zip h h') (SL.zipWith (SL.map hr) hs.2)) (SL.map hr)])) rfl⟩

theorem alike_abyDotMany {a b a' b' : List (List (AShare K))} (h : SL a a') (h' : SL b b') :
    PA S SL (abyDotMany me a b) (abyDotMany me a' b') :=
  (alike_abyDotLoop (SL.zip h h')).bind fun _ _ hr =>
    (PA.net (Alike.sendSliceAndReceiveVec (SL.map hr))).bind fun _ _ hs =>
      PA.step fun _ _ hst => ⟨SL.zipWith (SL.map hr) hs.2, Counts.grow 0 0 _ hst rfl rfl (muls_dots ..) rfl rfl
        ((muls_dots ..).trans (by rw [show SL _ _ from SL.zip (SL.zip (SL.map (SL.zip h h')) (SL.zipWith (SL.map hr) hs.2)) (SL.map hr)]))⟩

theorem alike_postArith (p p' : Post K) : PA S Any (postArith me p) (postArith me p') := by
  fin_cases me
  · exact alike_jmpSend.bind fun _ _ _ => alike_jmpSend.bind fun _ _ _ => alike_jshare.bind fun _ _ _ => PA.pure trivial
  · exact alike_jmpQueue.bind fun _ _ _ => alike_jmpReceive.bind fun _ _ _ => alike_jshare.bind fun _ _ _ => PA.pure trivial
  · exact alike_jmpQueue.bind fun _ _ _ => alike_jmpReceive.bind fun _ _ _ => alike_jshare.bind fun _ _ _ => PA.pure trivial

theorem alike_postBinary (p p' : Post L) : PA S Any (postBinary me p) (postBinary me p') := by
  fin_cases me
  · exact alike_jmpSend.bind fun _ _ _ => alike_jmpSend.bind fun _ _ _ => alike_jshare.bind fun _ _ _ => PA.pure trivial
  · exact alike_jmpQueue.bind fun _ _ _ => alike_jmpReceive.bind fun _ _ _ => alike_jshare.bind fun _ _ _ => PA.pure trivial
  · exact alike_jmpQueue.bind fun _ _ _ => alike_jmpReceive.bind fun _ _ _ => alike_jshare.bind fun _ _ _ => PA.pure trivial

theorem alike_postMany {mix comb : BitVec L → BitVec L → BitVec L} {jmix : BitVec L → BitVec L → BitVec L → BitVec L}
    {out : S3Share L → S3Share L → S3Share L} {ps ps' : List (Post L)} {len : Nat} (h : SL ps ps') :
    PA S SL (postManyWith mix comb jmix out me ps len) (postManyWith mix comb jmix out me ps' len) := by
  fin_cases me
  · exact (alike_jmpSendMany (SL.map h)).bind fun _ _ _ => (alike_jmpSendMany (SL.map h)).bind fun _ _ _ =>
      alike_jshareMany.bind fun _ _ hr => PA.pure (SL.zipWith (hr.1.trans hr.2.symm) (SL.map h))
  · exact alike_jmpQueueMany.bind fun _ _ _ => alike_jmpReceiveMany.bind fun _ _ _ =>
      alike_jshareMany.bind fun _ _ hr => PA.pure (SL.zipWith (hr.1.trans hr.2.symm) (SL.map h))
  · exact alike_jmpQueueMany.bind fun _ _ _ => alike_jmpReceiveMany.bind fun _ _ _ =>
      alike_jshareMany.bind fun _ _ hr => PA.pure (SL.zipWith (hr.1.trans hr.2.symm) (SL.map h))

theorem alike_local (a b a' b' : S3Share L) (d d' : AShare L) :
    PA S Any (andPostLocal a b d) (andPostLocal a' b' d') :=
  alike_gen1.bind fun _ _ _ => alike_gen2.bind fun _ _ _ => PA.pure trivial

theorem alike_dotLocal (a b a' b' : List (S3Share K)) (d d' : AShare K) :
    PA S Any (dotPostLocal a b d) (dotPostLocal a' b' d') :=
  alike_gen1.bind fun _ _ _ => alike_gen2.bind fun _ _ _ => PA.pure trivial

theorem alike_andPostLoop : ∀ {x y : List (AShare L × (S3Share L × S3Share L))}, SL x y →
    PA S SL (andPostLoop x) (andPostLoop y)
  | [], [], _ => PA.pure rfl
  | [], _ :: _, h => by simp [SL] at h
  | _ :: _, [], h => by simp [SL] at h
  | (_, (_, _)) :: x, (_, (_, _)) :: y, h =>
      (alike_local _ _ _ _ _ _).bind fun _ _ _ => (alike_andPostLoop (x := x) (y := y) (by simpa [SL] using h)).bind
        fun _ _ hr => PA.pure (by simpa [SL] using hr)

theorem alike_dotPostLoop : ∀ {x y : List (AShare K × (List (S3Share K) × List (S3Share K)))}, SL x y →
    PA S SL (dotPostLoop x) (dotPostLoop y)
  | [], [], _ => PA.pure rfl
  | [], _ :: _, h => by simp [SL] at h
  | _ :: _, [], h => by simp [SL] at h
  | (_, (_, _)) :: x, (_, (_, _)) :: y, h =>
      (alike_dotLocal _ _ _ _ _ _).bind fun _ _ _ => (alike_dotPostLoop (x := x) (y := y) (by simpa [SL] using h)).bind
        fun _ _ hr => PA.pure (by simpa [SL] using hr)

/-! ## Operations -/

theorem alike_mul (a b a' b' : S3Share K) : PA S Any (mul me a b) (mul me a' b') :=
  (alike_abyMul _ _ _ _).bind fun _ _ _ => PA.bind (R := Any)
    (alike_gen1.bind fun _ _ _ => alike_gen2.bind fun _ _ _ => PA.pure trivial) fun _ _ _ => alike_postArith _ _

theorem alike_dot (a b a' b' : List (S3Share K)) : PA S Any (dot me a b) (dot me a' b') :=
  PA.guard fun _ _ => (alike_abyDot _ _ _ _).bind fun _ _ _ => (alike_dotLocal _ _ _ _ _ _).bind fun _ _ _ =>
    alike_postArith _ _

theorem alike_dotMany {a b a' b' : List (List (S3Share K))} (h : SL a a') (h' : SL b b') :
    PA S SL (dotMany me a b) (dotMany me a' b') := by
  refine PA.guard fun _ _ => (alike_abyDotMany (SL.map (SL.zip h h')) (SL.map (SL.zip h h'))).bind fun _ _ hd => ?_
  refine (alike_dotPostLoop (SL.zip hd (SL.zip h h'))).bind fun _ _ hp => ?_
  rw [show a.length = a'.length from h]
  exact alike_postMany hp

theorem alike_and (a b a' b' : S3Share L) : PA S Any (and me a b) (and me a' b') :=
  (alike_abyAnd _ _ _ _).bind fun _ _ _ => (alike_local _ _ _ _ _ _).bind fun _ _ _ => alike_postBinary _ _

theorem alike_andMany {a b a' b' : List (S3Share L)} (h : SL a a') (h' : SL b b') :
    PA S SL (andMany me a b) (andMany me a' b') := by
  refine PA.guard fun _ _ => (alike_abyAndMany (SL.map h) (SL.map h')).bind fun _ _ hd => ?_
  refine (alike_andPostLoop (SL.zip hd (SL.zip h h'))).bind fun _ _ hp => ?_
  rw [show a.length = a'.length from h]
  exact alike_postMany hp

theorem mapLists_len {M : Nat} (g : List (BitVec L) → List (BitVec M)) (hg : ∀ l l', SL l l' → SL (g l) (g l'))
    {x y : List (S3Share L)} (h : SL x y) : SL (S3Share.mapLists g x) (S3Share.mapLists g y) :=
  SL.zipWith (hg _ _ (SL.map h)) (SL.zip (hg _ _ (SL.map h)) (hg _ _ (SL.map h)))

theorem fam_alike : FamAlike S (fam G K me) where
  ops _ := ⟨fun a b a' b' => alike_and a b a' b', fun h h' => alike_andMany h h'⟩
  mapLists g hg _ _ h := mapLists_len g hg h

theorem alike_a2b (a a' : S3Share K) : PA S Any (a2b me a) (a2b me a') :=
  (fam_alike.ops K).binaryAdd3 K _ _ _ _ _ _

theorem alike_a2bMany {a a' : List (S3Share K)} (h : SL a a') : PA S SL (a2bMany me a) (a2bMany me a') :=
  (fam_alike.ops K).binaryAdd3Many K (SL.map h) (SL.map h) (SL.map h)

theorem alike_getMsb (a a' : S3Share K) : PA S Any (getMsb me a) (getMsb me a') :=
  (alike_a2b _ _).bind fun _ _ _ => PA.pure trivial

theorem alike_getMsbMany {a a' : List (S3Share K)} (h : SL a a') : PA S SL (getMsbMany me a) (getMsbMany me a') :=
  (alike_a2bMany h).bind fun _ _ hr => PA.pure (SL.map hr)

theorem alike_reduce {a a' : List (S3Share 1)} (cs : Nat) (h : SL a a') :
    PA S Any (reduceBinaryOr me a cs) (reduceBinaryOr me a' cs) := fam_alike.reduceBinaryOr cs h

theorem alike_openExchange (a a' : S3Share L) : PA S Any (openExchange me a) (openExchange me a') := by
  fin_cases me
  · exact alike_jmpSend.bind fun _ _ _ => alike_jmpSend.bind fun _ _ _ => alike_jmpReceive
  · exact alike_jmpSend.bind fun _ _ _ => alike_jmpQueue.bind fun _ _ _ => alike_jmpReceive
  · exact alike_jmpQueue.bind fun _ _ _ => alike_jmpQueue.bind fun _ _ _ => alike_jmpReceive

theorem alike_openExchangeMany {a a' : List (S3Share L)} (h : SL a a') :
    PA S SL (openExchangeMany me a) (openExchangeMany me a') := by
  unfold openExchangeMany
  rw [show a.length = a'.length from h]
  fin_cases me
  · exact (alike_jmpSendMany (SL.map h)).bind fun _ _ _ => (alike_jmpSendMany (SL.map h)).bind fun _ _ _ =>
      alike_jmpReceiveMany.mono fun _ _ hr => hr.1.trans hr.2.symm
  · exact (alike_jmpSendMany (SL.map h)).bind fun _ _ _ => alike_jmpQueueMany.bind fun _ _ _ =>
      alike_jmpReceiveMany.mono fun _ _ hr => hr.1.trans hr.2.symm
  · exact alike_jmpQueueMany.bind fun _ _ _ => alike_jmpQueueMany.bind fun _ _ _ =>
      alike_jmpReceiveMany.mono fun _ _ hr => hr.1.trans hr.2.symm

theorem alike_open (a a' : S3Share K) : PA S Any (openShare H me a) (openShare H me a') :=
  alike_jmpVerify.bind fun _ _ _ => (alike_openExchange _ _).bind fun _ _ _ => alike_jmpVerify.bind fun _ _ _ => PA.pure trivial

theorem alike_openMany {a a' : List (S3Share K)} (h : SL a a') : PA S SL (openMany H me a) (openMany H me a') :=
  alike_jmpVerify.bind fun _ _ _ => (alike_openExchangeMany h).bind fun _ _ hr => alike_jmpVerify.bind fun _ _ _ =>
    PA.pure (SL.zipWith hr h)

theorem alike_openBit (a a' : S3Share 1) : PA S Any (openBit H me a) (openBit H me a') :=
  alike_jmpVerify.bind fun _ _ _ => (alike_openExchange _ _).bind fun _ _ _ => alike_jmpVerify.bind fun _ _ _ => PA.pure trivial

theorem alike_openBitMany {a a' : List (S3Share 1)} (h : SL a a') :
    PA S SL (openBitMany H me a) (openBitMany H me a') :=
  alike_jmpVerify.bind fun _ _ _ => (alike_openExchangeMany h).bind fun _ _ hr => alike_jmpVerify.bind fun _ _ _ =>
    PA.pure (SL.zipWith hr h)

/-- The dealer: three masks, two messages. -/
theorem alike_deal {g1 g2 g3 : Proto (S3St G K) (BitVec K)} (h1 : PA S Any g1 g1) (h2 : PA S Any g2 g2) (h3 : PA S Any g3 g3)
    {f f' : BitVec K → BitVec K → BitVec K → BitVec K} {k k' : BitVec K → BitVec K → BitVec K → BitVec K → S3Share K} {i j : Nat} :
    PA S Any
      (do let a ← g1; let b ← g2; let c ← g3; Proto.net (sendValue me (f a b c) i); jmpSend me (f a b c) j; pure (k a b c (f a b c)))
      (do let a ← g1; let b ← g2; let c ← g3; Proto.net (sendValue me (f' a b c) i); jmpSend me (f' a b c) j
          pure (k' a b c (f' a b c))) :=
  h1.bind fun _ _ _ => h2.bind fun _ _ _ => h3.bind fun _ _ _ => alike_sendValue.bind fun _ _ _ => alike_jmpSend.bind fun _ _ _ =>
    PA.pure trivial

theorem alike_input (v v' : Option (BitVec K)) (id : Nat) : PA S Any (input me v id) (input me v' id) := by
  refine PA.guard fun _ _ => ?_
  match id with
  | 0 =>
      fin_cases me
      · exact alike_deal alike_gen1 alike_genP alike_gen2 (k := fun a _ c d => ⟨a, c, d⟩) (k' := fun a _ c d => ⟨a, c, d⟩)
      · exact alike_gen2.bind fun _ _ _ => alike_genP.bind fun _ _ _ => alike_receiveValue.bind fun _ _ _ =>
          alike_jmpQueue.bind fun _ _ _ => PA.pure trivial
      · exact alike_genP.bind fun _ _ _ => alike_gen1.bind fun _ _ _ => alike_jmpReceive.bind fun _ _ _ => PA.pure trivial
  | 1 =>
      fin_cases me
      · exact alike_gen1.bind fun _ _ _ => alike_genP.bind fun _ _ _ => alike_jmpReceive.bind fun _ _ _ => PA.pure trivial
      · exact alike_deal alike_gen2 alike_gen1 alike_genP (k := fun a b _ d => ⟨b, a, d⟩) (k' := fun a b _ d => ⟨b, a, d⟩)
      · exact alike_gen2.bind fun _ _ _ => alike_genP.bind fun _ _ _ => alike_receiveValue.bind fun _ _ _ =>
          alike_jmpQueue.bind fun _ _ _ => PA.pure trivial
  | 2 =>
      fin_cases me
      · exact alike_genP.bind fun _ _ _ => alike_gen2.bind fun _ _ _ => alike_jmpReceive.bind fun _ _ _ => PA.pure trivial
      · exact alike_genP.bind fun _ _ _ => alike_gen1.bind fun _ _ _ => alike_receiveValue.bind fun _ _ _ =>
          alike_jmpQueue.bind fun _ _ _ => PA.pure trivial
      · exact alike_deal alike_genP alike_gen2 alike_gen1 (k := fun _ b c d => ⟨c, b, d⟩) (k' := fun _ b c d => ⟨c, b, d⟩)
  | n + 3 => fin_cases me <;> exact PA.throwL

theorem alike_inputAll (v v' : BitVec K) : PA S SL (inputAll me v) (inputAll me v') :=
  (alike_input _ _ 0).bind fun _ _ _ => (alike_input _ _ 1).bind fun _ _ _ => (alike_input _ _ 2).bind fun _ _ _ => PA.pure rfl

theorem maskedVecs_len {a a' : List (S3Share K)} : ∀ {x y : List (List (S3Share K) × IrisCodeArray)} {r r'},
    SL x y → maskedVecs (S3Share.zero K) a x = .ok r → maskedVecs (S3Share.zero K) a' y = .ok r' → SL r.1 r'.1 ∧ SL r.2 r'.2
  | [], [], _, _, _, h, h' => by cases h; cases h'; exact ⟨rfl, rfl⟩
  | [], _ :: _, _, _, h, _, _ => by simp [SL] at h
  | _ :: _, [], _, _, h, _, _ => by simp [SL] at h
  | (_, _) :: x, (_, _) :: y, _, _, hl, h, h' => by
      unfold maskedVecs at h h'
      split at h
      · cases h
      · split at h'
        · cases h'
        · obtain ⟨⟨_, _⟩, e, h⟩ := OpsAlike.bindE h
          obtain ⟨⟨_, _⟩, e', h'⟩ := OpsAlike.bindE h'
          cases h; cases h'
          have := maskedVecs_len (x := x) (y := y) (by simpa [SL] using hl) e e'
          exact ⟨by simpa [SL] using this.1, by simpa [SL] using this.2⟩

theorem alike_maskedDotMany {a a' : List (S3Share K)} {b b' : List (List (S3Share K))} {m m' : List IrisCodeArray}
    (hb : SL b b') (hm : SL m m') :
    PA S SL (defaultMaskedDotMany (S3Share.zero K) (dotMany me) a b m)
      (defaultMaskedDotMany (S3Share.zero K) (dotMany me) a' b' m') := by
  refine (PA.lift (R := fun r r' => SL r.1 r'.1 ∧ SL r.2 r'.2) fun _ _ hx hy => maskedVecs_len (SL.zip hb hm) hx hy).bind ?_
  rintro ⟨_, _⟩ ⟨_, _⟩ ⟨h, h'⟩
  exact alike_dotMany h h'

theorem ops_alike (signed : Bool) {verify : Proto (S3St G K) Unit} (hv : PA S Any verify verify) :
    OpsAlike S (ops G H K signed verify me) where
  maskedDotMany _ hb hm := alike_maskedDotMany hb.len hm
  getMsb := alike_getMsb
  getMsbMany := alike_getMsbMany
  reduceBinaryOr n h := alike_reduce n h
  precompute _ := PA.pure trivial
  verify := hv
  openBit := alike_openBit

end Swift3

end Verif
