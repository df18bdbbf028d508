import Verif.Proof.AlikeGen
import Verif.Model.Spdz
import Verif.Model.PlainMpc

/-!
# Same traffic: the backends
-/

namespace Verif

variable {G : Prg} {K : Nat}

/-! ## ABY3 -/

namespace Aby3

/-- Any two states. -/
abbrev SA : Aby3St G → Aby3St G → Prop := Any

theorem alike_zero : PA (SA (G := G)) Any (genZero K) (genZero K) := PA.step fun _ _ _ => ⟨trivial, trivial⟩

theorem alike_binZero : PA (SA (G := G)) Any (genBinZero K) (genBinZero K) := PA.step fun _ _ _ => ⟨trivial, trivial⟩

theorem alike_mulLoop : ∀ {x y : List (AShare K × AShare K)}, SL x y → PA (SA (G := G)) SL (mulLoop x) (mulLoop y)
  | [], [], _ => PA.pure rfl
  | [], _ :: _, h => by simp [SL] at h
  | _ :: _, [], h => by simp [SL] at h
  | (_, _) :: x, (_, _) :: y, h =>
      alike_zero.bind fun _ _ _ => (alike_mulLoop (x := x) (y := y) (by simpa [SL] using h)).bind fun _ _ hr =>
        PA.pure (by simpa [SL] using hr)

theorem alike_andLoop : ∀ {x y : List (AShare K × AShare K)}, SL x y → PA (SA (G := G)) SL (andLoop x) (andLoop y)
  | [], [], _ => PA.pure rfl
  | [], _ :: _, h => by simp [SL] at h
  | _ :: _, [], h => by simp [SL] at h
  | (_, _) :: x, (_, _) :: y, h =>
      alike_binZero.bind fun _ _ _ => (alike_andLoop (x := x) (y := y) (by simpa [SL] using h)).bind fun _ _ hr =>
        PA.pure (by simpa [SL] using hr)

theorem alike_dotLoop : ∀ {x y : List (List (AShare K) × List (AShare K))}, SL x y → PA (SA (G := G)) SL (dotLoop x) (dotLoop y)
  | [], [], _ => PA.pure rfl
  | [], _ :: _, h => by simp [SL] at h
  | _ :: _, [], h => by simp [SL] at h
  | (_, _) :: x, (_, _) :: y, h =>
      alike_zero.bind fun _ _ _ => PA.guard fun _ _ => (alike_dotLoop (x := x) (y := y) (by simpa [SL] using h)).bind
        fun _ _ hr => PA.pure (by simpa [SL] using hr)

theorem alike_maskedDotLoop {a a' : List (AShare K)} : ∀ {x y : List (List (AShare K) × IrisCodeArray)}, SL x y →
    PA (SA (G := G)) SL (maskedDotLoop a x) (maskedDotLoop a' y)
  | [], [], _ => PA.pure rfl
  | [], _ :: _, h => by simp [SL] at h
  | _ :: _, [], h => by simp [SL] at h
  | (_, _) :: x, (_, _) :: y, h =>
      alike_zero.bind fun _ _ _ => PA.guard fun _ _ => (alike_maskedDotLoop (x := x) (y := y) (by simpa [SL] using h)).bind
        fun _ _ hr => PA.pure (by simpa [SL] using hr)

variable {me : Party}

/-- Resharing. -/
theorem alike_reshare {x y : List (BitVec K)} (h : SL x y) :
    PA (SA (G := G)) SL (do let r ← Proto.net (sendSliceAndReceiveIter me x); pure (List.zipWith AShare.mk x r))
      (do let r ← Proto.net (sendSliceAndReceiveIter me y); pure (List.zipWith AShare.mk y r)) :=
  (PA.net (Alike.sendSliceAndReceiveIter h)).bind fun _ _ hr => PA.pure (SL.zipWith h hr.2)

theorem alike_value {x y : BitVec K} : PA (SA (G := G)) Any (Proto.net (sendAndReceiveValue me x)) (Proto.net (sendAndReceiveValue me y)) :=
  PA.net Alike.sendAndReceiveValue

theorem alike_mulMany {a b a' b' : List (AShare K)} (h : SL a a') (h' : SL b b') :
    PA (SA (G := G)) SL (mulMany me a b) (mulMany me a' b') := (alike_mulLoop (SL.zip h h')).bind fun _ _ hr => alike_reshare hr

theorem alike_dotMany {a b a' b' : List (List (AShare K))} (h : SL a a') (h' : SL b b') :
    PA (SA (G := G)) SL (dotMany me a b) (dotMany me a' b') :=
  PA.guard fun _ _ => (alike_dotLoop (SL.zip h h')).bind fun _ _ hr => alike_reshare hr

theorem alike_maskedDotMany {a a' : List (AShare K)} {b b' : List (List (AShare K))} {m m' : List IrisCodeArray}
    (h : SL b b') (h' : SL m m') : PA (SA (G := G)) SL (maskedDotMany me a b m) (maskedDotMany me a' b' m') :=
  PA.guard fun _ _ => (alike_maskedDotLoop (SL.zip h h')).bind fun _ _ hr => alike_reshare hr

theorem alike_mul (a b a' b' : AShare K) : PA (SA (G := G)) Any (mul me a b) (mul me a' b') :=
  alike_zero.bind fun _ _ _ => alike_value.bind fun _ _ _ => PA.pure trivial

theorem alike_dot (a b a' b' : List (AShare K)) : PA (SA (G := G)) Any (dot me a b) (dot me a' b') :=
  PA.guard fun _ _ => alike_zero.bind fun _ _ _ => alike_value.bind fun _ _ _ => PA.pure trivial

theorem alike_and (a b a' b' : AShare K) : PA (SA (G := G)) Any (and me a b) (and me a' b') :=
  alike_binZero.bind fun _ _ _ => alike_value.bind fun _ _ _ => PA.pure trivial

theorem alike_andMany {a b a' b' : List (AShare K)} (h : SL a a') (h' : SL b b') :
    PA (SA (G := G)) SL (andMany me a b) (andMany me a' b') :=
  PA.guard fun _ _ => (alike_andLoop (SL.zip h h')).bind fun _ _ hr => alike_reshare hr

theorem alike_open (a a' : AShare K) : PA (SA (G := G)) Any (openShare me a) (openShare me a') :=
  alike_value.bind fun _ _ _ => PA.pure trivial

theorem alike_openMany {a a' : List (AShare K)} (h : SL a a') : PA (SA (G := G)) SL (openMany me a) (openMany me a') :=
  (PA.net (Alike.sendSliceAndReceiveIter (SL.map h))).bind fun _ _ hr => PA.pure (SL.zipWith h hr.2)

theorem alike_openBit (a a' : AShare 1) : PA (SA (G := G)) Any (openBit me a) (openBit me a') :=
  alike_value.bind fun _ _ _ => PA.pure trivial

theorem alike_openBitMany {a a' : List (AShare 1)} (h : SL a a') : PA (SA (G := G)) SL (openBitMany me a) (openBitMany me a') :=
  (PA.net (Alike.sendSliceAndReceiveIter (SL.map h))).bind fun _ _ hr => PA.pure (SL.zipWith h hr.2)

theorem mapLists_len {L : Nat} (g : List (BitVec K) → List (BitVec L)) (hg : ∀ l l', SL l l' → SL (g l) (g l'))
    {x y : List (AShare K)} (h : SL x y) : SL (AShare.mapLists g x) (AShare.mapLists g y) :=
  SL.zipWith (hg _ _ (SL.map h)) (hg _ _ (SL.map h))

theorem fam_alike : FamAlike (SA (G := G)) (fam G me) where
  ops _ := ⟨fun a b a' b' => alike_and a b a' b', fun h h' => alike_andMany h h'⟩
  mapLists g hg _ _ h := mapLists_len g hg h

/-- One party's input has a value and the other's has none: the sizes of the messages are the same. -/
theorem alike_input (inp inp' : Option (BitVec K)) (id : Nat) : PA (SA (G := G)) Any (input me inp id) (input me inp' id) := by
  refine PA.guard fun _ _ => alike_zero.bind fun _ _ _ => ?_
  split
  · cases inp with
    | none => exact PA.throwL
    | some v => cases inp' with
      | none => exact PA.throwR
      | some v' => exact alike_value.bind fun _ _ _ => PA.pure trivial
  · exact alike_value.bind fun _ _ _ => PA.pure trivial

theorem alike_inputAll (inp inp' : BitVec K) : PA (SA (G := G)) SL (inputAll me inp) (inputAll me inp') :=
  alike_zero.bind fun _ _ _ => alike_zero.bind fun _ _ _ => alike_zero.bind fun _ _ _ => alike_reshare rfl

theorem alike_getMsb (a a' : AShare K) : PA (SA (G := G)) Any (getMsb me a) (getMsb me a') :=
  ((fam_alike.ops K).binaryAdd3 K _ _ _ _ _ _).bind fun _ _ _ => PA.pure trivial

theorem alike_getMsbMany {a a' : List (AShare K)} (h : SL a a') : PA (SA (G := G)) SL (getMsbMany me a) (getMsbMany me a') :=
  fam_alike.msbAdderMany (SL.map h) (SL.map h) (SL.map h)

theorem alike_a2b (a a' : AShare K) : PA (SA (G := G)) Any (a2b me a) (a2b me a') :=
  (fam_alike.ops K).binaryAdd3 K _ _ _ _ _ _

theorem alike_a2bMany {a a' : List (AShare K)} (h : SL a a') : PA (SA (G := G)) SL (a2bMany me a) (a2bMany me a') :=
  (fam_alike.ops K).binaryAdd3Many K (SL.map h) (SL.map h) (SL.map h)

theorem alike_reduce {a a' : List (AShare 1)} (cs : Nat) (h : SL a a') :
    PA (SA (G := G)) Any (reduceBinaryOr me a cs) (reduceBinaryOr me a' cs) := fam_alike.reduceBinaryOr cs h

theorem ops_alike (signed : Bool) : OpsAlike (SA (G := G)) (Aby3.ops G K signed me) where
  maskedDotMany _ hb hm := alike_maskedDotMany hb.len hm
  getMsb := alike_getMsb
  getMsbMany := alike_getMsbMany
  reduceBinaryOr n h := alike_reduce n h
  precompute _ := PA.pure trivial
  verify := PA.pure trivial
  openBit := alike_openBit

end Aby3

/-! ## Joint message passing -/

namespace Jmp

/-- Any two states. -/
abbrev SJ : JmpSt G → JmpSt G → Prop := Any

variable {me : Party} {H : Hash}

theorem alike_genRand : PA (SJ (G := G)) Any (genRand K) (genRand K) := PA.step fun _ _ _ => ⟨trivial, trivial⟩

theorem alike_genRandMany : ∀ n, PA (SJ (G := G)) (fun a b => a.length = n ∧ b.length = n) (genRandMany K n) (genRandMany K n)
  | 0 => PA.pure ⟨rfl, rfl⟩
  | n + 1 => alike_genRand.bind fun _ _ _ => (alike_genRandMany n).bind fun _ _ h => PA.pure (by simp [h.1, h.2])

theorem alike_genSeeds : PA (SJ (G := G)) (fun a b => SL a.1 b.1 ∧ SL a.2 b.2) genSeeds genSeeds :=
  PA.step fun _ _ _ => ⟨⟨by simp only [SL, G.genSeed_length], by simp only [SL, G.genSeed_length]⟩, trivial⟩

theorem alike_viaPrf {α β : Type} {R : α → β → Prop} {p : Proto (Aby3St G) α} {q : Proto (Aby3St G) β}
    (h : PA Aby3.SA R p q) : PA SJ R (viaPrf p) (viaPrf q) := h.zoom (fun _ _ _ => trivial) fun _ _ _ _ _ _ => trivial

theorem alike_sendReceive (x y x' y' : BitVec K) : PA (SJ (G := G)) Any (jmpSendReceive me x y) (jmpSendReceive me x' y') := by
  refine (PA.step (R := Any) fun _ _ _ => ⟨trivial, trivial⟩).bind fun _ _ _ => ?_
  refine (PA.net (R := Any) (.send (by simp) (.ret trivial))).bind fun _ _ _ => ?_
  refine (PA.net (R := Any) (.recv fun _ _ => .ofExcept fun _ _ _ _ => trivial)).bind fun _ _ _ => ?_
  exact PA.step fun _ _ _ => ⟨trivial, trivial⟩

theorem alike_sendReceiveMany {x x' : List (BitVec K)} (y y' : List (BitVec K)) (h : SL x x') :
    PA (SJ (G := G)) (fun a b => a.length = x.length ∧ SL a b) (jmpSendReceiveMany me x y) (jmpSendReceiveMany me x' y') := by
  refine (PA.step (R := Any) fun _ _ _ => ⟨trivial, trivial⟩).bind fun _ _ _ => ?_
  refine (PA.net (R := Any) (.send (Alike.slice_len h) (.ret trivial))).bind fun _ _ _ => ?_
  refine (PA.net (R := fun a b => a.length = x.length ∧ SL a b) (.recv fun _ _ => .ofExcept fun a b ha hb => ?_)).bind
    fun _ _ hr => ?_
  · exact ⟨Alike.vec_len ha, (Alike.vec_len ha).trans (Eq.trans h (Alike.vec_len hb).symm)⟩
  exact PA.step fun _ _ _ => ⟨hr, trivial⟩

theorem alike_verify : PA (SJ (G := G)) Any (jmpVerify H me) (jmpVerify H me) := by
  refine (PA.step (R := fun a b => SL a.1 b.1) fun _ _ _ => ⟨by simp only [SL, H.len], trivial⟩).bind ?_
  rintro ⟨a, b⟩ ⟨a', b'⟩ h
  refine (PA.net (R := Any) (.send h (.ret trivial))).bind fun _ _ _ => ?_
  refine (PA.net (R := Any) (.recv fun _ _ => .ret trivial)).bind fun _ _ _ => ?_
  exact PA.guard fun _ _ => PA.pure trivial

theorem alike_coin : PA (SJ (G := G)) SL (coin me) (coin me) := by
  refine alike_genSeeds.bind ?_
  rintro ⟨a, b⟩ ⟨a', b'⟩ ⟨h, h'⟩
  exact (alike_sendReceiveMany a a' h').bind fun _ _ hr => PA.pure (SL.zipWith h (SL.zip h' hr.2))

theorem alike_reconstruct (a a' : AShare K) : PA (SJ (G := G)) Any (reconstruct me a) (reconstruct me a') :=
  (alike_sendReceive _ _ _ _).bind fun _ _ _ => PA.pure trivial

theorem alike_reconstructMany {a a' : List (AShare K)} (h : SL a a') :
    PA (SJ (G := G)) SL (reconstructMany me a) (reconstructMany me a') :=
  (alike_sendReceiveMany _ _ (SL.map h)).bind fun _ _ hr => PA.pure (SL.zipWith h hr.2)

theorem alike_reconstructBinaryMany {a a' : List (AShare K)} (h : SL a a') :
    PA (SJ (G := G)) SL (reconstructBinaryMany me a) (reconstructBinaryMany me a') :=
  (alike_sendReceiveMany _ _ (SL.map h)).bind fun _ _ hr => PA.pure (SL.zipWith h hr.2)

theorem alike_open (a a' : AShare K) : PA (SJ (G := G)) Any (openShare H me a) (openShare H me a') :=
  alike_verify.bind fun _ _ _ => (alike_sendReceive _ _ _ _).bind fun _ _ _ => alike_verify.bind fun _ _ _ => PA.pure trivial

theorem alike_openMany {a a' : List (AShare K)} (h : SL a a') : PA (SJ (G := G)) SL (openMany H me a) (openMany H me a') :=
  alike_verify.bind fun _ _ _ => (alike_sendReceiveMany _ _ (SL.map h)).bind fun _ _ hr => alike_verify.bind fun _ _ _ =>
    PA.pure (SL.zipWith h hr.2)

theorem alike_openBit (a a' : AShare 1) : PA (SJ (G := G)) Any (openBit H me a) (openBit H me a') :=
  alike_verify.bind fun _ _ _ => (alike_sendReceive _ _ _ _).bind fun _ _ _ => alike_verify.bind fun _ _ _ => PA.pure trivial

theorem alike_openBitMany {a a' : List (AShare 1)} (h : SL a a') :
    PA (SJ (G := G)) SL (openBitMany H me a) (openBitMany H me a') :=
  alike_verify.bind fun _ _ _ => (alike_sendReceiveMany _ _ (SL.map h)).bind fun _ _ hr => alike_verify.bind fun _ _ _ =>
    PA.pure (SL.zipWith h hr.2)

end Jmp

/-! ## The malicious variant of ABY3 -/

namespace MalAby3

open Jmp

variable {me : Party} {H : Hash} {V : Nat}

theorem alike_reshare {x y : List (BitVec K)} (h : SL x y) :
    PA (SJ (G := G)) SL (do let r ← Proto.net (sendSliceAndReceiveVec me x); pure (List.zipWith AShare.mk x r))
      (do let r ← Proto.net (sendSliceAndReceiveVec me y); pure (List.zipWith AShare.mk y r)) :=
  (PA.net (Alike.sendSliceAndReceiveVec h)).bind fun _ _ hr => PA.pure (SL.zipWith h hr.2)

theorem alike_abyMulMany {a b a' b' : List (AShare K)} (h : SL a a') (h' : SL b b') :
    PA (SJ (G := G)) SL (abyMulMany me a b) (abyMulMany me a' b') :=
  (alike_viaPrf (Aby3.alike_mulLoop (SL.zip h h'))).bind fun _ _ hr => alike_reshare hr

theorem alike_abyDotMany {a b a' b' : List (List (AShare K))} (h : SL a a') (h' : SL b b') :
    PA (SJ (G := G)) SL (abyDotMany me a b) (abyDotMany me a' b') :=
  PA.guard fun _ _ => (alike_viaPrf (Aby3.alike_dotLoop (SL.zip h h'))).bind fun _ _ hr => alike_reshare hr

theorem alike_coinElem : PA (SJ (G := G)) Any (coinElem V me) (coinElem V me) :=
  alike_coin.bind fun _ _ _ => PA.pure trivial

theorem alike_getMulTriple : PA (SJ (G := G)) Any (getMulTriple H V K me) (getMulTriple H V K me) := by
  refine PA.guard fun _ _ => ?_
  refine alike_genRand.bind fun a b _ => alike_genRand.bind fun a' b' _ => alike_genRand.bind fun c d _ => ?_
  refine (alike_abyMulMany (a := [a, a']) (b := [c, c]) (a' := [b, b']) (b' := [d, d]) rfl rfl).bind fun _ _ _ => ?_
  refine PA.idxAny.bind fun _ _ _ => PA.idxAny.bind fun _ _ _ => alike_coinElem.bind fun _ _ _ => ?_
  refine (alike_reconstruct _ _).bind fun _ _ _ => alike_verify.bind fun _ _ _ => ?_
  exact (PA.net Alike.hashZeroVerify).bind fun _ _ _ => PA.pure trivial

theorem alike_getMulTripleMany (len : Nat) :
    PA (SJ (G := G)) (fun x y => SL x.1 y.1 ∧ SL x.2.1 y.2.1 ∧ SL x.2.2 y.2.2) (getMulTripleMany H V K me len)
      (getMulTripleMany H V K me len) := by
  refine PA.guard fun _ _ => ?_
  refine (alike_genRandMany len).bind fun a b ha => (alike_genRandMany len).bind fun c d hc =>
    (alike_genRandMany len).bind fun a' b' ha' => ?_
  have h1 : SL a b := ha.1.trans ha.2.symm
  have h2 : SL c d := hc.1.trans hc.2.symm
  have h3 : SL a' b' := ha'.1.trans ha'.2.symm
  refine (alike_abyMulMany (SL.append h1 h3) (SL.append h2 h2)).bind fun _ _ hr => alike_coinElem.bind fun _ _ _ => ?_
  refine (alike_reconstructMany (SL.zipWith h1 h3)).bind fun _ _ _ => alike_verify.bind fun _ _ _ => ?_
  exact (PA.net Alike.hashZeroVerify).bind fun _ _ _ => PA.pure ⟨SL.map h1, SL.map h2, SL.map (SL.take _ hr)⟩

theorem alike_dotSacrifice {a a' b b' : List (AShare K)} (ha : SL a a') :
    PA (SJ (G := G)) Any (dotSacrifice H V me a b) (dotSacrifice H V me a' b') := by
  unfold dotSacrifice
  rw [show a.length = a'.length from ha]
  refine PA.guard fun _ _ => (alike_genRandMany _).bind fun r r' hr => ?_
  refine (alike_abyDotMany (a := [_, _]) (b := [_, _]) (a' := [_, _]) (b' := [_, _]) (by rfl) (by rfl)).bind fun _ _ _ => ?_
  refine PA.idxAny.bind fun _ _ _ => PA.idxAny.bind fun _ _ _ => alike_coinElem.bind fun _ _ _ => ?_
  refine (alike_reconstructMany (SL.zipWith (SL.map ha) (hr.1.trans hr.2.symm))).bind fun _ _ _ => ?_
  exact alike_verify.bind fun _ _ _ => (PA.net Alike.hashZeroVerify).bind fun _ _ _ => PA.pure trivial

theorem alike_genRandVecs : ∀ (ns : List Nat), PA (SJ (G := G)) Shape (genRandVecs V ns) (genRandVecs V ns)
  | [] => PA.pure .nil
  | n :: ns => (alike_genRandMany n).bind fun _ _ h => (alike_genRandVecs ns).bind fun _ _ hs =>
      PA.pure (.cons (h.1.trans h.2.symm) hs)

theorem alike_dotSacrificeMany {a a' b b' : List (List (AShare K))} (ha : Shape a a') (hb : Shape b b') :
    PA (SJ (G := G)) SL (dotSacrificeMany H V me a b) (dotSacrificeMany H V me a' b') := by
  have hv : ∀ {x y : List (List (AShare K))}, Shape x y →
      Shape (x.map fun l => l.map (·.toVerif V)) (y.map fun l => l.map (·.toVerif V)) := by
    intro x y h
    induction h with
    | nil => exact .nil
    | cons h _ ih => exact .cons (SL.map h) ih
  have hlen : ∀ {x y : List (List (AShare V))}, Shape x y → x.map List.length = y.map List.length := by
    intro x y h
    induction h with
    | nil => rfl
    | cons h _ ih => rw [List.map_cons, List.map_cons, ih, h]
  unfold dotSacrificeMany
  refine PA.guard fun _ _ => ?_
  dsimp only
  rw [hlen (hv hb), show a.length = a'.length from ha.len]
  refine (alike_genRandVecs _).bind fun r r' hr => ?_
  refine (alike_abyDotMany (SL.append (hv ha).len hr.len) (SL.append (hv hb).len (hv hb).len)).bind fun _ _ hc => ?_
  refine alike_coinElem.bind fun _ _ _ => ?_
  refine (alike_reconstructMany ((hv ha).zipWith (fun _ _ _ _ h h' => SL.zipWith h h') hr).flatten).bind fun _ _ _ => ?_
  refine alike_verify.bind fun _ _ _ => (PA.lift (R := Any) fun _ _ _ _ => trivial).bind fun _ _ _ => ?_
  exact (PA.net Alike.hashZeroVerify).bind fun _ _ _ => PA.pure (SL.map (SL.take _ hc))

theorem alike_mul (a b a' b' : AShare K) : PA (SJ (G := G)) Any (mul H me a b) (mul H me a' b') := by
  refine alike_getMulTriple.bind ?_
  rintro ⟨x, y, z⟩ ⟨x', y', z'⟩ _
  refine (alike_reconstructMany (a := [_, _]) (a' := [_, _]) (by rfl)).bind fun _ _ _ => ?_
  exact PA.idxAny.bind fun _ _ _ => PA.idxAny.bind fun _ _ _ => PA.pure trivial

theorem alike_dot {a b a' b' : List (AShare K)} (h : SL a a') : PA (SJ (G := G)) Any (dot H me a b) (dot H me a' b') :=
  PA.guard fun _ _ => alike_dotSacrifice h

theorem alike_dotMany {a b a' b' : List (List (AShare K))} (h : Shape a a') (h' : Shape b b') :
    PA (SJ (G := G)) SL (dotMany H me a b) (dotMany H me a' b') := PA.guard fun _ _ => alike_dotSacrificeMany h h'

theorem alike_and (a b a' b' : AShare K) : PA (SJ (G := G)) Any (and H me a b) (and H me a' b') := by
  refine (alike_getMulTripleMany K).bind ?_
  rintro ⟨x, y, z⟩ ⟨x', y', z'⟩ _
  refine (alike_reconstructBinaryMany (a := [_, _]) (a' := [_, _]) (by rfl)).bind fun _ _ _ => ?_
  exact PA.idxAny.bind fun _ _ _ => PA.idxAny.bind fun _ _ _ => PA.pure trivial

theorem pack_len {x y : List (AShare 1)} (h : SL x y) : SL (pack K x) (pack K y) := SL.map (Shape.chunks K h).len

theorem alike_andMany {a b a' b' : List (AShare K)} (h : SL a a') (h' : SL b b') :
    PA (SJ (G := G)) SL (andMany H me a b) (andMany H me a' b') := by
  unfold andMany
  rw [show a.length = a'.length from h]
  refine PA.guard fun _ _ => ?_
  refine (alike_getMulTripleMany _).bind ?_
  rintro ⟨x, y, z⟩ ⟨x', y', z'⟩ ⟨hx, hy, hz⟩
  refine (alike_reconstructBinaryMany (SL.append (SL.zipWith h (pack_len hx)) (SL.zipWith h' (pack_len hy)))).bind
    fun _ _ hr => ?_
  exact PA.pure (SL.zipWith (pack_len hz) (SL.zip (SL.zip h h') (SL.zip (SL.take _ hr) (SL.drop _ hr))))

theorem bin_alike : BinAlike (SJ (G := G)) (binOps G H K me) :=
  ⟨fun a b a' b' => alike_and a b a' b', fun h h' => alike_andMany h h'⟩

theorem alike_getMsb (a a' : AShare K) : PA (SJ (G := G)) Any (getMsb H me a) (getMsb H me a') :=
  (bin_alike.binaryAdd3 K _ _ _ _ _ _).bind fun _ _ _ => PA.pure trivial

theorem alike_getMsbMany {a a' : List (AShare K)} (h : SL a a') : PA (SJ (G := G)) SL (getMsbMany H me a) (getMsbMany H me a') :=
  (bin_alike.binaryAdd3Many K (SL.map h) (SL.map h) (SL.map h)).bind fun _ _ hr => PA.pure (SL.map hr)

theorem alike_reduce {a a' : List (AShare 1)} (cs : Nat) (h : SL a a') :
    PA (SJ (G := G)) Any (reduceBinaryOr H me a cs) (reduceBinaryOr H me a' cs) :=
  (PA.lift (R := Eq) fun _ _ hx hy => by rw [hx] at hy; cases hy; rfl).bind fun n m e => by
    subst e; exact bin_alike.orTree n h

theorem zeroUnmasked_len {a a' : List (AShare K)} (h : SL a a') (m m' : IrisCodeArray) :
    SL (zeroUnmasked (AShare.zero K) a m.bits) (zeroUnmasked (AShare.zero K) a' m'.bits) :=
  SL.zipWith h (by simp only [SL, C17_bits, App.bits_length])

theorem maskedVecs_shape {a a' : List (AShare K)} (ha : SL a a') : ∀ {x y : List (List (AShare K) × IrisCodeArray)} {r r'},
    List.Forall₂ (fun u v => SL u.1 v.1) x y → maskedVecs (AShare.zero K) a x = .ok r →
      maskedVecs (AShare.zero K) a' y = .ok r' → Shape r.1 r'.1 ∧ Shape r.2 r'.2
  | _, _, _, _, .nil, h, h' => by cases h; cases h'; exact ⟨.nil, .nil⟩
  | _, _, _, _, .cons (a := (_, _)) (b := (_, _)) hd t, h, h' => by
      unfold maskedVecs at h h'
      split at h
      · cases h
      · split at h'
        · cases h'
        · obtain ⟨⟨_, _⟩, e, h⟩ := OpsAlike.bindE h
          obtain ⟨⟨_, _⟩, e', h'⟩ := OpsAlike.bindE h'
          cases h; cases h'
          have := maskedVecs_shape ha t e e'
          exact ⟨.cons (zeroUnmasked_len ha _ _) this.1, .cons (zeroUnmasked_len hd _ _) this.2⟩

theorem alike_maskedDotMany {a a' : List (AShare K)} {b b' : List (List (AShare K))} {m m' : List IrisCodeArray}
    (ha : SL a a') (hb : Shape b b') (hm : SL m m') :
    PA (SJ (G := G)) SL (defaultMaskedDotMany (AShare.zero K) (dotMany H me) a b m)
      (defaultMaskedDotMany (AShare.zero K) (dotMany H me) a' b' m') := by
  have hz : List.Forall₂ (fun u v => SL u.1 v.1) (b.zip m) (b'.zip m') := by
    clear ha
    induction hb generalizing m m' with
    | nil => simp
    | cons h _ ih =>
        cases m with
        | nil => cases m' with
          | nil => simp
          | cons => simp [SL] at hm
        | cons u m => cases m' with
          | nil => simp [SL] at hm
          | cons v m' => exact .cons h (ih (by simpa [SL] using hm))
  refine (PA.lift (R := fun r r' => Shape r.1 r'.1 ∧ Shape r.2 r'.2) fun _ _ hx hy => maskedVecs_shape ha hz hx hy).bind ?_
  rintro ⟨_, _⟩ ⟨_, _⟩ ⟨h, h'⟩
  exact alike_dotMany h h'

theorem ops_alike (signed : Bool) : OpsAlike (SJ (G := G)) (ops G H K signed me) where
  maskedDotMany ha hb hm := alike_maskedDotMany ha hb hm
  getMsb := alike_getMsb
  getMsbMany := alike_getMsbMany
  reduceBinaryOr n h := alike_reduce n h
  precompute _ := PA.pure trivial
  verify := PA.pure trivial
  openBit := alike_openBit

end MalAby3

end Verif
