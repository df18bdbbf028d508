import Verif.Proof.Alike
import Verif.Proof.UniAby3
import Verif.Proof.App
import Verif.Model.Iris
import Verif.Model.Hash

/-!
# Same traffic: exchange helpers, binary circuits, the iris protocol
-/

namespace Verif

variable {σ : Type} {S : σ → σ → Prop}

namespace Alike

theorem sendAndReceive {me : Party} {m m' : Bytes} (h : m.length = m'.length) :
    Alike Any (Verif.sendAndReceive me m) (Verif.sendAndReceive me m') :=
  .send h (.recv fun _ _ => .ret trivial)

theorem sendAndReceiveValue {K : Nat} {me : Party} {x y : BitVec K} :
    Alike Any (Verif.sendAndReceiveValue me x) (Verif.sendAndReceiveValue me y) :=
  (sendAndReceive (by simp)).bind fun _ _ _ => .ofExcept fun _ _ _ _ => trivial

theorem slice_len {K : Nat} {x y : List (BitVec K)} (h : SL x y) : (ringSliceToBytes x).length = (ringSliceToBytes y).length := by
  rw [ringSliceToBytes_length, ringSliceToBytes_length, show x.length = y.length from h]

theorem iter_len {K n : Nat} {bs : Bytes} {x : List (BitVec K)} (h : ringIterFromBytes K bs n = .ok x) : x.length = n := by
  unfold ringIterFromBytes at h
  split at h
  · cases h
  · split at h
    · rename_i xs r hx
      cases h
      exact (takeMany_ok hx).1
    · cases h

theorem vec_len {K n : Nat} {bs : Bytes} {x : List (BitVec K)} (h : ringVecFromBytes K bs n = .ok x) : x.length = n := by
  unfold ringVecFromBytes at h
  cases hx : takeMany K n bs with
  | error e => rw [hx] at h; cases h
  | ok r =>
      obtain ⟨xs, r⟩ := r
      rw [hx] at h
      change (if r.length ≠ 0 then Except.error Err.conversion else Except.ok xs) = Except.ok x at h
      split at h
      · cases h
      · cases h; exact (takeMany_ok hx).1

theorem sendSliceAndReceiveIter {K : Nat} {me : Party} {x y : List (BitVec K)} (h : SL x y) :
    Alike (fun a b => a.length = x.length ∧ SL a b) (Verif.sendSliceAndReceiveIter me x) (Verif.sendSliceAndReceiveIter me y) :=
  (sendAndReceive (slice_len h)).bind fun _ _ _ => .ofExcept fun _ _ ha hb =>
    ⟨iter_len ha, (iter_len ha).trans (Eq.trans h (iter_len hb).symm)⟩

theorem sendSliceAndReceiveVec {K : Nat} {me : Party} {x y : List (BitVec K)} (h : SL x y) :
    Alike (fun a b => a.length = x.length ∧ SL a b) (Verif.sendSliceAndReceiveVec me x) (Verif.sendSliceAndReceiveVec me y) :=
  (sendAndReceive (slice_len h)).bind fun _ _ _ => .ofExcept fun _ _ ha hb =>
    ⟨vec_len ha, (vec_len ha).trans (Eq.trans h (vec_len hb).symm)⟩

theorem broadcast {me : Party} {m m' : Bytes} (h : m.length = m'.length) :
    Alike Any (Verif.broadcast me m) (Verif.broadcast me m') := by
  fin_cases me
  · exact .send (d := 1) h (.send (d := 2) h (.recv (s := 1) fun _ _ => .recv (s := 2) fun _ _ => .ret trivial))
  · exact .send (d := 0) h (.send (d := 2) h (.recv (s := 0) fun _ _ => .recv (s := 2) fun _ _ => .ret trivial))
  · exact .send (d := 0) h (.send (d := 1) h (.recv (s := 0) fun _ _ => .recv (s := 1) fun _ _ => .ret trivial))

/-- Broadcasting a digest and comparing the three. -/
theorem digests {H : Hash} {me : Party} {m m' : Bytes} :
    Alike (Any : Unit → Unit → Prop)
      (do let hashes ← Verif.broadcast me (H.h m)
          let h0 ← Prog.ofExcept (idx hashes 0)
          let h1 ← Prog.ofExcept (idx hashes 1)
          let h2 ← Prog.ofExcept (idx hashes 2)
          if h0 ≠ h1 ∨ h0 ≠ h2 then .fail .verify else pure ())
      (do let hashes ← Verif.broadcast me (H.h m')
          let h0 ← Prog.ofExcept (idx hashes 0)
          let h1 ← Prog.ofExcept (idx hashes 1)
          let h2 ← Prog.ofExcept (idx hashes 2)
          if h0 ≠ h1 ∨ h0 ≠ h2 then .fail .verify else pure ()) := by
  refine (broadcast (by rw [H.len, H.len])).bind fun _ _ _ => ?_
  refine (Alike.ofExcept (R := Any) fun _ _ _ _ => trivial).bind fun _ _ _ => ?_
  refine (Alike.ofExcept (R := Any) fun _ _ _ _ => trivial).bind fun _ _ _ => ?_
  refine (Alike.ofExcept (R := Any) fun _ _ _ _ => trivial).bind fun _ _ _ => ?_
  split
  · exact .failL
  · split
    · exact .failR
    · exact .ret trivial

theorem hashZeroVerify {K : Nat} {H : Hash} {me : Party} {x y : List (AShare K)} :
    Alike Any (Verif.hashZeroVerify H me x) (Verif.hashZeroVerify H me y) := digests

end Alike

/-! ## Lists -/

theorem SL.zipWith {α β γ α' β' γ' : Type} {f : α → β → γ} {g : α' → β' → γ'} {x : List α} {y : List β} {x' : List α'} {y' : List β'}
    (h : SL x x') (h' : SL y y') : SL (List.zipWith f x y) (List.zipWith g x' y') := by
  simp only [SL, List.length_zipWith] at *; omega

theorem SL.zip {α β α' β' : Type} {x : List α} {y : List β} {x' : List α'} {y' : List β'}
    (h : SL x x') (h' : SL y y') : SL (x.zip y) (x'.zip y') := by
  simp only [SL, List.length_zip] at *; omega

theorem SL.map {α β α' β' : Type} {f : α → β} {g : α' → β'} {x : List α} {x' : List α'} (h : SL x x') : SL (x.map f) (x'.map g) := by
  simpa [SL] using h

theorem SL.append {α β : Type} {x y : List α} {x' y' : List β} (h : SL x x') (h' : SL y y') : SL (x ++ y) (x' ++ y') := by
  simp only [SL, List.length_append] at *; omega

theorem SL.take {α β : Type} {x : List α} {x' : List β} (n : Nat) (h : SL x x') : SL (x.take n) (x'.take n) := by
  simp only [SL, List.length_take] at *; omega

theorem SL.drop {α β : Type} {x : List α} {x' : List β} (n : Nat) (h : SL x x') : SL (x.drop n) (x'.drop n) := by
  simp only [SL, List.length_drop] at *; omega

theorem Shape.len {α β : Type} {x : List (List α)} {y : List (List β)} (h : Shape x y) : SL x y := h.length_eq

theorem Shape.flatten {α β : Type} {x : List (List α)} {y : List (List β)} (h : Shape x y) : SL x.flatten y.flatten := by
  induction h with
  | nil => rfl
  | cons h _ ih => simpa using SL.append h ih

theorem Shape.chunks {α β : Type} {x : List α} {y : List β} (n : Nat) (h : SL x y) : Shape (chunksOf n x) (chunksOf n y) :=
  BinLawful.chunksOf_forall₂ n x y h

theorem Shape.flatMap {α β α' β' : Type} {f : List α → List α'} {g : List β → List β'} {x : List (List α)} {y : List (List β)}
    (h : Shape x y) (hf : ∀ a b, SL a b → SL (f a) (g b)) : SL (x.flatMap f) (y.flatMap g) := by
  induction h with
  | nil => rfl
  | cons h _ ih => simpa using SL.append (hf _ _ h) ih

theorem Shape.zipWith {α β γ α' β' γ' : Type} {f : List α → List β → List γ} {g : List α' → List β' → List γ'}
    {x : List (List α)} {x' : List (List α')} (h : Shape x x')
    (hf : ∀ a b a' b', SL a a' → SL b b' → SL (f a b) (g a' b')) :
    ∀ {y : List (List β)} {y' : List (List β')}, Shape y y' → Shape (List.zipWith f x y) (List.zipWith g x' y') := by
  induction h with
  | nil => intro y y' _; simp
  | cons h _ ih =>
      intro y y' hy
      cases hy with
      | nil => simp
      | cons hy hys => exact .cons (hf _ _ _ _ h hy) (ih hys)

theorem Shape.take {α β : Type} {x : List (List α)} {y : List (List β)} (h : Shape x y) (n : Nat) : Shape (x.take n) (y.take n) :=
  List.forall₂_take n h

theorem Shape.drop {α β : Type} {x : List (List α)} {y : List (List β)} (h : Shape x y) (n : Nat) : Shape (x.drop n) (y.drop n) :=
  List.forall₂_drop n h

theorem Shape.dropLast {α β : Type} {x : List (List α)} {y : List (List β)} (h : Shape x y) : Shape x.dropLast y.dropLast := by
  rw [List.dropLast_eq_take, List.dropLast_eq_take, h.length_eq]; exact h.take _

theorem Shape.getLast {α β : Type} {x : List (List α)} {y : List (List β)} (h : Shape x y) {a b}
    (ha : x.getLast? = some a) (hb : y.getLast? = some b) : SL a b := by
  have h2 := List.rel_reverse h
  rw [List.getLast?_eq_head?_reverse] at ha hb
  cases h2' : x.reverse with
  | nil => rw [h2'] at ha; cases ha
  | cons u us =>
      cases h3 : y.reverse with
      | nil => rw [h3] at hb; cases hb
      | cons v vs =>
          rw [h2'] at ha h2; rw [h3] at hb h2
          cases ha; cases hb
          cases h2 with | cons h _ => exact h

theorem Shape.get {α β : Type} {x : List (List α)} {y : List (List β)} (h : Shape x y) {i : Nat} {a b}
    (ha : x[i]? = some a) (hb : y[i]? = some b) : SL a b := by
  induction h generalizing i with
  | nil => simp at ha
  | cons h _ ih => cases i with
    | zero => simp at ha hb; subst ha hb; exact h
    | succ i => simp at ha hb; exact ih ha hb

/-! ## Local failures -/

namespace PA

theorem idxAny {α β : Type} {x : List α} {y : List β} {n : Nat} :
    PA S Any (Proto.lift (idx x n) : Proto σ α) (Proto.lift (idx y n) : Proto σ β) := PA.lift fun _ _ _ _ => trivial

theorem idxShape {α β : Type} {x : List (List α)} {y : List (List β)} {n : Nat} (h : Shape x y) :
    PA S SL (Proto.lift (idx x n) : Proto σ _) (Proto.lift (idx y n) : Proto σ _) := PA.lift fun a b ha hb => by
  unfold idx at ha hb
  cases hx : x[n]? with
  | none => rw [hx] at ha; cases ha
  | some u => cases hy : y[n]? with
    | none => rw [hy] at hb; cases hb
    | some v =>
        rw [hx] at ha; rw [hy] at hb; cases ha; cases hb
        exact h.get hx hy

theorem popShape {α β : Type} {x : List (List α)} {y : List (List β)} (h : Shape x y) :
    PA S (fun a b => SL a.1 b.1 ∧ Shape a.2 b.2) (Proto.lift (popE x) : Proto σ _) (Proto.lift (popE y) : Proto σ _) :=
  PA.lift fun a b ha hb => by
    unfold popE at ha hb
    cases hx : x.getLast? with
    | none => rw [hx] at ha; cases ha
    | some u => cases hy : y.getLast? with
      | none => rw [hy] at hb; cases hb
      | some v =>
          rw [hx] at ha; rw [hy] at hb; cases ha; cases hb
          exact ⟨h.getLast hx hy, h.dropLast⟩

theorem popLen {α β : Type} {x : List α} {y : List β} (h : SL x y) :
    PA S (fun a b => SL a.2 b.2) (Proto.lift (popE x) : Proto σ _) (Proto.lift (popE y) : Proto σ _) :=
  PA.lift fun a b ha hb => by
    unfold popE at ha hb
    cases hx : x.getLast? with
    | none => rw [hx] at ha; cases ha
    | some u => cases hy : y.getLast? with
      | none => rw [hy] at hb; cases hb
      | some v =>
          rw [hx] at ha; rw [hy] at hb; cases ha; cases hb
          simp only [SL, List.length_dropLast] at *; omega

theorem chunks {α β : Type} {x : List α} {y : List β} (n n' : Nat) (hn : n = n') (h : SL x y) :
    PA S Shape (Proto.lift (chunksE n x) : Proto σ _) (Proto.lift (chunksE n' y) : Proto σ _) := PA.lift fun a b ha hb => by
  subst hn
  unfold chunksE at ha hb
  split at ha
  · cases ha
  · cases ha; rw [if_neg (by assumption)] at hb; cases hb; exact Shape.chunks n h

end PA

/-! ## Binary circuits -/

/-- The gates of a backend have the same traffic on inputs of the same size. -/
structure BinAlike {B : Type} (S : σ → σ → Prop) (o : BinOps σ B) : Prop where
  and : ∀ a b a' b', PA S Any (o.and a b) (o.and a' b')
  andMany : ∀ {a b a' b'}, SL a a' → SL b b' → PA S SL (o.andMany a b) (o.andMany a' b')

namespace BinAlike

variable {B : Type} {o : BinOps σ B}

theorem xorMany {a b a' b' : List B} (h : SL a a') (h' : SL b b') :
    PA S SL (Proto.lift (o.xorMany a b) : Proto σ _) (Proto.lift (o.xorMany a' b') : Proto σ _) := PA.lift fun x y hx hy => by
  unfold BinOps.xorMany at hx hy
  split at hx
  · cases hx
  · split at hy
    · cases hy
    · cases hx; cases hy; exact SL.zipWith h h'

theorem shlMany {a a' : List B} {n : Nat} (h : SL a a') : SL (o.shlMany a n) (o.shlMany a' n) := SL.map h

theorem or (L : BinAlike S o) (a b a' b' : B) : PA S Any (o.or a b) (o.or a' b') :=
  (L.and a b a' b').bind fun _ _ _ => PA.pure trivial

theorem orMany (L : BinAlike S o) {a b a' b' : List B} (h : SL a a') (h' : SL b b') :
    PA S SL (o.orMany a b) (o.orMany a' b') :=
  PA.guard fun _ _ => (L.andMany h h').bind fun _ _ hy => (xorMany h h').bind fun _ _ hx => xorMany hy hx

theorem koggeLoop (L : BinAlike S o) : ∀ (n i : Nat) (p g p' g' : B), PA S Any (o.koggeLoop n i p g) (o.koggeLoop n i p' g')
  | 0, _, _, _, _, _ => PA.pure trivial
  | n + 1, i, p, g, p', g' =>
      (L.andMany (a := [p, p]) (a' := [p', p']) (b := [o.shl g (2 ^ i), o.shl p (2 ^ i)])
        (b' := [o.shl g' (2 ^ i), o.shl p' (2 ^ i)]) rfl rfl).bind fun _ _ _ =>
        PA.idxAny.bind fun _ _ _ => PA.idxAny.bind fun _ _ _ => koggeLoop L n (i + 1) _ _ _ _

theorem binaryAdd3 (L : BinAlike S o) (K : Nat) (x1 x2 x3 y1 y2 y3 : B) :
    PA S Any (o.binaryAdd3 K x1 x2 x3) (o.binaryAdd3 K y1 y2 y3) :=
  (L.and _ _ _ _).bind fun _ _ _ => (L.and _ _ _ _).bind fun _ _ _ => (L.koggeLoop _ _ _ _ _ _).bind fun _ _ _ =>
    PA.pure trivial

theorem koggeLoopMany (L : BinAlike S o) (len : Nat) : ∀ (n i : Nat) {p g p' g' : List B}, SL p p' → SL g g' →
    PA S (fun x y => SL x.1 y.1 ∧ SL x.2 y.2) (o.koggeLoopMany len n i p g) (o.koggeLoopMany len n i p' g')
  | 0, _, _, _, _, _, hp, hg => PA.pure ⟨hp, hg⟩
  | n + 1, i, _, _, _, _, hp, hg =>
      (L.andMany (SL.append hp hp) (SL.append (shlMany hg) (shlMany hp))).bind fun _ _ hr =>
        (xorMany hg (SL.take len hr)).bind fun _ _ hg' => koggeLoopMany L len n (i + 1) (SL.drop len hr) hg'

theorem binaryAdd3Many (L : BinAlike S o) (K : Nat) {x1 x2 x3 y1 y2 y3 : List B} (h1 : SL x1 y1) (h2 : SL x2 y2)
    (h3 : SL x3 y3) : PA S SL (o.binaryAdd3Many K x1 x2 x3) (o.binaryAdd3Many K y1 y2 y3) := by
  unfold BinOps.binaryAdd3Many
  rw [show x1.length = y1.length from h1]
  refine PA.guard fun _ _ => ?_
  refine (xorMany h2 h3).bind fun _ _ h23 => (xorMany h1 h23).bind fun _ _ hs => (xorMany h1 h3).bind fun _ _ h13 => ?_
  refine (L.andMany h13 h23).bind fun _ _ hc => (xorMany hc h3).bind fun _ _ hc => ?_
  refine (xorMany hs (shlMany hc)).bind fun _ _ hp => (L.andMany hs (shlMany hc)).bind fun _ _ hg => ?_
  refine (L.koggeLoopMany _ _ _ hp hg).bind ?_
  rintro ⟨_, _⟩ ⟨_, _⟩ ⟨_, hg⟩
  exact xorMany hp (shlMany hg)

theorem orChunks (L : BinAlike S o) : ∀ {x y : List (List B × List B)},
    List.Forall₂ (fun a b => SL a.1 b.1 ∧ SL a.2 b.2) x y → PA S SL (o.orChunks x) (o.orChunks y)
  | _, _, .nil => PA.pure rfl
  | _, _, .cons (a := (_, _)) (b := (_, _)) h t =>
      (L.orMany h.1 h.2).bind fun _ _ hr => (orChunks L t).bind fun _ _ hs => PA.pure (SL.append hr hs)

theorem zipShape {α β α' β' : Type} {x : List (List α)} {x' : List (List α')} (h : Shape x x') :
    ∀ {y : List (List β)} {y' : List (List β')}, Shape y y' →
      List.Forall₂ (fun a b => SL a.1 b.1 ∧ SL a.2 b.2) (x.zip y) (x'.zip y') := by
  induction h with
  | nil => intro y y' _; simp
  | cons h _ ih =>
      intro y y' hy
      cases hy with
      | nil => simp
      | cons hy hys => exact .cons ⟨h, hy⟩ (ih hys)

theorem orTreeLoop (L : BinAlike S o) (cs : Nat) : ∀ (num : Nat) {x y : List B}, SL x y →
    PA S SL (o.orTreeLoop cs num x) (o.orTreeLoop cs num y) := by
  intro num
  induction num using Nat.strong_induction_on with
  | _ num ih =>
      intro x y h
      unfold BinOps.orTreeLoop
      by_cases hn : num > 1
      · rw [if_pos hn, if_pos hn]
        refine PA.guard fun _ _ => ?_
        refine (PA.chunks _ _ rfl (SL.take _ h)).bind fun _ _ ha => ?_
        refine (PA.chunks _ _ rfl (SL.take _ (SL.drop _ h))).bind fun _ _ hb => ?_
        refine (L.orChunks (zipShape ha hb)).bind fun _ _ hr => ?_
        exact ih _ (by omega) (SL.append hr (SL.drop _ (SL.drop _ h)))
      · rw [if_neg hn, if_neg hn]; exact PA.pure h

theorem orTree (L : BinAlike S o) (cs : Nat) {x y : List B} (h : SL x y) : PA S Any (o.orTree cs x) (o.orTree cs y) := by
  unfold BinOps.orTree
  rw [show x.length = y.length from h]
  exact (L.orTreeLoop cs _ h).bind fun _ _ _ => PA.idxAny

end BinAlike

/-- The same for all widths; rearranging bits preserves sizes. -/
structure FamAlike {B : Nat → Type} (S : σ → σ → Prop) (f : BinFam σ B) : Prop where
  ops : ∀ K, BinAlike S (f.ops K)
  mapLists : ∀ {K L : Nat} (g : List (BitVec K) → List (BitVec L)), (∀ l l', SL l l' → SL (g l) (g l')) →
    ∀ {x y : List (B K)}, SL x y → SL (f.mapLists g x) (f.mapLists g y)

namespace FamAlike

variable {B : Nat → Type} {f : BinFam σ B}

theorem pack (F : FamAlike S f) (W : Nat) {x y : List (B 1)} (h : SL x y) : SL (f.pack W x) (f.pack W y) :=
  (Shape.chunks W h).flatMap fun _ _ hab => F.mapLists _ (fun _ _ _ => rfl) hab

theorem reduceHalf (F : FamAlike S f) {T : Nat} (U : Nat) (x y : B T) : PA S Any (f.reduceHalf U x) (f.reduceHalf U y) :=
  PA.idxAny.bind fun _ _ _ => PA.idxAny.bind fun _ _ _ => (F.ops U).or _ _ _ _

theorem reduceLoop (F : FamAlike S f) : ∀ (k : Nat) {x y : List (B 1)}, SL x y →
    PA S SL (f.reduceLoop k x) (f.reduceLoop k y) := by
  intro k
  induction k using Nat.strong_induction_on with
  | _ k ih =>
      intro x y h
      unfold BinFam.reduceLoop
      by_cases hk : k ≤ 1
      · rw [if_pos hk, if_pos hk]; exact PA.pure h
      · rw [if_neg hk, if_neg hk]
        exact ((F.ops 1).orMany (SL.take _ h) (SL.drop _ h)).bind fun _ _ hd => ih _ (by omega) hd

theorem flatBits {K : Nat} {l l' : List (BitVec K)} (h : SL l l') : SL (l.flatMap toBits) (l'.flatMap toBits) := by
  simp only [SL, List.length_flatMap, toBits_length, List.map_const', List.sum_replicate] at *; rw [h]

theorem reduceOrU8 (F : FamAlike S f) (x y : B 8) : PA S Any (f.reduceOrU8 x) (f.reduceOrU8 y) :=
  (F.reduceLoop 8 (F.mapLists _ (fun _ _ h => flatBits h) (x := [x]) (y := [y]) rfl)).bind fun _ _ _ => PA.idxAny

theorem reduceOrU128 (F : FamAlike S f) (x y : B 128) : PA S Any (f.reduceOrU128 x) (f.reduceOrU128 y) :=
  (F.reduceHalf 64 x y).bind fun _ _ _ => (F.reduceHalf 32 _ _).bind fun _ _ _ => (F.reduceHalf 16 _ _).bind fun _ _ _ =>
    (F.reduceHalf 8 _ _).bind fun _ _ _ => F.reduceOrU8 _ _

theorem reduceBinaryOr (F : FamAlike S f) (cs : Nat) {x y : List (B 1)} (h : SL x y) :
    PA S Any (f.reduceBinaryOr x cs) (f.reduceBinaryOr y cs) :=
  ((F.ops 128).orTree cs (F.pack 128 h)).bind fun _ _ _ => F.reduceOrU128 _ _

theorem zipCol {α β : Type} {res : List (List α)} {res' : List (List β)} (h : Shape res res') :
    ∀ {l : List α} {l' : List β}, SL l l' →
      Shape (List.zipWith (fun des src => des ++ [src]) res l) (List.zipWith (fun des src => des ++ [src]) res' l') := by
  induction h with
  | nil => intro l l' _; simp
  | cons h _ ih =>
      intro l l' hl
      cases l with
      | nil => cases l' with
        | nil => simp
        | cons => simp [SL] at hl
      | cons a l => cases l' with
        | nil => simp [SL] at hl
        | cons b l' => exact .cons (SL.append h rfl) (ih (by simpa [SL] using hl))

theorem transposePack (F : FamAlike S f) {K : Nat} {x y : List (B K)} (h : SL x y) :
    Shape (f.transposePack x) (f.transposePack y) := by
  unfold BinFam.transposePack
  have h0 : Shape (List.replicate K ([] : List (B 128))) (List.replicate K ([] : List (B 128))) :=
    List.forall₂_same.2 fun _ _ => rfl
  generalize List.replicate K ([] : List (B 128)) = a at h0
  have : ∀ {u v : List (List (B K))}, Shape u v → ∀ {a b : List (List (B 128))}, Shape a b →
      Shape (u.foldl (fun res ch => List.zipWith (fun des src => des ++ [src]) res (f.mapLists (transposeInput K 128) ch)) a)
        (v.foldl (fun res ch => List.zipWith (fun des src => des ++ [src]) res (f.mapLists (transposeInput K 128) ch)) b) := by
    intro u v huv
    induction huv with
    | nil => intro a b hab; exact hab
    | cons h _ ih =>
        intro a b hab
        simp only [List.foldl_cons]
        exact ih (zipCol hab (F.mapLists _ (fun l l' _ => by simp only [SL, Uni.transposeInput_length]) h))
  exact this (Shape.chunks 128 h) h0

theorem transposedXor {x1 x2 y1 y2 : List (List (B 128))} (h1 : Shape x1 y1) (h2 : Shape x2 y2) :
    Shape (f.transposedXor x1 x2) (f.transposedXor y1 y2) := h1.zipWith (fun _ _ _ _ h h' => SL.zipWith h h') h2

theorem transposedAnd (F : FamAlike S f) {x1 x2 y1 y2 : List (List (B 128))} (h1 : Shape x1 y1) (h2 : Shape x2 y2) :
    PA S Shape (f.transposedAnd x1 x2) (f.transposedAnd y1 y2) :=
  (PA.idxShape h1).bind fun _ _ hf => ((F.ops 128).andMany h1.flatten h2.flatten).bind fun _ _ h => PA.chunks _ _ hf h

theorem rippleLoop (F : FamAlike S f) : ∀ {x y : List (List (B 128) × List (B 128))} {c d : List (B 128)},
    List.Forall₂ (fun a b => SL a.1 b.1 ∧ SL a.2 b.2) x y → SL c d → PA S SL (f.rippleLoop x c) (f.rippleLoop y d)
  | _, _, _, _, .nil, hc => PA.pure hc
  | _, _, _, _, .cons (a := (_, _)) (b := (_, _)) h t, hc =>
      (BinAlike.xorMany h.1 hc).bind fun _ _ ha => (BinAlike.xorMany h.2 hc).bind fun _ _ hb =>
        ((F.ops 128).andMany ha hb).bind fun _ _ hm => (BinAlike.xorMany hm hc).bind fun _ _ hc' => rippleLoop F t hc'

theorem flatMapLen {α β α' β' : Type} {g : α → List α'} {g' : β → List β'} (hg : ∀ a b, SL (g a) (g' b)) :
    ∀ {x : List α} {y : List β}, SL x y → SL (x.flatMap g) (y.flatMap g')
  | [], [], _ => rfl
  | [], _ :: _, h => by simp [SL] at h
  | _ :: _, [], h => by simp [SL] at h
  | a :: x, b :: y, h => by
      simpa using SL.append (hg a b) (flatMapLen hg (x := x) (y := y) (by simpa [SL] using h))

theorem msbAdderMany (F : FamAlike S f) {K : Nat} {x1 x2 x3 y1 y2 y3 : List (B K)} (h1 : SL x1 y1) (h2 : SL x2 y2)
    (h3 : SL x3 y3) : PA S SL (f.msbAdderMany x1 x2 x3) (f.msbAdderMany y1 y2 y3) := by
  unfold BinFam.msbAdderMany
  rw [show x1.length = y1.length from h1]
  refine PA.guard fun _ _ => ?_
  have t1 := F.transposePack h1
  have t2 := F.transposePack h2
  have t3 := F.transposePack h3
  have t23 := transposedXor (f := f) t2 t3
  have ts := transposedXor (f := f) t1 t23
  have t13 := transposedXor (f := f) t1 t3
  refine (PA.popShape t13).bind ?_
  rintro ⟨_, _⟩ ⟨_, _⟩ ⟨_, p13⟩
  refine (PA.popShape t23).bind ?_
  rintro ⟨_, _⟩ ⟨_, _⟩ ⟨_, p23⟩
  refine (PA.popShape t3).bind ?_
  rintro ⟨_, _⟩ ⟨_, _⟩ ⟨_, p3⟩
  refine (F.transposedAnd p13 p23).bind fun _ _ hc => ?_
  have hb := transposedXor (f := f) hc p3
  refine (PA.idxShape ts).bind fun _ _ ha1 => (PA.idxShape hb).bind fun _ _ hb0 => ?_
  refine ((F.ops 128).andMany ha1 hb0).bind fun _ _ hc => ?_
  refine (PA.popShape ts).bind ?_
  rintro ⟨_, _⟩ ⟨_, _⟩ ⟨hAm, hA⟩
  refine (PA.popShape hb).bind ?_
  rintro ⟨_, _⟩ ⟨_, _⟩ ⟨hBm, hB⟩
  refine (F.rippleLoop (BinAlike.zipShape (hA.drop 2) (hB.drop 1)) hc).bind fun _ _ hc => ?_
  refine (BinAlike.xorMany hAm hBm).bind fun _ _ hr => (BinAlike.xorMany hr hc).bind fun _ _ hr => ?_
  refine PA.pure ?_
  have hbits := flatMapLen (g := fun t => f.mapLists (fun l => l.flatMap toBits) [t])
    (g' := fun t => f.mapLists (fun l => l.flatMap toBits) [t])
    (fun a b => F.mapLists _ (fun _ _ h => flatBits h) (x := [a]) (y := [b]) rfl) hr
  simp only [SL, resize, List.length_append, List.length_take, List.length_replicate] at hbits ⊢
  omega

end FamAlike

/-! ## The iris protocol -/

/-- What the matching protocol uses of a backend. -/
structure OpsAlike {A B : Type} {K : Nat} (S : σ → σ → Prop) (o : MpcOps σ A B K) : Prop where
  maskedDotMany : ∀ {a a' b b' m m'}, SL a a' → Shape b b' → SL m m' →
    PA S SL (o.maskedDotMany a b m) (o.maskedDotMany a' b' m')
  getMsb : ∀ a a', PA S Any (o.getMsb a) (o.getMsb a')
  getMsbMany : ∀ {a a'}, SL a a' → PA S SL (o.getMsbMany a) (o.getMsbMany a')
  reduceBinaryOr : ∀ {a a'} n, SL a a' → PA S Any (o.reduceBinaryOr a n) (o.reduceBinaryOr a' n)
  precompute : ∀ n, PA S Any (o.precompute n) (o.precompute n)
  verify : PA S Any o.verify o.verify
  openBit : ∀ b b', PA S Any (o.openBit b) (o.openBit b')

namespace OpsAlike

variable {A B : Type} {K : Nat} {o : MpcOps σ A B K}

theorem bindE {α β : Type} {x : Except Err α} {f : α → Except Err β} {b : β} (h : (x >>= f) = .ok b) :
    ∃ a, x = .ok a ∧ f a = .ok b := by
  cases x with
  | error e => cases h
  | ok a => exact ⟨a, rfl, h⟩

theorem hammingLoop_len {a : List A} : ∀ {l : List ((List A × A) × IrisCodeArray)} {r : List A},
    Iris.hammingLoop o a l = .ok r → r.length = l.length
  | [], _, h => by cases h; rfl
  | ((_, _), _) :: _, _, h => by
      obtain ⟨_, _, h⟩ := bindE h
      obtain ⟨_, h', h⟩ := bindE h
      cases h; simp [hammingLoop_len h']

theorem diffLoop_len {st : σ} : ∀ {l : List (A × Nat)} {r : List A}, Iris.diffLoop o st l = .ok r → r.length = l.length
  | [], _, h => by cases h; rfl
  | (_, _) :: _, _, h => by
      obtain ⟨_, _, h⟩ := bindE h
      obtain ⟨_, h', h⟩ := bindE h
      cases h; simp [diffLoop_len h']

theorem combineAll_len {m : IrisCodeArray} : ∀ {l r : List IrisCodeArray}, Iris.combineAll m l = .ok r → r.length = l.length
  | [], _, h => by cases h; rfl
  | _ :: _, _, h => by
      obtain ⟨_, _, h⟩ := bindE h
      obtain ⟨_, h', h⟩ := bindE h
      cases h; simp [combineAll_len h']

theorem hammingMany (L : OpsAlike S o) {a a' : List A} {b b' : List (List A)} {m m' : List IrisCodeArray} (ha : SL a a')
    (hb : Shape b b') (hm : SL m m') : PA S SL (Iris.hammingMany o a b m) (Iris.hammingMany o a' b' m') :=
  (L.maskedDotMany ha hb hm).bind fun _ _ hd => PA.lift fun _ _ hx hy => by
    rw [SL, hammingLoop_len hx, hammingLoop_len hy]; exact SL.zip (SL.zip hb.len hd) hm

theorem compareThresholdMany (L : OpsAlike S o) {h h' : List A} {m m' : List Nat} (hh : SL h h') (hm : SL m m') :
    PA S SL (Iris.compareThresholdMany o h m) (Iris.compareThresholdMany o h' m') :=
  PA.guard fun _ _ => PA.get.bind fun _ _ _ =>
    (PA.lift (R := SL) fun _ _ hx hy => by rw [SL, diffLoop_len hx, diffLoop_len hy]; exact SL.zip hh hm).bind
      fun _ _ hd => L.getMsbMany hd

theorem compareIrisMany (L : OpsAlike S o) {a a' : List A} {b b' : List (List A)} {mA mA' : IrisCodeArray}
    {m m' : List IrisCodeArray} (ha : SL a a') (hb : Shape b b') (hm : SL m m') :
    PA S SL (Iris.compareIrisMany o a b mA m) (Iris.compareIrisMany o a' b' mA' m') :=
  PA.guard fun _ _ =>
    (PA.lift (R := SL) fun _ _ hx hy => by rw [SL, combineAll_len hx, combineAll_len hy]; exact hm).bind fun _ _ hc =>
      (L.hammingMany ha hb hc).bind fun _ _ hh => L.compareThresholdMany hh (SL.map hc)

theorem chunkLoop (L : OpsAlike S o) {a a' : List A} {mA mA' : IrisCodeArray} (ha : SL a a') :
    ∀ {x y : List (List (List A) × List IrisCodeArray)},
      List.Forall₂ (fun u v => Shape u.1 v.1 ∧ SL u.2 v.2) x y → PA S SL (Iris.chunkLoop o a mA x) (Iris.chunkLoop o a' mA' y)
  | _, _, .nil => PA.pure rfl
  | _, _, .cons (a := (_, _)) (b := (_, _)) h t =>
      (L.compareIrisMany ha h.1 h.2).bind fun _ _ hr => (chunkLoop L ha t).bind fun _ _ hs => PA.pure (SL.append hr hs)

theorem chunksShape {α β : Type} (n : Nat) (x : List (List α)) (y : List (List β)) (h : Shape x y) :
    List.Forall₂ Shape (chunksOf n x) (chunksOf n y) := by
  induction hk : x.length using Nat.strong_induction_on generalizing x y with
  | _ k ih =>
    by_cases hc : n = 0 ∨ x = []
    · have h1 : chunksOf n x = [] := by unfold chunksOf; rw [dif_pos hc]
      have h2 : chunksOf n y = [] := by
        unfold chunksOf; rw [dif_pos]
        rcases hc with hc | hc
        · exact .inl hc
        · subst hc; cases h; exact .inr rfl
      rw [h1, h2]; exact .nil
    · have hc' : ¬ (n = 0 ∨ y = []) := by
        push Not at hc ⊢
        refine ⟨hc.1, ?_⟩
        rintro rfl
        cases h; exact hc.2 rfl
      have h1 : chunksOf n x = x.take n :: chunksOf n (x.drop n) := by rw [chunksOf, dif_neg hc]
      have h2 : chunksOf n y = y.take n :: chunksOf n (y.drop n) := by rw [chunksOf, dif_neg hc']
      rw [h1, h2]
      push Not at hc
      have hx : 0 < x.length := List.length_pos_iff.2 hc.2
      refine .cons (h.take n) (ih _ ?_ _ _ (h.drop n) rfl)
      simp only [List.length_drop]; omega

theorem zipChunks {α β γ δ : Type} {u : List (List (List α))} {v : List (List (List β))} (h : List.Forall₂ Shape u v) :
    ∀ {m : List (List γ)} {m' : List (List δ)}, Shape m m' →
      List.Forall₂ (fun u v => Shape u.1 v.1 ∧ SL u.2 v.2) (u.zip m) (v.zip m') := by
  induction h with
  | nil => intro m m' _; simp
  | cons h _ ih =>
      intro m m' hm
      cases hm with
      | nil => simp
      | cons hm hms => exact .cons ⟨h, hm⟩ (ih hms)

/-- One query: the traffic depends only on the numbers of elements. -/
theorem irisInDb (L : OpsAlike S o) {a a' : List A} {b b' : List (List A)} {mA mA' : IrisCodeArray} {m m' : List IrisCodeArray}
    (ha : SL a a') (hb : Shape b b') (hm : SL m m') (cs : Nat) :
    PA S Any (Iris.irisInDb o a b mA m cs) (Iris.irisInDb o a' b' mA' m' cs) := by
  unfold Iris.irisInDb
  have hl : b.length = b'.length := hb.len
  rw [hl]
  refine PA.guard fun _ _ => ?_
  refine (PA.lift (R := Eq) fun _ _ hx hy => ?_).bind ?_
  · rw [hx] at hy; cases hy; rfl
  rintro n _ rfl
  refine (L.precompute n).bind fun _ _ _ => ?_
  refine (PA.lift (R := List.Forall₂ Shape) fun x y hx hy => ?_).bind fun _ _ hbc => ?_
  · unfold chunksE at hx hy
    split at hx
    · cases hx
    · cases hx; rw [if_neg (by assumption)] at hy; cases hy; exact chunksShape cs b b' hb
  refine (PA.chunks _ _ rfl hm).bind fun _ _ hmc => ?_
  refine (L.chunkLoop ha (zipChunks hbc hmc)).bind fun _ _ hr => ?_
  exact (L.reduceBinaryOr cs hr).bind fun _ _ _ => L.verify.unwrap.bind fun _ _ _ => L.openBit _ _

end OpsAlike

end Verif
