import Verif.Spec.Exact
import Verif.Proof.Cost

/-!
# The exact sequence of actions: a calculus, and ABY3
-/

namespace Verif

/-- Every path of the program that returns performs exactly the actions `es`, and the result satisfies `R`. -/
inductive Exact {α : Type} (R : α → Prop) : List WireEvent → Prog α → Prop
  | ret {a} (h : R a) : Exact R [] (.ret a)
  | fail {es e} : Exact R es (.fail e)
  | send {es d m k} (t : Exact R es k) : Exact R (.sent d m.length :: es) (.send d m k)
  | recv {es s k} (t : ∀ m, Exact R es (k m)) : Exact R (.took s :: es) (.recv s k)

namespace Exact

theorem events {α : Type} {R : α → Prop} {es : List WireEvent} {p : Prog α} (h : Exact R es p) :
    ∀ i, (p.traffic i).finished = true → (p.traffic i).events = es := by
  induction h with
  | ret h => intro i _; rfl
  | fail => intro i h; simp [Prog.traffic] at h
  | send t ih =>
      intro i h
      simp only [Prog.traffic] at h ⊢
      rw [ih i h]
  | recv t ih =>
      intro i h
      simp only [Prog.traffic] at h ⊢
      rw [ih _ _ h]

theorem bind {α β : Type} {R : α → Prop} {R' : β → Prop} {n n' : List WireEvent} {p : Prog α} {f : α → Prog β} (h : Exact R n p)
    (hf : ∀ a, R a → Exact R' n' (f a)) : Exact R' (n ++ n') (p >>= f) := by
  induction h with
  | ret h => exact hf _ h
  | fail => exact .fail
  | send t ih => exact .send ih
  | recv t ih => exact .recv ih

theorem ofExcept {α : Type} {R : α → Prop} {x : Except Err α} (h : ∀ a, x = .ok a → R a) : Exact R [] (Prog.ofExcept x) := by
  cases x with
  | error e => exact .fail
  | ok a => exact .ret (h a rfl)

theorem unwrap {α : Type} {R : α → Prop} {n : List WireEvent} {p : Prog α} (h : Exact R n p) : Exact R n p.unwrap := by
  induction h with
  | ret h => exact .ret h
  | fail => exact .fail
  | send t ih => exact .send ih
  | recv t ih => exact .recv ih

theorem sendAndReceive {me : Party} {m : Bytes} : Exact (fun _ => True) (exchanges me [m.length]) (Verif.sendAndReceive me m) :=
  .send (.recv fun _ => .ret trivial)

theorem sendAndReceiveValue {K : Nat} {me : Party} {x : BitVec K} :
    Exact (fun _ => True) (exchanges me [byteLen K]) (Verif.sendAndReceiveValue me x) := by
  have h : Exact (fun _ => True) (_ ++ []) (Verif.sendAndReceiveValue me x) :=
    sendAndReceive.bind fun _ _ => .ofExcept fun _ _ => trivial
  simpa using h

theorem sendSliceAndReceiveIter {K : Nat} {me : Party} {x : List (BitVec K)} :
    Exact (fun a => a.length = x.length) (exchanges me [x.length * byteLen K]) (Verif.sendSliceAndReceiveIter me x) := by
  have h : Exact (fun a => a.length = x.length) (_ ++ []) (Verif.sendSliceAndReceiveIter me x) :=
    sendAndReceive.bind fun _ _ => .ofExcept fun _ h => Alike.iter_len h
  rw [ringSliceToBytes_length, List.append_nil] at h
  exact h

end Exact

/-- The same for stateful code that exchanges messages of the lengths `n`. -/
def PX {σ α : Type} (me : Party) (R : α → Prop) (n : List Nat) (p : Proto σ α) : Prop :=
  ∀ s, Exact (fun x => R x.1) (exchanges me n) (p s)

namespace PX

variable {σ α β : Type} {R : α → Prop} {R' : β → Prop} {n n' N : List Nat} {me : Party}

theorem exchanges {p : Proto σ α} (h : PX me R n p) : Exchanges me n p := fun s => (h s).events

theorem bind {p : Proto σ α} {f : α → Proto σ β} (h : PX me R n p) (hf : ∀ a, R a → PX me R' n' (f a)) (e : n ++ n' = N) :
    PX me R' N (p >>= f) := by
  intro s
  subst e
  have := (h s).bind fun a ha => hf a.1 ha a.2
  rwa [Verif.exchanges, Verif.exchanges, ← List.flatMap_append] at this

/-- First a local computation. -/
theorem bind0 {p : Proto σ α} {f : α → Proto σ β} (h : PX me R [] p) (hf : ∀ a, R a → PX me R' n (f a)) : PX me R' n (p >>= f) :=
  h.bind hf (List.nil_append n)

theorem pure {a : α} (h : R a) : PX me R [] (pure a : Proto σ α) := fun _ => .ret h

theorem throw {e : Err} : PX me R n (Proto.throw e : Proto σ α) := fun _ => .fail

theorem net {p : Prog α} (h : Exact R (Verif.exchanges me n) p) : PX me R n (Proto.net p : Proto σ α) := fun s => by
  have : Exact (fun x => R x.1) (Verif.exchanges me n ++ []) ((Proto.net p : Proto σ α) s) := h.bind fun _ ha => .ret ha
  rwa [List.append_nil] at this

theorem lift {x : Except Err α} (h : ∀ a, x = .ok a → R a) : PX me R [] (Proto.lift x : Proto σ α) := net (Exact.ofExcept h)

theorem step {f : σ → α × σ} : PX me Anything [] (Proto.step f) := fun _ => .ret trivial

theorem get : PX me Anything [] (get : Proto σ σ) := fun _ => .ret trivial

theorem unwrap {p : Proto σ α} (h : PX me R n p) : PX me R n p.unwrap := fun s => (h s).unwrap

theorem cast {p : Proto σ α} (h : PX me R n p) (e : n = n') : PX me R n' p := e ▸ h

/-- A test whose failure ends the function. -/
theorem guard {c : Prop} [Decidable c] {e : Err} {p : Proto σ α} (h : ¬ c → PX me R n p) :
    PX me R n (if c then Proto.throw e else p) := by
  by_cases hc : c
  · simp only [hc, if_true]; exact throw
  · simpa only [hc, if_false] using h hc

/-- Indexing is local. -/
theorem idx {x : List α} {k : Nat} : PX me Anything [] (Proto.lift (idx x k) : Proto σ α) := lift fun _ _ => trivial

theorem idxRect {x : List (List α)} {k m w : Nat} (h : Rect m w x) : PX me (Len w) [] (Proto.lift (Verif.idx x k) : Proto σ _) :=
  lift fun a ha => by
    unfold Verif.idx at ha
    cases hx : x[k]? with
    | none => rw [hx] at ha; cases ha
    | some u => rw [hx] at ha; cases ha; exact h.2 _ (List.mem_of_getElem? hx)

theorem popRect {x : List (List α)} {m w : Nat} (h : Rect m w x) :
    PX me (fun a => Len w a.1 ∧ Rect (m - 1) w a.2) [] (Proto.lift (popE x) : Proto σ _) :=
  lift fun a ha => by
    unfold popE at ha
    cases hx : x.getLast? with
    | none => rw [hx] at ha; cases ha
    | some u =>
        rw [hx] at ha; cases ha
        exact ⟨h.2 _ (List.mem_of_getLast? hx), by simp [h.1], fun r hr => h.2 r (List.dropLast_subset _ hr)⟩

theorem everyoneExchanges {α : Type} {p : Party → Proto σ α} {R : α → Prop} (h : ∀ i, PX i R n (p i)) (st : Party → σ) :
    EveryoneExchanges n fun i => p i (st i) := by
  intro es c hw hr i
  obtain ⟨u, hu⟩ := hw.traffic i (hr i)
  have := (h i (st i)).events u
  simp only [Config.init] at hu
  rw [hu] at this
  exact this rfl

end PX

namespace Aby3

variable {G : Prg} {K : Nat} {me : Party}

theorem exact_zero : PX me Anything [] (genZero (G := G) K) := PX.step

theorem exact_binZero : PX me Anything [] (genBinZero (G := G) K) := PX.step

theorem exact_andLoop : ∀ x : List (AShare K × AShare K), PX me (Len x.length) [] (andLoop (G := G) x)
  | [] => PX.pure rfl
  | (_, _) :: x => exact_binZero.bind0 fun _ _ => (exact_andLoop x).bind0 fun _ hr => PX.pure (by simpa [Len] using hr)

theorem exact_maskedDotLoop (a : List (AShare K)) : ∀ x : List (List (AShare K) × IrisCodeArray),
    PX me (Len x.length) [] (maskedDotLoop (G := G) a x)
  | [] => PX.pure rfl
  | (_, _) :: x => exact_zero.bind0 fun _ _ => PX.guard fun _ => (exact_maskedDotLoop a x).bind0 fun _ hr =>
      PX.pure (by simpa [Len] using hr)

theorem exact_reshare {x : List (BitVec K)} {n : Nat} (h : x.length = n) :
    PX me (Len n) [n * byteLen K]
      (do let r ← (Proto.net (sendSliceAndReceiveIter me x) : Proto (Aby3St G) _); pure (List.zipWith AShare.mk x r)) := by
  subst h
  exact (PX.net Exact.sendSliceAndReceiveIter).bind (n' := []) (fun _ hr => PX.pure (by simp [Len, hr])) rfl

theorem exact_maskedDotMany {a : List (AShare K)} {b : List (List (AShare K))} {m : List IrisCodeArray} {n : Nat}
    (h : b.length = n) (h' : m.length = n) : PX me (Len n) [n * byteLen K] (maskedDotMany (G := G) me a b m) :=
  PX.guard fun _ => (exact_maskedDotLoop a _).bind0 fun _ hr => exact_reshare (by simpa [Len, h, h'] using hr)

theorem exact_value {x : BitVec K} : PX me Anything [byteLen K] (Proto.net (sendAndReceiveValue me x) : Proto (Aby3St G) _) :=
  PX.net Exact.sendAndReceiveValue

theorem exact_and (a b : AShare K) : PX me Anything [byteLen K] (and (G := G) me a b) :=
  exact_binZero.bind0 fun _ _ => exact_value.bind (n' := []) (fun _ _ => PX.pure trivial) rfl

theorem exact_andMany {a b : List (AShare K)} {n : Nat} (h : a.length = n) :
    PX me (Len n) [n * byteLen K] (andMany (G := G) me a b) :=
  PX.guard fun hc => (exact_andLoop _).bind0 fun _ hr => exact_reshare (by
    push Not at hc
    simpa [Len, h, ← hc] using hr)

theorem exact_openBit (a : AShare 1) : PX me Anything [1] (openBit (G := G) me a) :=
  exact_value.bind (n' := []) (fun _ _ => PX.pure trivial) rfl

/-! ## Circuits -/

theorem exact_xorMany {a b : List (AShare K)} {n : Nat} (h : a.length = n) :
    PX me (Len n) [] (Proto.lift (((fam G me).ops K).xorMany a b) : Proto (Aby3St G) _) := PX.lift fun x hx => by
  unfold BinOps.xorMany at hx
  split at hx
  · cases hx
  · rename_i hc
    push Not at hc
    cases hx; simp [Len, ← hc, h]

theorem exact_or (a b : AShare K) : PX me Anything [byteLen K] (((fam G me).ops K).or a b) :=
  (exact_and a b).bind (n' := []) (fun _ _ => PX.pure trivial) rfl

theorem exact_orMany {a b : List (AShare K)} {n : Nat} (h : a.length = n) :
    PX me (Len n) [n * byteLen K] (((fam G me).ops K).orMany a b) :=
  PX.guard fun _ => (exact_andMany h).bind (n' := []) (fun _ hy => (exact_xorMany h).bind0 fun _ _ => exact_xorMany hy) rfl

theorem exact_orChunks : ∀ (x : List (List (AShare K) × List (AShare K))),
    PX me (Len (x.map fun p => p.1.length).sum) (x.map fun p => p.1.length * byteLen K) (((fam G me).ops K).orChunks x)
  | [] => PX.pure (R := Len 0) rfl
  | (_, _) :: x => (exact_orMany rfl).bind (fun _ hr => (exact_orChunks x).bind (n' := []) (fun _ hs => PX.pure (by
      simp only [Len] at hr hs; simp [Len, hr, hs])) (List.append_nil _)) (by simp)

theorem zip_map {α β : Type} (f : Nat → Nat) {u : List (List α)} {v : List (List β)} (h : List.Forall₂ SL u v) :
    ((u.zip v).map fun p => f p.1.length) = (u.map List.length).map f := by
  induction h with
  | nil => rfl
  | cons h _ ih => simp [ih]

theorem exact_orTreeLoop (cs : Nat) : ∀ (num : Nat) {x : List (AShare 128)}, x.length = num →
    PX me Anything (orTreeMsgs cs num) (((fam G me).ops 128).orTreeLoop cs num x) := by
  intro num
  induction num using Nat.strong_induction_on with
  | _ num ih =>
      intro x h
      unfold BinOps.orTreeLoop
      unfold orTreeMsgs
      by_cases hn : num > 1
      · rw [if_pos hn, if_pos hn]
        refine PX.guard fun _ => ?_
        refine (PX.lift (R := fun a => cs ≠ 0 ∧ a = chunksOf cs (x.take (num / 2))) fun a ha => ?_).bind0 ?_
        · unfold chunksE at ha
          split at ha
          · cases ha
          · cases ha; exact ⟨by assumption, rfl⟩
        rintro _ ⟨hcs, rfl⟩
        refine (PX.lift (R := fun a => a = chunksOf cs ((x.drop (num / 2)).take (num / 2))) fun a ha => ?_).bind0 ?_
        · unfold chunksE at ha
          split at ha
          · cases ha
          · cases ha; rfl
        rintro _ rfl
        have hs : SL (x.take (num / 2)) ((x.drop (num / 2)).take (num / 2)) := by
          simp only [SL, List.length_take, List.length_drop]; omega
        have hlen : (x.take (num / 2)).length = num / 2 := by rw [List.length_take]; omega
        have hl : (((chunksOf cs (x.take (num / 2))).zip (chunksOf cs ((x.drop (num / 2)).take (num / 2)))).map
            fun p => p.1.length).sum = num / 2 := by
          rw [zip_sum (Shape.chunks cs hs), chunksOf_flatten hcs, hlen]
        refine (exact_orChunks _).bind (fun r hr => ih (num / 2 + num % 2) (by omega) ?_) ?_
        · simp only [Len, hl] at hr
          simp only [List.length_append, List.length_drop, hr]; omega
        · rw [zip_map (· * byteLen 128) (Shape.chunks cs hs), chunks_sizes hcs, hlen]; rfl
      · rw [if_neg hn, if_neg hn]
        exact PX.pure trivial

theorem exact_orTree (cs : Nat) {x : List (AShare 128)} {n : Nat} (h : x.length = n) :
    PX me Anything (orTreeMsgs cs n) (((fam G me).ops 128).orTree cs x) := by
  unfold BinOps.orTree
  rw [h]
  exact (exact_orTreeLoop cs n h).bind (n' := []) (fun _ _ => PX.idx) (List.append_nil _)

theorem exact_reduceHalf {T : Nat} (U : Nat) (x : AShare T) : PX me Anything [byteLen U] ((fam G me).reduceHalf U x) :=
  PX.idx.bind0 fun _ _ => PX.idx.bind0 fun _ _ => exact_or _ _

theorem exact_reduceLoop8 {x : List (AShare 1)} (h : x.length = 8) : PX me Anything [4, 2, 1] ((fam G me).reduceLoop 8 x) := by
  unfold BinFam.reduceLoop
  rw [if_neg (by decide)]
  refine (exact_orMany (n := 4) (by simp [h])).bind (n' := [2, 1]) (fun y hy => ?_) rfl
  unfold BinFam.reduceLoop
  rw [if_neg (by decide)]
  simp only [Len] at hy
  refine (exact_orMany (n := 2) (by simp [hy])).bind (n' := [1]) (fun z hz => ?_) rfl
  unfold BinFam.reduceLoop
  rw [if_neg (by decide)]
  simp only [Len] at hz
  refine (exact_orMany (n := 1) (by simp [hz])).bind (n' := []) (fun z hz => ?_) rfl
  unfold BinFam.reduceLoop
  exact PX.pure trivial

theorem exact_reduceOrU8 (x : AShare 8) : PX me Anything [4, 2, 1] ((fam G me).reduceOrU8 x) :=
  (exact_reduceLoop8 (mapBits_length x)).bind (n' := []) (fun _ _ => PX.idx) rfl

theorem exact_reduceOrU128 (x : AShare 128) : PX me Anything [8, 4, 2, 1, 4, 2, 1] ((fam G me).reduceOrU128 x) :=
  (exact_reduceHalf 64 x).bind (fun _ _ => (exact_reduceHalf 32 _).bind (fun _ _ => (exact_reduceHalf 16 _).bind (fun _ _ =>
    (exact_reduceHalf 8 _).bind (fun _ _ => exact_reduceOrU8 _) rfl) rfl) rfl) rfl

theorem exact_reduceBinaryOr (cs : Nat) {a : List (AShare 1)} {n : Nat} (h : a.length = n) :
    PX me Anything (orTreeMsgs cs (wordsOf n) ++ [8, 4, 2, 1, 4, 2, 1]) (reduceBinaryOr (G := G) me a cs) :=
  (exact_orTree cs (by rw [pack_length, h])).bind (fun _ _ => exact_reduceOrU128 _) rfl

theorem exact_transposedAnd {m w : Nat} {x y : List (List (AShare 128))} (hx : Rect m w x) :
    PX me (Rect m w) [m * w * 16] ((fam G me).transposedAnd x y) :=
  (PX.idxRect hx).bind0 fun f hf => (exact_andMany (Uni.flatten_rows hx.1 hx.2)).bind (n' := []) (fun r hr =>
    PX.lift fun a ha => by
      unfold chunksE at ha
      split at ha
      · cases ha
      · cases ha
        rw [show f.length = w from hf] at *
        exact Uni.chunksOf_rows (by assumption) m r hr) rfl

theorem exact_rippleLoop {w : Nat} : ∀ {x : List (List (AShare 128) × List (AShare 128))} {c : List (AShare 128)},
    (∀ p ∈ x, p.1.length = w ∧ p.2.length = w) → c.length = w →
      PX me (Len w) (List.replicate x.length (w * 16)) ((fam G me).rippleLoop x c)
  | [], _, _, hc => PX.pure (R := Len w) hc
  | (a, b) :: x, _, h, hc =>
      (exact_xorMany (h (a, b) (by simp)).1).bind0 fun _ ha => (exact_xorMany (h (a, b) (by simp)).2).bind0 fun _ hb =>
        (exact_andMany ha).bind (fun _ hm => (exact_xorMany hm).bind0 fun _ hc' =>
          exact_rippleLoop (fun p hp => h p (by simp [hp])) hc') rfl

theorem exact_msbAdderMany (hK : 3 ≤ K) {x1 x2 x3 : List (AShare K)} {n : Nat} (h1 : x1.length = n) :
    PX me (Len n) (aby3MsbMsgs K n) ((fam G me).msbAdderMany x1 x2 x3) := by
  unfold BinFam.msbAdderMany
  refine PX.guard fun hc => ?_
  push Not at hc
  have h2 : x2.length = n := by rw [← hc.1, h1]
  have h3 : x3.length = n := by rw [← hc.2, h1]
  have t1 := rect_transposePack (G := G) (me := me) h1
  have t2 := rect_transposePack (G := G) (me := me) h2
  have t3 := rect_transposePack (G := G) (me := me) h3
  have t23 := rect_transposedXor (G := G) (me := me) t2 t3
  have ts := rect_transposedXor (G := G) (me := me) t1 t23
  have t13 := rect_transposedXor (G := G) (me := me) t1 t3
  refine (PX.popRect t13).bind0 ?_
  rintro ⟨_, _⟩ ⟨_, p13⟩
  refine (PX.popRect t23).bind0 ?_
  rintro ⟨_, _⟩ ⟨_, p23⟩
  refine (PX.popRect t3).bind0 ?_
  rintro ⟨_, _⟩ ⟨_, p3⟩
  refine (exact_transposedAnd p13).bind (n' := List.replicate (K - 2) (wordsOf n * 16)) (fun c hc => ?_) rfl
  have hb := rect_transposedXor (G := G) (me := me) hc p3
  refine (PX.idxRect ts).bind0 fun _ ha1 => (PX.idxRect hb).bind0 fun _ hb0 => ?_
  refine (exact_andMany ha1).bind (n' := List.replicate (K - 3) (wordsOf n * 16)) (fun c hc => ?_) (by
    rw [show K - 2 = (K - 3) + 1 by omega, List.replicate_succ]; rfl)
  refine (PX.popRect ts).bind0 ?_
  rintro ⟨_, a⟩ ⟨hAm, hA⟩
  refine (PX.popRect hb).bind0 ?_
  rintro ⟨_, b⟩ ⟨hBm, hB⟩
  refine (exact_rippleLoop (w := wordsOf n) ?_ hc).bind (n' := []) (fun _ hc => ?_) ?_
  · rintro ⟨u, v⟩ hp
    have := List.of_mem_zip hp
    exact ⟨hA.2 _ (List.mem_of_mem_drop this.1), hB.2 _ (List.mem_of_mem_drop this.2)⟩
  · refine (exact_xorMany hAm).bind0 fun _ hr => (exact_xorMany hr).bind0 fun _ hr => PX.pure ?_
    simp only [Len, resize, List.length_append, List.length_take, List.length_replicate, h1]
    omega
  · simp only [List.length_zip, List.length_drop, List.append_nil]
    rw [show a.length = K - 1 from hA.1, show b.length = K - 1 - 1 from hB.1]
    rw [show min (K - 1 - 2) (K - 1 - 1 - 1) = K - 3 by omega]

theorem exact_getMsbMany (hK : 3 ≤ K) {a : List (AShare K)} {n : Nat} (h : a.length = n) :
    PX me (Len n) (aby3MsbMsgs K n) (getMsbMany (G := G) me a) :=
  exact_msbAdderMany hK (by simpa using h)

/-! ## The protocol -/

theorem exact_compareIrisMany (signed : Bool) (hK : 3 ≤ K) {a : List (AShare K)} {b : List (List (AShare K))} {mA : IrisCodeArray}
    {m : List IrisCodeArray} :
    PX me (Len b.length) (b.length * byteLen K :: aby3MsbMsgs K b.length)
      (Iris.compareIrisMany (Aby3.ops G K signed me) a b mA m) :=
  PX.guard fun hc => (PX.lift (R := fun r => r.length = m.length) fun _ hx => OpsAlike.combineAll_len hx).bind0 fun c hl => by
    push Not at hc
    have hcl : c.length = b.length := by rw [hl, hc.1]
    refine PX.bind (R := Len b.length) (n := [b.length * byteLen K]) ?_ (fun d hd => ?_) rfl
    · refine (exact_maskedDotMany rfl hcl).bind (n' := []) (fun d hd => PX.lift fun r hr => ?_) rfl
      rw [Len, OpsAlike.hammingLoop_len hr]
      simp only [Len] at hd
      simp [hd, hcl]
    · refine PX.guard fun _ => PX.get.bind0 fun _ _ => ?_
      refine (PX.lift (R := Len b.length) fun r hr => ?_).bind0 fun _ hr => exact_getMsbMany hK hr
      rw [Len, OpsAlike.diffLoop_len hr]
      simp only [Len] at hd
      simp [hd, hcl]

theorem exact_chunkLoop (signed : Bool) (hK : 3 ≤ K) {a : List (AShare K)} {mA : IrisCodeArray} :
    ∀ (x : List (List (List (AShare K)) × List IrisCodeArray)),
      PX me (Len (x.map fun p => p.1.length).sum)
        ((x.map fun p => p.1.length).flatMap fun n => n * byteLen K :: aby3MsbMsgs K n)
        (Iris.chunkLoop (Aby3.ops G K signed me) a mA x)
  | [] => PX.pure rfl
  | (_, _) :: x => (exact_compareIrisMany signed hK).bind (fun _ hr => (exact_chunkLoop signed hK x).bind (n' := []) (fun _ hs =>
      PX.pure (by simp only [Len] at hr hs; simp [Len, hr, hs])) (List.append_nil _)) (by simp)

theorem exact_query (signed : Bool) (hK : 3 ≤ K) {a : List (AShare K)} {b : List (List (AShare K))} {mA : IrisCodeArray}
    {m : List IrisCodeArray} (cs : Nat) :
    PX me Anything (aby3QueryMsgs K cs (chunkSizes b.length cs)) (Iris.irisInDb (Aby3.ops G K signed me) a b mA m cs) := by
  unfold Iris.irisInDb
  refine PX.guard fun hc => ?_
  push Not at hc
  refine (PX.lift (R := Anything) fun _ _ => trivial).bind0 fun _ _ => ?_
  refine (PX.pure (R := Anything) trivial).bind0 fun _ _ => ?_
  refine (PX.lift (R := fun x => cs ≠ 0 ∧ x = chunksOf cs b) fun x hx => ?_).bind0 ?_
  · unfold chunksE at hx
    split at hx
    · cases hx
    · cases hx; exact ⟨by assumption, rfl⟩
  rintro _ ⟨hcs, rfl⟩
  refine (PX.lift (R := fun x => x = chunksOf cs m) fun x hx => ?_).bind0 ?_
  · unfold chunksE at hx
    split at hx
    · cases hx
    · cases hx; rfl
  rintro _ rfl
  have hl : (chunksOf cs b).length ≤ (chunksOf cs m).length := by rw [chunksOf_length hcs, chunksOf_length hcs, hc.1]
  have hz : (((chunksOf cs b).zip (chunksOf cs m)).map fun p => p.1.length) = chunkSizes b.length cs := by
    rw [← chunks_sizes hcs b]
    conv_rhs => rw [← List.map_fst_zip hl, List.map_map]
    rfl
  refine (exact_chunkLoop signed hK _).bind (n' := (orTreeMsgs cs (wordsOf b.length) ++ [8, 4, 2, 1, 4, 2, 1]) ++ [1])
    (fun r hr => ?_) ?_
  · rw [hz, chunkSizes_sum] at hr
    refine (exact_reduceBinaryOr cs hr).bind (n' := [1]) (fun _ _ => ?_) rfl
    refine (PX.unwrap (PX.pure (R := Anything) trivial)).bind0 fun _ _ => exact_openBit _
  · rw [hz, aby3QueryMsgs, chunkSizes_sum]; simp only [List.append_assoc]

end Aby3

end Verif
