import Verif.Spec.Cost
import Verif.Proof.AlikeInst

/-!
# Counting the bytes a party sends: a calculus, and ABY3
-/

namespace Verif

/-- Every path of the program that returns sends exactly `n` bytes, and the result satisfies `R`. -/
inductive Costs {α : Type} (R : α → Prop) : Nat → Prog α → Prop
  | ret {a} (h : R a) : Costs R 0 (.ret a)
  | fail {n e} : Costs R n (.fail e)
  | send {n d m k} (t : Costs R n k) : Costs R (m.length + n) (.send d m k)
  | recv {n s k} (t : ∀ m, Costs R n (k m)) : Costs R n (.recv s k)

namespace Costs

theorem bytes {α : Type} {R : α → Prop} {n : Nat} {p : Prog α} (h : Costs R n p) :
    ∀ i, (p.traffic i).finished = true → bytesSent (p.traffic i).events = n := by
  induction h with
  | ret h => intro i _; rfl
  | fail => intro i h; simp [Prog.traffic] at h
  | send t ih =>
      intro i h
      simp only [Prog.traffic] at h ⊢
      simpa [bytesSent, WireEvent.bytes] using ih i h
  | recv t ih =>
      intro i h
      simp only [Prog.traffic] at h ⊢
      simpa [bytesSent, WireEvent.bytes] using ih _ _ h

theorem bind {α β : Type} {R : α → Prop} {R' : β → Prop} {n n' : Nat} {p : Prog α} {f : α → Prog β} (h : Costs R n p)
    (hf : ∀ a, R a → Costs R' n' (f a)) : Costs R' (n + n') (p >>= f) := by
  induction h with
  | ret h => rw [Nat.zero_add]; exact hf _ h
  | fail => exact .fail
  | send t ih => rw [Nat.add_assoc]; exact .send ih
  | recv t ih => exact .recv ih

theorem ofExcept {α : Type} {R : α → Prop} {x : Except Err α} (h : ∀ a, x = .ok a → R a) : Costs R 0 (Prog.ofExcept x) := by
  cases x with
  | error e => exact .fail
  | ok a => exact .ret (h a rfl)

theorem unwrap {α : Type} {R : α → Prop} {n : Nat} {p : Prog α} (h : Costs R n p) : Costs R n p.unwrap := by
  induction h with
  | ret h => exact .ret h
  | fail => exact .fail
  | send t ih => exact .send ih
  | recv t ih => exact .recv ih

theorem sendAndReceive {me : Party} {m : Bytes} : Costs (fun _ => True) m.length (Verif.sendAndReceive me m) :=
  .send (n := 0) (.recv fun _ => .ret trivial)

theorem sendAndReceiveValue {K : Nat} {me : Party} {x : BitVec K} :
    Costs (fun _ => True) (byteLen K) (Verif.sendAndReceiveValue me x) := by
  have h : Costs (fun _ => True) (_ + 0) (Verif.sendAndReceiveValue me x) :=
    sendAndReceive.bind fun _ _ => .ofExcept fun _ _ => trivial
  simpa using h

theorem sendSliceAndReceiveIter {K : Nat} {me : Party} {x : List (BitVec K)} :
    Costs (fun a => a.length = x.length) (x.length * byteLen K) (Verif.sendSliceAndReceiveIter me x) := by
  have h : Costs (fun a => a.length = x.length) (_ + 0) (Verif.sendSliceAndReceiveIter me x) :=
    sendAndReceive.bind fun _ _ => .ofExcept fun _ h => Alike.iter_len h
  rw [ringSliceToBytes_length] at h
  exact h

end Costs

/-- The same for stateful code. -/
def PC {σ α : Type} (R : α → Prop) (n : Nat) (p : Proto σ α) : Prop := ∀ s, Costs (fun x => R x.1) n (p s)

/-- No constraint on the result. -/
abbrev Anything {α : Type} : α → Prop := fun _ => True

/-- Lists of length `n`. -/
abbrev Len {α : Type} (n : Nat) : List α → Prop := fun l => l.length = n

/-- `m` rows of length `w`. -/
def Rect {α : Type} (m w : Nat) (l : List (List α)) : Prop := l.length = m ∧ ∀ r ∈ l, r.length = w

namespace PC

variable {σ α β : Type} {R : α → Prop} {R' : β → Prop} {n n' N : Nat}

theorem sendsBytes {p : Proto σ α} (h : PC R n p) : SendsBytes n p := fun s => (h s).bytes

theorem bind {p : Proto σ α} {f : α → Proto σ β} (h : PC R n p) (hf : ∀ a, R a → PC R' n' (f a)) (e : n + n' = N) :
    PC R' N (p >>= f) := by
  intro s
  subst e
  exact (h s).bind fun a ha => hf a.1 ha a.2

/-- First a local computation. -/
theorem bind0 {p : Proto σ α} {f : α → Proto σ β} (h : PC R 0 p) (hf : ∀ a, R a → PC R' n (f a)) : PC R' n (p >>= f) :=
  h.bind hf (Nat.zero_add n)

theorem pure {a : α} (h : R a) : PC R 0 (pure a : Proto σ α) := fun _ => .ret h

theorem throw {e : Err} : PC R n (Proto.throw e : Proto σ α) := fun _ => .fail

theorem net {p : Prog α} (h : Costs R n p) : PC R n (Proto.net p : Proto σ α) :=
  fun _ => h.bind (n' := 0) fun _ ha => .ret ha

theorem lift {x : Except Err α} (h : ∀ a, x = .ok a → R a) : PC R 0 (Proto.lift x : Proto σ α) := net (Costs.ofExcept h)

theorem step {f : σ → α × σ} : PC Anything 0 (Proto.step f) := fun _ => .ret trivial

theorem get : PC Anything 0 (get : Proto σ σ) := fun _ => .ret trivial

theorem unwrap {p : Proto σ α} (h : PC R n p) : PC R n p.unwrap := fun s => (h s).unwrap

theorem cast {p : Proto σ α} (h : PC R n p) (e : n = n') : PC R n' p := e ▸ h

/-- A test whose failure ends the function. -/
theorem guard {c : Prop} [Decidable c] {e : Err} {p : Proto σ α} (h : ¬ c → PC R n p) :
    PC R n (if c then Proto.throw e else p) := by
  by_cases hc : c
  · simp only [hc, if_true]; exact throw
  · simpa only [hc, if_false] using h hc

theorem idx {x : List α} {k : Nat} : PC Anything 0 (Proto.lift (idx x k) : Proto σ α) := lift fun _ _ => trivial

theorem idxRect {x : List (List α)} {k m w : Nat} (h : Rect m w x) : PC (Len w) 0 (Proto.lift (Verif.idx x k) : Proto σ _) :=
  lift fun a ha => by
    unfold Verif.idx at ha
    cases hx : x[k]? with
    | none => rw [hx] at ha; cases ha
    | some u => rw [hx] at ha; cases ha; exact h.2 _ (List.mem_of_getElem? hx)

theorem popRect {x : List (List α)} {m w : Nat} (h : Rect m w x) :
    PC (fun a => Len w a.1 ∧ Rect (m - 1) w a.2) 0 (Proto.lift (popE x) : Proto σ _) :=
  lift fun a ha => by
    unfold popE at ha
    cases hx : x.getLast? with
    | none => rw [hx] at ha; cases ha
    | some u =>
        rw [hx] at ha; cases ha
        exact ⟨h.2 _ (List.mem_of_getLast? hx), by simp [h.1], fun r hr => h.2 r (List.dropLast_subset _ hr)⟩

theorem everyoneSends {α : Type} {p : Party → Proto σ α} {R : α → Prop} (h : ∀ i, PC R n (p i)) (st : Party → σ) :
    EveryoneSends n fun i => p i (st i) := by
  intro es c hw hr i
  obtain ⟨u, hu⟩ := hw.traffic i (hr i)
  have := (h i (st i)).bytes u
  simp only [Config.init] at hu
  rw [hu] at this
  exact this rfl

end PC

namespace Aby3

variable {G : Prg} {K : Nat} {me : Party}

theorem cost_zero : PC Anything 0 (genZero (G := G) K) := PC.step

theorem cost_binZero : PC Anything 0 (genBinZero (G := G) K) := PC.step

theorem cost_mulLoop : ∀ x : List (AShare K × AShare K), PC (Len x.length) 0 (mulLoop (G := G) x)
  | [] => PC.pure rfl
  | (_, _) :: x => cost_zero.bind0 fun _ _ => (cost_mulLoop x).bind0 fun _ hr => PC.pure (by simpa [Len] using hr)

theorem cost_andLoop : ∀ x : List (AShare K × AShare K), PC (Len x.length) 0 (andLoop (G := G) x)
  | [] => PC.pure rfl
  | (_, _) :: x => cost_binZero.bind0 fun _ _ => (cost_andLoop x).bind0 fun _ hr => PC.pure (by simpa [Len] using hr)

theorem cost_dotLoop : ∀ x : List (List (AShare K) × List (AShare K)), PC (Len x.length) 0 (dotLoop (G := G) x)
  | [] => PC.pure rfl
  | (_, _) :: x => cost_zero.bind0 fun _ _ => PC.guard fun _ => (cost_dotLoop x).bind0 fun _ hr =>
      PC.pure (by simpa [Len] using hr)

theorem cost_maskedDotLoop (a : List (AShare K)) : ∀ x : List (List (AShare K) × IrisCodeArray),
    PC (Len x.length) 0 (maskedDotLoop (G := G) a x)
  | [] => PC.pure rfl
  | (_, _) :: x => cost_zero.bind0 fun _ _ => PC.guard fun _ => (cost_maskedDotLoop a x).bind0 fun _ hr =>
      PC.pure (by simpa [Len] using hr)

theorem cost_reshare {x : List (BitVec K)} {n : Nat} (h : x.length = n) :
    PC (Len n) (n * byteLen K)
      (do let r ← (Proto.net (sendSliceAndReceiveIter me x) : Proto (Aby3St G) _); pure (List.zipWith AShare.mk x r)) := by
  subst h
  exact (PC.net Costs.sendSliceAndReceiveIter).bind (n' := 0) (fun _ hr => PC.pure (by simp [Len, hr])) rfl

theorem cost_mulMany {a b : List (AShare K)} {n : Nat} (h : a.length = n) (h' : b.length = n) :
    PC (Len n) (n * byteLen K) (mulMany (G := G) me a b) :=
  (cost_mulLoop _).bind0 fun _ hr => cost_reshare (by simpa [Len, h, h'] using hr)

theorem cost_dotMany {a b : List (List (AShare K))} {n : Nat} (h : a.length = n) :
    PC (Len n) (n * byteLen K) (dotMany (G := G) me a b) :=
  PC.guard fun hc => (cost_dotLoop _).bind0 fun _ hr => cost_reshare (by
    push Not at hc
    simpa [Len, h, ← hc] using hr)

theorem cost_maskedDotMany {a : List (AShare K)} {b : List (List (AShare K))} {m : List IrisCodeArray} {n : Nat}
    (h : b.length = n) (h' : m.length = n) : PC (Len n) (n * byteLen K) (maskedDotMany (G := G) me a b m) :=
  PC.guard fun _ => (cost_maskedDotLoop a _).bind0 fun _ hr => cost_reshare (by simpa [Len, h, h'] using hr)

theorem cost_value {x : BitVec K} : PC Anything (byteLen K) (Proto.net (sendAndReceiveValue me x) : Proto (Aby3St G) _) :=
  PC.net Costs.sendAndReceiveValue

theorem cost_mul (a b : AShare K) : PC Anything (byteLen K) (mul (G := G) me a b) :=
  cost_zero.bind0 fun _ _ => cost_value.bind (n' := 0) (fun _ _ => PC.pure trivial) rfl

theorem cost_dot (a b : List (AShare K)) : PC Anything (byteLen K) (dot (G := G) me a b) :=
  PC.guard fun _ => cost_zero.bind0 fun _ _ => cost_value.bind (n' := 0) (fun _ _ => PC.pure trivial) rfl

theorem cost_and (a b : AShare K) : PC Anything (byteLen K) (and (G := G) me a b) :=
  cost_binZero.bind0 fun _ _ => cost_value.bind (n' := 0) (fun _ _ => PC.pure trivial) rfl

theorem cost_andMany {a b : List (AShare K)} {n : Nat} (h : a.length = n) :
    PC (Len n) (n * byteLen K) (andMany (G := G) me a b) :=
  PC.guard fun hc => (cost_andLoop _).bind0 fun _ hr => cost_reshare (by
    push Not at hc
    simpa [Len, h, ← hc] using hr)

theorem cost_open (a : AShare K) : PC Anything (byteLen K) (openShare (G := G) me a) :=
  cost_value.bind (n' := 0) (fun _ _ => PC.pure trivial) rfl

theorem cost_openBit (a : AShare 1) : PC Anything 1 (openBit (G := G) me a) :=
  cost_value.bind (n' := 0) (fun _ _ => PC.pure trivial) rfl

/-! ## Circuits -/

theorem cost_xorMany {a b : List (AShare K)} {n : Nat} (h : a.length = n) :
    PC (Len n) 0 (Proto.lift (((fam G me).ops K).xorMany a b) : Proto (Aby3St G) _) := PC.lift fun x hx => by
  unfold BinOps.xorMany at hx
  split at hx
  · cases hx
  · rename_i hc
    push Not at hc
    cases hx; simp [Len, ← hc, h]

theorem cost_or (a b : AShare K) : PC Anything (byteLen K) (((fam G me).ops K).or a b) :=
  (cost_and a b).bind (n' := 0) (fun _ _ => PC.pure trivial) rfl

theorem cost_orMany {a b : List (AShare K)} {n : Nat} (h : a.length = n) :
    PC (Len n) (n * byteLen K) (((fam G me).ops K).orMany a b) :=
  PC.guard fun _ => (cost_andMany h).bind (n' := 0) (fun _ hy => (cost_xorMany h).bind0 fun _ _ => cost_xorMany hy) rfl

theorem cost_koggeLoop : ∀ (n i : Nat) (p g : AShare K),
    PC Anything (n * (2 * byteLen K)) (((fam G me).ops K).koggeLoop n i p g)
  | 0, _, _, _ => (PC.pure trivial).cast (by simp)
  | n + 1, i, p, g =>
      (cost_andMany (n := 2) (a := [p, p]) (b := [((fam G me).ops K).shl g (2 ^ i), ((fam G me).ops K).shl p (2 ^ i)]) rfl).bind (fun _ _ => PC.idx.bind0 fun _ _ => PC.idx.bind0 fun _ _ => cost_koggeLoop n (i + 1) _ _)
        (show 2 * byteLen K + n * (2 * byteLen K) = (n + 1) * (2 * byteLen K) by ring)

theorem cost_binaryAdd3 (x1 x2 x3 : AShare K) :
    PC Anything (2 * byteLen K * (ceilLog2 K + 1)) (((fam G me).ops K).binaryAdd3 K x1 x2 x3) :=
  (cost_and _ _).bind (fun _ _ => (cost_and _ _).bind (fun _ _ => (cost_koggeLoop _ _ _ _).bind (n' := 0)
    (fun _ _ => PC.pure trivial) rfl) rfl) (by ring)

theorem cost_orChunks : ∀ (x : List (List (AShare K) × List (AShare K))),
    PC (Len (x.map fun p => p.1.length).sum) ((x.map fun p => p.1.length).sum * byteLen K) (((fam G me).ops K).orChunks x)
  | [] => PC.cast (PC.pure (R := Len 0) rfl) (show 0 = 0 * byteLen K by simp)
  | (_, _) :: x => (cost_orMany rfl).bind (fun _ hr => (cost_orChunks x).bind (n' := 0) (fun _ hs => PC.pure (by
      simp only [Len] at hr hs; simp [Len, hr, hs])) rfl) (by simp [Nat.add_mul])

theorem zip_sum {α β : Type} {u : List (List α)} {v : List (List β)} (h : List.Forall₂ SL u v) :
    ((u.zip v).map fun p => p.1.length).sum = u.flatten.length := by
  induction h with
  | nil => rfl
  | cons h _ ih => simp [ih]

/-- One OR gate less than there are inputs. -/
theorem cost_orTreeLoop (cs : Nat) : ∀ (num : Nat) {x : List (AShare K)}, x.length = num →
    PC Anything ((num - 1) * byteLen K) (((fam G me).ops K).orTreeLoop cs num x) := by
  intro num
  induction num using Nat.strong_induction_on with
  | _ num ih =>
      intro x h
      unfold BinOps.orTreeLoop
      by_cases hn : num > 1
      · rw [if_pos hn]
        refine PC.guard fun _ => ?_
        refine (PC.lift (R := fun a => cs ≠ 0 ∧ a = chunksOf cs (x.take (num / 2))) fun a ha => ?_).bind0 ?_
        · unfold chunksE at ha
          split at ha
          · cases ha
          · cases ha; exact ⟨by assumption, rfl⟩
        rintro _ ⟨hcs, rfl⟩
        refine (PC.lift (R := fun a => a = chunksOf cs ((x.drop (num / 2)).take (num / 2))) fun a ha => ?_).bind0 ?_
        · unfold chunksE at ha
          split at ha
          · cases ha
          · cases ha; rfl
        rintro _ rfl
        have hl : (((chunksOf cs (x.take (num / 2))).zip (chunksOf cs ((x.drop (num / 2)).take (num / 2)))).map
            fun p => p.1.length).sum = num / 2 := by
          rw [zip_sum (Shape.chunks cs (by simp only [SL, List.length_take, List.length_drop]; omega)), chunksOf_flatten hcs,
            List.length_take]; omega
        refine (cost_orChunks _).bind (n' := (num / 2 + num % 2 - 1) * byteLen K) (fun r hr => ih _ (by omega) ?_) ?_
        · simp only [Len, hl] at hr
          simp only [List.length_append, List.length_drop, hr]; omega
        · rw [hl, ← Nat.add_mul]; congr 1; omega
      · rw [if_neg hn]
        exact (PC.pure trivial).cast (by rw [show num - 1 = 0 by omega]; simp)

theorem cost_orTree (cs : Nat) {x : List (AShare K)} {n : Nat} (h : x.length = n) :
    PC Anything ((n - 1) * byteLen K) (((fam G me).ops K).orTree cs x) := by
  unfold BinOps.orTree
  rw [h]
  exact (cost_orTreeLoop cs n h).bind (n' := 0) (fun _ _ => PC.idx) rfl

theorem cost_reduceHalf {T : Nat} (U : Nat) (x : AShare T) : PC Anything (byteLen U) ((fam G me).reduceHalf U x) :=
  PC.idx.bind0 fun _ _ => PC.idx.bind0 fun _ _ => cost_or _ _

theorem cost_reduceLoop : ∀ (k : Nat) {x : List (AShare 1)}, x.length = 2 ^ k →
    PC Anything (2 ^ k - 1) ((fam G me).reduceLoop (2 ^ k) x)
  | 0, x, h => by
      unfold BinFam.reduceLoop
      exact PC.pure trivial
  | k + 1, x, h => by
      have hp : 0 < 2 ^ k := Nat.pow_pos (by decide)
      unfold BinFam.reduceLoop
      rw [if_neg (by rw [Nat.pow_succ]; omega)]
      have h2 : 2 ^ (k + 1) / 2 = 2 ^ k := by rw [Nat.pow_succ]; omega
      simp only [h2]
      refine (cost_orMany (n := 2 ^ k) (by simp only [List.length_take, h, Nat.pow_succ]; omega)).bind
        (fun _ hd => cost_reduceLoop k hd) ?_
      rw [show byteLen 1 = 1 from rfl, Nat.pow_succ]; omega

theorem mapBits_length (x : AShare K) : ((fam G me).mapLists (fun l => l.flatMap toBits) [x]).length = K := by
  simp [fam, AShare.mapLists, List.length_zipWith, toBits_length]

theorem cost_reduceOrU8 (x : AShare 8) : PC Anything 7 ((fam G me).reduceOrU8 x) :=
  (cost_reduceLoop 3 (mapBits_length x)).bind (n' := 0) (fun _ _ => PC.idx) rfl

theorem cost_reduceOrU128 (x : AShare 128) : PC Anything 22 ((fam G me).reduceOrU128 x) :=
  (cost_reduceHalf 64 x).bind (fun _ _ => (cost_reduceHalf 32 _).bind (fun _ _ => (cost_reduceHalf 16 _).bind (fun _ _ =>
    (cost_reduceHalf 8 _).bind (fun _ _ => cost_reduceOrU8 _) rfl) rfl) rfl) rfl

theorem pack_length (a : List (AShare 1)) : ((fam G me).pack 128 a).length = wordsOf a.length := by
  unfold BinFam.pack
  rw [List.length_flatMap, List.map_congr_left (g := fun _ => 1), List.map_const', List.sum_replicate_nat,
    chunksOf_length (by decide), Nat.mul_one]
  · rfl
  · intro ch _
    simp [fam, AShare.mapLists]

theorem cost_reduceBinaryOr (cs : Nat) {a : List (AShare 1)} {n : Nat} (h : a.length = n) :
    PC Anything (16 * (wordsOf n - 1) + 22) (reduceBinaryOr (G := G) me a cs) :=
  (cost_orTree cs (by rw [pack_length, h])).bind (fun _ _ => cost_reduceOrU128 _)
    (by rw [show byteLen 128 = 16 from rfl, Nat.mul_comm])

theorem rect_transposePack {x : List (AShare K)} {n : Nat} (h : x.length = n) :
    Rect K (wordsOf n) ((fam G me).transposePack x) :=
  Uni.transposePack (a := fun _ => x) (fun _ => h) 0

theorem rect_transposedXor {m w : Nat} {x y : List (List (AShare 128))} (hx : Rect m w x) (hy : Rect m w y) :
    Rect m w ((fam G me).transposedXor x y) :=
  Uni.transposedXor (a := fun _ => x) (b := fun _ => y) (fun _ => hx) (fun _ => hy) 0

theorem cost_transposedAnd {m w : Nat} {x y : List (List (AShare 128))} (hx : Rect m w x) :
    PC (Rect m w) (m * w * 16) ((fam G me).transposedAnd x y) :=
  (PC.idxRect hx).bind0 fun f hf => (cost_andMany (Uni.flatten_rows hx.1 hx.2)).bind (n' := 0) (fun r hr =>
    PC.lift fun a ha => by
      unfold chunksE at ha
      split at ha
      · cases ha
      · cases ha
        rw [show f.length = w from hf] at *
        exact Uni.chunksOf_rows (by assumption) m r hr) rfl

theorem cost_rippleLoop {w : Nat} : ∀ {x : List (List (AShare 128) × List (AShare 128))} {c : List (AShare 128)},
    (∀ p ∈ x, p.1.length = w ∧ p.2.length = w) → c.length = w →
      PC (Len w) (x.length * w * 16) ((fam G me).rippleLoop x c)
  | [], _, _, hc => PC.cast (PC.pure (R := Len w) hc) (show 0 = 0 * w * 16 by simp)
  | (a, b) :: x, _, h, hc =>
      (cost_xorMany (h (a, b) (by simp)).1).bind0 fun _ ha => (cost_xorMany (h (a, b) (by simp)).2).bind0 fun _ hb =>
        (cost_andMany ha).bind (fun _ hm => (cost_xorMany hm).bind0 fun _ hc' =>
          cost_rippleLoop (fun p hp => h p (by simp [hp])) hc') (by
            rw [show byteLen 128 = 16 from rfl, List.length_cons]; ring)

theorem cost_msbAdderMany (hK : 3 ≤ K) {x1 x2 x3 : List (AShare K)} {n : Nat} (h1 : x1.length = n) :
    PC (Len n) (16 * ((2 * K - 3) * wordsOf n)) ((fam G me).msbAdderMany x1 x2 x3) := by
  unfold BinFam.msbAdderMany
  refine PC.guard fun hc => ?_
  push Not at hc
  have h2 : x2.length = n := by rw [← hc.1, h1]
  have h3 : x3.length = n := by rw [← hc.2, h1]
  have t1 := rect_transposePack (G := G) (me := me) h1
  have t2 := rect_transposePack (G := G) (me := me) h2
  have t3 := rect_transposePack (G := G) (me := me) h3
  have t23 := rect_transposedXor (G := G) (me := me) t2 t3
  have ts := rect_transposedXor (G := G) (me := me) t1 t23
  have t13 := rect_transposedXor (G := G) (me := me) t1 t3
  refine (PC.popRect t13).bind0 ?_
  rintro ⟨_, _⟩ ⟨_, p13⟩
  refine (PC.popRect t23).bind0 ?_
  rintro ⟨_, _⟩ ⟨_, p23⟩
  refine (PC.popRect t3).bind0 ?_
  rintro ⟨_, _⟩ ⟨_, p3⟩
  refine (cost_transposedAnd p13).bind (n' := (1 + (K - 3)) * wordsOf n * 16) (fun c hc => ?_) (by
    obtain ⟨k, rfl⟩ := Nat.exists_eq_add_of_le hK
    rw [show 3 + k - 1 = k + 2 by omega, show 3 + k - 3 = k by omega, show 2 * (3 + k) - 3 = 2 * k + 3 by omega]; ring)
  have hb := rect_transposedXor (G := G) (me := me) hc p3
  refine (PC.idxRect ts).bind0 fun _ ha1 => (PC.idxRect hb).bind0 fun _ hb0 => ?_
  refine (cost_andMany ha1).bind (n' := (K - 3) * wordsOf n * 16) (fun c hc => ?_) (by
    rw [show byteLen 128 = 16 from rfl]; ring)
  refine (PC.popRect ts).bind0 ?_
  rintro ⟨_, a⟩ ⟨hAm, hA⟩
  refine (PC.popRect hb).bind0 ?_
  rintro ⟨_, b⟩ ⟨hBm, hB⟩
  refine (cost_rippleLoop (w := wordsOf n) ?_ hc).bind (n' := 0) (fun _ hc => ?_) ?_
  · rintro ⟨u, v⟩ hp
    have := List.of_mem_zip hp
    exact ⟨hA.2 _ (List.mem_of_mem_drop this.1), hB.2 _ (List.mem_of_mem_drop this.2)⟩
  · refine (cost_xorMany hAm).bind0 fun _ hr => (cost_xorMany hr).bind0 fun _ hr => PC.pure ?_
    simp only [Len, resize, List.length_append, List.length_take, List.length_replicate, h1]
    omega
  · simp only [List.length_zip, List.length_drop]
    rw [show a.length = K - 1 from hA.1, show b.length = K - 1 - 1 from hB.1]
    rw [show min (K - 1 - 2) (K - 1 - 1 - 1) = K - 3 by omega, Nat.add_zero]

theorem cost_getMsbMany (hK : 3 ≤ K) {a : List (AShare K)} {n : Nat} (h : a.length = n) :
    PC (Len n) (16 * ((2 * K - 3) * wordsOf n)) (getMsbMany (G := G) me a) :=
  cost_msbAdderMany hK (by simpa using h)

theorem cost_a2b (a : AShare K) : PC Anything (2 * byteLen K * (ceilLog2 K + 1)) (a2b (G := G) me a) := cost_binaryAdd3 _ _ _

/-! ## The protocol -/

theorem cost_compareIrisMany (signed : Bool) (hK : 3 ≤ K) {a : List (AShare K)} {b : List (List (AShare K))} {mA : IrisCodeArray}
    {m : List IrisCodeArray} :
    PC (Len b.length) (b.length * byteLen K + 16 * ((2 * K - 3) * wordsOf b.length))
      (Iris.compareIrisMany (Aby3.ops G K signed me) a b mA m) :=
  PC.guard fun hc => (PC.lift (R := fun r => r.length = m.length) fun _ hx => OpsAlike.combineAll_len hx).bind0 fun c hl => by
    push Not at hc
    have hcl : c.length = b.length := by rw [hl, hc.1]
    refine PC.bind (R := Len b.length) (n := b.length * byteLen K) ?_ (fun d hd => ?_) rfl
    · refine (cost_maskedDotMany rfl hcl).bind (n' := 0) (fun d hd => PC.lift fun r hr => ?_) rfl
      rw [Len, OpsAlike.hammingLoop_len hr]
      simp only [Len] at hd
      simp [hd, hcl]
    · refine PC.guard fun _ => PC.get.bind0 fun _ _ => ?_
      refine (PC.lift (R := Len b.length) fun r hr => ?_).bind0 fun _ hr => cost_getMsbMany hK hr
      rw [Len, OpsAlike.diffLoop_len hr]
      simp only [Len] at hd
      simp [hd, hcl]

theorem cost_chunkLoop (signed : Bool) (hK : 3 ≤ K) {a : List (AShare K)} {mA : IrisCodeArray} :
    ∀ (x : List (List (List (AShare K)) × List IrisCodeArray)),
      PC (Len (x.map fun p => p.1.length).sum)
        (x.map fun p => p.1.length * byteLen K + 16 * ((2 * K - 3) * wordsOf p.1.length)).sum
        (Iris.chunkLoop (Aby3.ops G K signed me) a mA x)
  | [] => PC.pure rfl
  | (_, _) :: x => (cost_compareIrisMany signed hK).bind (fun _ hr => (cost_chunkLoop signed hK x).bind (n' := 0) (fun _ hs =>
      PC.pure (by simp only [Len] at hr hs; simp [Len, hr, hs])) rfl) (by simp)

theorem chunks_sizes {X : Type} {cs : Nat} (hcs : cs ≠ 0) (l : List X) :
    (chunksOf cs l).map List.length = chunkSizes l.length cs := by
  induction hk : l.length using Nat.strong_induction_on generalizing l with
  | _ k ih =>
    by_cases hc : l = []
    · subst hc; simp at hk; subst hk; simp [chunksOf_nil, chunkSizes]
    · have hl : 0 < l.length := List.length_pos_iff.2 hc
      rw [chunksOf_cons hcs hc, List.map_cons, ih (l.length - cs) (by omega) (l.drop cs) (by simp), List.length_take, hk]
      unfold chunkSizes
      by_cases h : cs ≤ k
      · rw [Nat.min_eq_left h]
        have h1 : k / cs = (k - cs) / cs + 1 := by
          conv_lhs => rw [show k = (k - cs) + cs by omega]
          exact Nat.add_div_right _ (by omega)
        have h2 : (k - cs) % cs = k % cs := by
          conv_rhs => rw [show k = (k - cs) + cs by omega]
          exact (Nat.add_mod_right _ _).symm
        rw [h1, h2, List.replicate_succ, List.cons_append]
      · have hk0 : k ≠ 0 := by omega
        have hlt : k < cs := by omega
        rw [Nat.min_eq_right hlt.le, show k - cs = 0 by omega, Nat.div_eq_of_lt hlt, Nat.mod_eq_of_lt hlt, if_neg hk0]
        simp

theorem chunkSizes_sum {n cs : Nat} : (chunkSizes n cs).sum = n := by
  unfold chunkSizes
  rw [List.sum_append, List.sum_replicate_nat]
  have := Nat.div_add_mod' n cs
  split <;> simp_all

theorem cost_query (signed : Bool) (hK : 3 ≤ K) {a : List (AShare K)} {b : List (List (AShare K))} {mA : IrisCodeArray}
    {m : List IrisCodeArray} (cs : Nat) :
    PC Anything (aby3QueryBytes K (chunkSizes b.length cs)) (Iris.irisInDb (Aby3.ops G K signed me) a b mA m cs) := by
  unfold Iris.irisInDb
  refine PC.guard fun hc => ?_
  push Not at hc
  refine (PC.lift (R := Anything) fun _ _ => trivial).bind0 fun _ _ => ?_
  refine (PC.pure (R := Anything) trivial).bind0 fun _ _ => ?_
  refine (PC.lift (R := fun x => cs ≠ 0 ∧ x = chunksOf cs b) fun x hx => ?_).bind0 ?_
  · unfold chunksE at hx
    split at hx
    · cases hx
    · cases hx; exact ⟨by assumption, rfl⟩
  rintro _ ⟨hcs, rfl⟩
  refine (PC.lift (R := fun x => x = chunksOf cs m) fun x hx => ?_).bind0 ?_
  · unfold chunksE at hx
    split at hx
    · cases hx
    · cases hx; rfl
  rintro _ rfl
  have hl : (chunksOf cs b).length ≤ (chunksOf cs m).length := by rw [chunksOf_length hcs, chunksOf_length hcs, hc.1]
  have hz : ∀ f : Nat → Nat, (((chunksOf cs b).zip (chunksOf cs m)).map fun p => f p.1.length)
      = (chunkSizes b.length cs).map f := fun f => by
    rw [← chunks_sizes hcs b, List.map_map]
    conv_rhs => rw [← List.map_fst_zip hl, List.map_map]
    rfl
  refine (cost_chunkLoop signed hK _).bind (n' := 16 * (wordsOf b.length - 1) + 22 + 1) (fun r hr => ?_) ?_
  · rw [hz fun n => n, List.map_id', chunkSizes_sum] at hr
    refine (cost_reduceBinaryOr cs hr).bind (n' := 1) (fun _ _ => ?_) rfl
    refine (PC.unwrap (PC.pure (R := Anything) trivial)).bind0 fun _ _ => cost_openBit _
  · rw [hz fun n => n * byteLen K + 16 * ((2 * K - 3) * wordsOf n), aby3QueryBytes, chunkSizes_sum]; omega

end Aby3

end Verif
