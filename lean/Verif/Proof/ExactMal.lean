import Verif.Spec.ExactMal
import Verif.Proof.CostMal
import Verif.Proof.Exact

/-!
# The exact sequence of actions: the malicious variant of ABY3
-/

namespace Verif

/-- The same for stateful code that performs the moves `n`. -/
def PV {σ α : Type} (me : Party) (R : α → Prop) (n : List Move) (p : Proto σ α) : Prop :=
  ∀ s, Exact (fun x => R x.1) (moves me n) (p s)

namespace PV

variable {σ α β : Type} {R : α → Prop} {R' : β → Prop} {n n' N : List Move} {me : Party}

theorem moves {p : Proto σ α} (h : PV me R n p) : Moves me n p := fun s => (h s).events

theorem bind {p : Proto σ α} {f : α → Proto σ β} (h : PV me R n p) (hf : ∀ a, R a → PV me R' n' (f a)) (e : n ++ n' = N) :
    PV me R' N (p >>= f) := by
  intro s
  subst e
  have := (h s).bind fun a ha => hf a.1 ha a.2
  rwa [Verif.moves, Verif.moves, ← List.flatMap_append] at this

/-- First a local computation. -/
theorem bind0 {p : Proto σ α} {f : α → Proto σ β} (h : PV me R [] p) (hf : ∀ a, R a → PV me R' n (f a)) : PV me R' n (p >>= f) :=
  h.bind hf (List.nil_append n)

theorem pure {a : α} (h : R a) : PV me R [] (pure a : Proto σ α) := fun _ => .ret h

theorem throw {e : Err} : PV me R n (Proto.throw e : Proto σ α) := fun _ => .fail

theorem net {p : Prog α} (h : Exact R (Verif.moves me n) p) : PV me R n (Proto.net p : Proto σ α) := fun s => by
  have : Exact (fun x => R x.1) (Verif.moves me n ++ []) ((Proto.net p : Proto σ α) s) := h.bind fun _ ha => .ret ha
  rwa [List.append_nil] at this

theorem lift {x : Except Err α} (h : ∀ a, x = .ok a → R a) : PV me R [] (Proto.lift x : Proto σ α) := net (Exact.ofExcept h)

theorem step {f : σ → α × σ} : PV me Anything [] (Proto.step f) := fun _ => .ret trivial

theorem get : PV me Anything [] (get : Proto σ σ) := fun _ => .ret trivial

theorem unwrap {p : Proto σ α} (h : PV me R n p) : PV me R n p.unwrap := fun s => (h s).unwrap

theorem cast {p : Proto σ α} (h : PV me R n p) (e : n = n') : PV me R n' p := e ▸ h

/-- A test whose failure ends the function. -/
theorem guard {c : Prop} [Decidable c] {e : Err} {p : Proto σ α} (h : ¬ c → PV me R n p) :
    PV me R n (if c then Proto.throw e else p) := by
  by_cases hc : c
  · simp only [hc, if_true]; exact throw
  · simpa only [hc, if_false] using h hc

/-- Indexing is local. -/
theorem idx {x : List α} {k : Nat} : PV me Anything [] (Proto.lift (idx x k) : Proto σ α) := lift fun _ _ => trivial

theorem idxRect {x : List (List α)} {k m w : Nat} (h : Rect m w x) : PV me (Len w) [] (Proto.lift (Verif.idx x k) : Proto σ _) :=
  lift fun a ha => by
    unfold Verif.idx at ha
    cases hx : x[k]? with
    | none => rw [hx] at ha; cases ha
    | some u => rw [hx] at ha; cases ha; exact h.2 _ (List.mem_of_getElem? hx)

theorem popRect {x : List (List α)} {m w : Nat} (h : Rect m w x) :
    PV me (fun a => Len w a.1 ∧ Rect (m - 1) w a.2) [] (Proto.lift (popE x) : Proto σ _) :=
  lift fun a ha => by
    unfold popE at ha
    cases hx : x.getLast? with
    | none => rw [hx] at ha; cases ha
    | some u =>
        rw [hx] at ha; cases ha
        exact ⟨h.2 _ (List.mem_of_getLast? hx), by simp [h.1], fun r hr => h.2 r (List.dropLast_subset _ hr)⟩

theorem everyoneMoves {α : Type} {p : Party → Proto σ α} {R : α → Prop} (h : ∀ i, PV i R n (p i)) (st : Party → σ) :
    EveryoneMoves n fun i => p i (st i) := by
  intro es c hw hr i
  obtain ⟨u, hu⟩ := hw.traffic i (hr i)
  have := (h i (st i)).events u
  simp only [Config.init] at hu
  rw [hu] at this
  exact this rfl

end PV

variable {G : Prg} {K V : Nat} {me : Party} {H : Hash}

theorem PV.zoom {σ σ' α : Type} {me : Party} {R : α → Prop} {n : List Move} {gt : σ → σ'} {st : σ → σ' → σ} {p : Proto σ' α}
    (h : PV me R n p) : PV me R n (Proto.zoom gt st p) := fun s => by
  have := (h (gt s)).bind (n' := []) (R' := fun x : α × σ => R x.1) (f := fun x => .ret (x.1, st s x.2)) fun _ ha => .ret ha
  rw [List.append_nil] at this
  exact this

/-- Stateful code that performs exactly the actions `es`. -/
def PE {σ α : Type} (R : α → Prop) (es : List WireEvent) (p : Proto σ α) : Prop := ∀ s, Exact (fun x => R x.1) es (p s)

theorem PE.bind {σ α β : Type} {R : α → Prop} {R' : β → Prop} {es es' : List WireEvent} {p : Proto σ α} {f : α → Proto σ β}
    (h : PE R es p) (hf : ∀ a, R a → PE R' es' (f a)) : PE R' (es ++ es') (p >>= f) :=
  fun s => (h s).bind fun a ha => hf a.1 ha a.2

theorem PE.step {σ α : Type} {f : σ → α × σ} : PE Anything [] (Proto.step f) := fun _ => .ret trivial

theorem PE.net {σ α : Type} {R : α → Prop} {es : List WireEvent} {p : Prog α} (h : Exact R es p) :
    PE R es (Proto.net p : Proto σ α) := fun s => by
  have : Exact (fun x => R x.1) (es ++ []) ((Proto.net p : Proto σ α) s) := h.bind fun _ ha => .ret ha
  rwa [List.append_nil] at this

theorem Exact.sendSliceAndReceiveVec {x : List (BitVec K)} :
    Exact (fun a => a.length = x.length) (moves me [.exchange (x.length * byteLen K)]) (Verif.sendSliceAndReceiveVec me x) := by
  have h : Exact (fun a => a.length = x.length) (_ ++ []) (Verif.sendSliceAndReceiveVec me x) :=
    sendAndReceive.bind fun _ _ => .ofExcept fun _ h => Alike.vec_len h
  rw [ringSliceToBytes_length, List.append_nil] at h
  exact h

theorem Exact.broadcast {m : Bytes} (hm : m.length = 64) : Exact (fun _ => True) (moves me [.digestAll]) (Verif.broadcast me m) := by
  rw [show moves me [.digestAll] = (othersOf me).map (fun d => .sent d m.length) ++ (othersOf me).map .took by
    rw [hm]; simp [moves, Move.events]]
  fin_cases me
  · exact .send (d := 1) (.send (d := 2) (.recv (s := 1) fun _ => .recv (s := 2) fun _ => .ret trivial))
  · exact .send (d := 0) (.send (d := 2) (.recv (s := 0) fun _ => .recv (s := 2) fun _ => .ret trivial))
  · exact .send (d := 0) (.send (d := 1) (.recv (s := 0) fun _ => .recv (s := 1) fun _ => .ret trivial))

theorem Exact.hashZeroVerify {x : List (AShare K)} : Exact (fun _ => True) (moves me [.digestAll]) (Verif.hashZeroVerify H me x) := by
  have hb := Exact.broadcast (me := me) (m := H.h (x.flatMap (zeroBytes me))) (H.len _)
  have h : Exact (fun _ => True) (moves me [.digestAll] ++ ([] ++ ([] ++ ([] ++ [])))) (Verif.hashZeroVerify H me x) := by
    refine Exact.bind (n := moves me [.digestAll]) (n' := [] ++ ([] ++ ([] ++ []))) hb fun _ _ => ?_
    refine (Exact.ofExcept (R := fun _ => True) fun _ _ => trivial).bind fun _ _ => ?_
    refine (Exact.ofExcept (R := fun _ => True) fun _ _ => trivial).bind fun _ _ => ?_
    refine (Exact.ofExcept (R := fun _ => True) fun _ _ => trivial).bind fun _ _ => ?_
    split
    · exact .fail
    · exact .ret trivial
  simpa using h

namespace Jmp

theorem move_genRand : PV me Anything [] (genRand (G := G) K) := PV.step

theorem move_genRandMany : ∀ n, PV me (Len n) [] (genRandMany (G := G) K n)
  | 0 => PV.pure rfl
  | n + 1 => move_genRand.bind0 fun _ _ => (move_genRandMany n).bind0 fun _ h => PV.pure (by simpa [Len] using h)

theorem move_sendReceive (x y : BitVec K) : PV me Anything [.exchange (byteLen K)] (jmpSendReceive (G := G) me x y) := by
  have h : PE Anything ([] ++ ([.sent me.next (toBytes x).length] ++ ([.took me.prev] ++ []))) (jmpSendReceive (G := G) me x y) := by
    refine PE.step.bind fun _ _ => ?_
    refine (PE.net (R := Anything) (.send (.ret trivial))).bind fun _ _ => ?_
    refine (PE.net (R := Anything) (.recv fun _ => .ofExcept fun _ _ => trivial)).bind fun _ _ => PE.step
  simpa [moves, Move.events, PV, PE] using h

theorem move_sendReceiveMany (x y : List (BitVec K)) :
    PV me (Len x.length) [.exchange (x.length * byteLen K)] (jmpSendReceiveMany (G := G) me x y) := by
  have h : PE (Len x.length) ([] ++ ([.sent me.next (ringSliceToBytes x).length] ++ ([.took me.prev] ++ [])))
      (jmpSendReceiveMany (G := G) me x y) := by
    refine PE.step.bind fun _ _ => ?_
    refine (PE.net (R := Anything) (.send (.ret trivial))).bind fun _ _ => ?_
    refine (PE.net (R := Len x.length) (.recv fun _ => .ofExcept fun _ h => Alike.vec_len h)).bind fun v hv => ?_
    exact fun s => .ret hv
  rw [ringSliceToBytes_length] at h
  simpa [moves, Move.events, PV, PE] using h

theorem move_verify : PV me Anything [.digestBack] (jmpVerify (G := G) H me) := by
  refine PV.bind (R := fun a => a.1.length = 64) (n := []) (n' := [.digestBack]) (fun s => .ret (H.len _)) ?_ rfl
  rintro ⟨a, b⟩ ha
  have ha : a.length = 64 := ha
  have h : PE Anything ([.sent me.prev a.length] ++ ([.took me.next] ++ []))
      (do
        Proto.net (sendPrev me a)
        let r ← Proto.net (recvNext me)
        if r ≠ b then Proto.throw .jmpVerify else pure () : Proto (JmpSt G) Unit) := by
    refine (PE.net (R := Anything) (.send (.ret trivial))).bind fun _ _ => ?_
    refine (PE.net (R := Anything) (.recv fun _ => .ret trivial)).bind fun _ _ => ?_
    intro s
    split
    · exact .fail
    · exact .ret trivial
  rw [ha] at h
  exact h

theorem move_coin : PV me Anything [.exchange 32] (coin (G := G) me) := by
  refine PV.bind (R := fun a => a.2.length = 32) (n := []) (n' := [.exchange 32]) (fun s => .ret (G.genSeed_length _)) ?_ rfl
  rintro ⟨a, b⟩ hb
  have h := move_sendReceiveMany (G := G) (me := me) (K := 8) b a
  rw [show b.length = 32 from hb] at h
  exact h.bind (n' := []) (fun _ _ => PV.pure trivial) rfl

theorem move_reconstructMany {a : List (AShare K)} {n : Nat} (h : a.length = n) :
    PV me (Len n) [.exchange (n * byteLen K)] (reconstructMany (G := G) me a) := by
  subst h
  have h := move_sendReceiveMany (G := G) (me := me) (a.map (·.b)) (a.map (·.a))
  rw [List.length_map] at h
  exact h.bind (n' := []) (fun _ hr => PV.pure (by simp only [Len] at hr; simp [Len, hr])) rfl

theorem move_reconstructBinaryMany {a : List (AShare K)} {n : Nat} (h : a.length = n) :
    PV me (Len n) [.exchange (n * byteLen K)] (reconstructBinaryMany (G := G) me a) := by
  subst h
  have h := move_sendReceiveMany (G := G) (me := me) (a.map (·.b)) (a.map (·.a))
  rw [List.length_map] at h
  exact h.bind (n' := []) (fun _ hr => PV.pure (by simp only [Len] at hr; simp [Len, hr])) rfl

theorem move_openBit (a : AShare 1) : PV me Anything [.digestBack, .exchange 1, .digestBack] (openBit (G := G) H me a) :=
  move_verify.bind (n' := [.exchange 1, .digestBack]) (fun _ _ => (move_sendReceive _ _).bind (n' := [.digestBack])
    (fun _ _ => move_verify.bind (n' := []) (fun _ _ => PV.pure trivial) rfl) rfl) rfl

end Jmp

namespace MalAby3

open Jmp

theorem move_mulLoop : ∀ x : List (AShare K × AShare K), PX me (Len x.length) [] (Aby3.mulLoop (G := G) x)
  | [] => PX.pure rfl
  | _ :: x => PX.step.bind0 fun _ _ => (move_mulLoop x).bind0 fun _ h => PX.pure (by simpa [Len] using h)

theorem move_dotLoop : ∀ x : List (List (AShare K) × List (AShare K)), PX me (Len x.length) [] (Aby3.dotLoop (G := G) x)
  | [] => PX.pure rfl
  | (_, _) :: x => Aby3.exact_zero.bind0 fun _ _ => PX.guard fun _ => (move_dotLoop x).bind0 fun _ h =>
      PX.pure (by simpa [Len] using h)

theorem move_reshare {x : List (BitVec K)} {n : Nat} (h : x.length = n) :
    PV me (Len n) [.exchange (n * byteLen K)]
      (do let r ← (Proto.net (sendSliceAndReceiveVec me x) : Proto (JmpSt G) _); pure (List.zipWith AShare.mk x r)) := by
  subst h
  exact (PV.net Exact.sendSliceAndReceiveVec).bind (n' := []) (fun _ hr => PV.pure (by simp [Len, hr])) rfl

theorem move_abyMulMany {a b : List (AShare K)} {n : Nat} (h : a.length = n) (h' : b.length = n) :
    PV me (Len n) [.exchange (n * byteLen K)] (abyMulMany (G := G) me a b) :=
  (PV.zoom (n := []) (me := me) (move_mulLoop (me := me) _)).bind0 fun _ hr => move_reshare (by simpa [Len, h, h'] using hr)

theorem move_abyDotMany {a b : List (List (AShare K))} {n : Nat} (h : a.length = n) :
    PV me (Len n) [.exchange (n * byteLen K)] (abyDotMany (G := G) me a b) :=
  PV.guard fun hc => (PV.zoom (n := []) (me := me) (move_dotLoop (me := me) _)).bind0 fun _ hr => move_reshare (by
    push Not at hc
    simpa [Len, h, ← hc] using hr)

theorem move_coinElem : PV me Anything [.exchange 32] (coinElem (G := G) V me) :=
  move_coin.bind (n' := []) (fun _ _ => PV.pure trivial) rfl

theorem move_getMulTripleMany (len : Nat) :
    PV me (fun x => Len len x.1 ∧ Len len x.2.1 ∧ Len len x.2.2) (malCheckMoves V len len)
      (getMulTripleMany (G := G) H V K me len) := by
  refine PV.guard fun _ => ?_
  refine (move_genRandMany len).bind0 fun a ha => (move_genRandMany len).bind0 fun b hb =>
    (move_genRandMany len).bind0 fun a' ha' => ?_
  simp only [Len] at ha hb ha'
  refine (move_abyMulMany (n := 2 * len) (by simp [ha, ha']; omega) (by simp [hb]; omega)).bind
    (n' := [.exchange 32] ++ ([.exchange (len * byteLen V)] ++ ([.digestBack] ++ ([.digestAll] ++ [])))) (fun cs hcs => ?_) rfl
  refine move_coinElem.bind (fun _ _ => ?_) rfl
  refine (move_reconstructMany (n := len) (by simp [ha, ha'])).bind (fun _ _ => ?_) rfl
  refine move_verify.bind (fun _ _ => ?_) rfl
  refine (PV.net Exact.hashZeroVerify).bind (fun _ _ => PV.pure ?_) rfl
  simp only [Len] at hcs ⊢
  exact ⟨by simpa using ha, by simpa using hb, by simp [hcs]; omega⟩

theorem move_genRandVecs : ∀ (ns : List Nat), PV me (fun x => x.map List.length = ns) [] (genRandVecs (G := G) V ns)
  | [] => PV.pure rfl
  | n :: ns => (move_genRandMany n).bind0 fun _ h => (move_genRandVecs ns).bind0 fun _ hs => PV.pure (by
      simp only [Len] at h; simp [h, hs])

/-- Pairs of vectors of equal lengths. -/
theorem move_dotMany {a b : List (List (AShare K))} {n : Nat} (h : a.length = n) (hl : a.map List.length = b.map List.length) :
    PV me (Len n) (malCheckMoves (verifWidth K) n (a.map List.length).sum) (dotMany (G := G) H me a b) := by
  refine PV.guard fun _ => PV.guard fun _ => ?_
  refine (move_genRandVecs _).bind0 fun a' ha' => ?_
  have hm : ∀ x : List (List (AShare K)), (x.map fun l => l.map (·.toVerif (verifWidth K))).map List.length = x.map List.length := by
    intro x; simp [List.map_map, Function.comp_def]
  rw [hm] at ha'
  have hal : a'.length = n := by
    have := congrArg List.length ha'
    have h2 := congrArg List.length hl
    simp only [List.length_map] at this h2
    omega
  refine (move_abyDotMany (n := 2 * n) (by simp [hal, h]; omega)).bind
    (n' := [.exchange 32] ++ ([.exchange ((a.map List.length).sum * byteLen (verifWidth K))] ++ ([.digestBack] ++ ([] ++ ([.digestAll] ++ [])))))
    (fun cs hcs => ?_) rfl
  refine move_coinElem.bind (fun _ _ => ?_) rfl
  refine (move_reconstructMany ?_).bind (fun _ _ => ?_) rfl
  · rw [zipWith_flatten, hm]
    rw [hm, ha', hl]
  refine move_verify.bind (fun _ _ => ?_) rfl
  refine (PV.lift (R := Anything) fun _ _ => trivial).bind (fun _ _ => ?_) rfl
  refine (PV.net Exact.hashZeroVerify).bind (fun _ _ => PV.pure ?_) rfl
  simp only [Len] at hcs ⊢
  simp [hcs, h]; omega

theorem move_andMany (hK : K ≠ 0) {a b : List (AShare K)} {n : Nat} (h : a.length = n) :
    PV me (Len n) (malAndMoves K n) (andMany (G := G) H me a b) := by
  refine PV.guard fun hc => ?_
  push Not at hc
  have hb : b.length = n := by rw [← hc, h]
  rw [h]
  refine (move_getMulTripleMany _).bind (n' := [.exchange (2 * n * byteLen K)] ++ []) ?_ rfl
  rintro ⟨x, y, z⟩ ⟨hx, hy, hz⟩
  have hx := pack_length hK hx
  have hy := pack_length hK hy
  have hz := pack_length hK hz
  refine (move_reconstructBinaryMany (n := 2 * n) (by simp [h, hb, hx, hy]; omega)).bind (fun r hr => PV.pure ?_) rfl
  simp only [Len] at hr ⊢
  simp [h, hb, hz, hr]; omega

theorem move_xorMany {a b : List (AShare K)} {n : Nat} (h : a.length = n) :
    PV me (Len n) [] (Proto.lift ((binOps G H K me).xorMany a b) : Proto (JmpSt G) _) := PV.lift fun x hx => by
  unfold BinOps.xorMany at hx
  split at hx
  · cases hx
  · rename_i hc
    push Not at hc
    cases hx; simp [Len, ← hc, h]

theorem move_orMany (hK : K ≠ 0) {a b : List (AShare K)} {n : Nat} (h : a.length = n) :
    PV me (Len n) (malAndMoves K n) ((binOps G H K me).orMany a b) :=
  PV.guard fun _ => (move_andMany hK h).bind (n' := []) (fun _ hy => (move_xorMany h).bind0 fun _ _ => move_xorMany hy)
    (List.append_nil _)

theorem move_koggeLoopMany (hK : K ≠ 0) {len : Nat} : ∀ (n i : Nat) {p g : List (AShare K)}, p.length = len → g.length = len →
    PV me (fun x => Len len x.1 ∧ Len len x.2) (List.replicate n (malAndMoves K (2 * len))).flatten
      ((binOps G H K me).koggeLoopMany len n i p g)
  | 0, _, _, _, hp, hg => PV.pure ⟨hp, hg⟩
  | n + 1, i, p, g, hp, hg =>
      (move_andMany hK (n := 2 * len) (by simp [hp]; omega)).bind (fun _ hr => (move_xorMany hg).bind0 fun _ hg' =>
        move_koggeLoopMany hK n (i + 1) (by simp only [Len] at hr; simp [hr]; omega) hg')
        (by rw [List.replicate_succ, List.flatten_cons])

theorem move_binaryAdd3Many (hK : K ≠ 0) {x1 x2 x3 : List (AShare K)} {n : Nat} (h1 : x1.length = n) :
    PV me (Len n) (malMsbMoves K n) ((binOps G H K me).binaryAdd3Many K x1 x2 x3) := by
  unfold BinOps.binaryAdd3Many
  refine PV.guard fun hc => ?_
  push Not at hc
  have h2 : x2.length = n := by rw [← hc.1, h1]
  rw [h1]
  refine (move_xorMany h2).bind0 fun _ h23 => (move_xorMany h1).bind0 fun s hs => (move_xorMany h1).bind0 fun _ h13 => ?_
  refine (move_andMany hK h13).bind (n' := malAndMoves K n ++ ((List.replicate (ceilLog2 K) (malAndMoves K (2 * n))).flatten ++ []))
    (fun _ hc => ?_) (by unfold malMsbMoves; simp only [List.append_nil, List.append_assoc])
  refine (move_xorMany hc).bind0 fun _ hc => (move_xorMany hs).bind0 fun _ hp => ?_
  refine (move_andMany hK hs).bind (fun _ hg => ?_) rfl
  refine (move_koggeLoopMany hK _ _ hp hg).bind ?_ rfl
  rintro ⟨_, _⟩ ⟨_, _⟩
  exact move_xorMany hp

theorem move_getMsbMany (hK : K ≠ 0) {a : List (AShare K)} {n : Nat} (h : a.length = n) :
    PV me (Len n) (malMsbMoves K n) (getMsbMany (G := G) H me a) :=
  (move_binaryAdd3Many hK (by simpa using h)).bind (n' := []) (fun _ hr => PV.pure (by simpa [Len] using hr)) (List.append_nil _)

theorem move_orChunks : ∀ (x : List (List (AShare 1) × List (AShare 1))),
    PV me (Len (x.map fun p => p.1.length).sum) ((x.map fun p => p.1.length).flatMap (malAndMoves 1)) ((binOps G H 1 me).orChunks x)
  | [] => PV.pure (R := Len 0) rfl
  | (_, _) :: x => (move_orMany (by decide) rfl).bind (fun _ hr => (move_orChunks x).bind (n' := []) (fun _ hs => PV.pure (by
      simp only [Len] at hr hs; simp [Len, hr, hs])) (List.append_nil _)) (by simp)

theorem move_orTreeLoop (cs : Nat) : ∀ (num : Nat) {x : List (AShare 1)}, x.length = num →
    PV me Anything (malOrTreeMoves cs num) ((binOps G H 1 me).orTreeLoop cs num x) := by
  intro num
  induction num using Nat.strong_induction_on with
  | _ num ih =>
      intro x h
      unfold BinOps.orTreeLoop
      unfold malOrTreeMoves
      by_cases hn : num > 1
      · rw [if_pos hn, if_pos hn]
        refine PV.guard fun _ => ?_
        refine (PV.lift (R := fun a => cs ≠ 0 ∧ a = chunksOf cs (x.take (num / 2))) fun a ha => ?_).bind0 ?_
        · unfold chunksE at ha
          split at ha
          · cases ha
          · cases ha; exact ⟨by assumption, rfl⟩
        rintro _ ⟨hcs, rfl⟩
        refine (PV.lift (R := fun a => a = chunksOf cs ((x.drop (num / 2)).take (num / 2))) fun a ha => ?_).bind0 ?_
        · unfold chunksE at ha
          split at ha
          · cases ha
          · cases ha; rfl
        rintro _ rfl
        have hs : SL (x.take (num / 2)) ((x.drop (num / 2)).take (num / 2)) := by
          simp only [SL, List.length_take, List.length_drop]; omega
        have hlen : (x.take (num / 2)).length = num / 2 := by rw [List.length_take]; omega
        have hz : (((chunksOf cs (x.take (num / 2))).zip (chunksOf cs ((x.drop (num / 2)).take (num / 2)))).map
            fun p => p.1.length) = chunkSizes (num / 2) cs := by
          have := Aby3.zip_map (fun n => n) (Shape.chunks cs hs)
          rw [Aby3.chunks_sizes hcs, hlen, List.map_id'] at this
          exact this
        refine (move_orChunks _).bind (fun r hr => ih (num / 2 + num % 2) (by omega) ?_) (by rw [hz])
        rw [hz, Aby3.chunkSizes_sum] at hr
        simp only [Len] at hr
        simp only [List.length_append, List.length_drop, hr]; omega
      · rw [if_neg hn, if_neg hn]
        exact PV.pure trivial

theorem move_reduceBinaryOr (cs : Nat) {a : List (AShare 1)} {n : Nat} (h : a.length = n) :
    PV me Anything (malOrTreeMoves (cs * 128) n) (reduceBinaryOr (G := G) H me a cs) := by
  refine (PV.lift (R := fun c => c = cs * 128) fun c hc => ?_).bind0 ?_
  · unfold usizeE at hc
    split at hc
    · cases hc; rfl
    · cases hc
  rintro _ rfl
  unfold BinOps.orTree
  rw [h]
  exact (move_orTreeLoop _ n h).bind (n' := []) (fun _ _ => PV.idx) (List.append_nil _)

theorem move_maskedDotMany {a : List (AShare K)} {b : List (List (AShare K))} {m : List IrisCodeArray} {n : Nat}
    (h : b.length = n) (h' : m.length = n) :
    PV me (Len n) (malCheckMoves (verifWidth K) n (12800 * n))
      (defaultMaskedDotMany (AShare.zero K) (dotMany (G := G) H me) a b m) := by
  refine (PV.lift (R := fun r => Rect n 12800 r.1 ∧ Rect n 12800 r.2) fun r hr => ?_).bind0 ?_
  · have := maskedVecs_rect hr
    rwa [List.length_zip, h, h', Nat.min_self] at this
  rintro ⟨u, v⟩ ⟨hu, hv⟩
  have hd := move_dotMany (G := G) (H := H) (me := me) (a := u) (b := v) hu.1 (by rw [rect_lengths hu, rect_lengths hv])
  rw [rect_lengths hu, List.sum_replicate_nat, Nat.mul_comm] at hd
  exact hd

/-! ## The protocol -/

theorem move_compareIrisMany (signed : Bool) (hK : K ≠ 0) {a : List (AShare K)} {b : List (List (AShare K))} {mA : IrisCodeArray}
    {m : List IrisCodeArray} :
    PV me (Len b.length) (malCheckMoves (verifWidth K) b.length (12800 * b.length) ++ malMsbMoves K b.length)
      (Iris.compareIrisMany (ops G H K signed me) a b mA m) :=
  PV.guard fun hc => (PV.lift (R := fun r => r.length = m.length) fun _ hx => OpsAlike.combineAll_len hx).bind0 fun c hl => by
    push Not at hc
    have hcl : c.length = b.length := by rw [hl, hc.1]
    refine PV.bind (R := Len b.length) (n := malCheckMoves (verifWidth K) b.length (12800 * b.length)) ?_ (fun d hd => ?_) rfl
    · refine (move_maskedDotMany rfl hcl).bind (n' := []) (fun d hd => PV.lift fun r hr => ?_) (List.append_nil _)
      rw [Len, OpsAlike.hammingLoop_len hr]
      simp only [Len] at hd
      simp [hd, hcl]
    · refine PV.guard fun _ => PV.get.bind0 fun _ _ => ?_
      refine (PV.lift (R := Len b.length) fun r hr => ?_).bind0 fun _ hr => move_getMsbMany hK hr
      rw [Len, OpsAlike.diffLoop_len hr]
      simp only [Len] at hd
      simp [hd, hcl]

theorem move_chunkLoop (signed : Bool) (hK : K ≠ 0) {a : List (AShare K)} {mA : IrisCodeArray} :
    ∀ (x : List (List (List (AShare K)) × List IrisCodeArray)),
      PV me (Len (x.map fun p => p.1.length).sum)
        ((x.map fun p => p.1.length).flatMap fun n => malCheckMoves (verifWidth K) n (12800 * n) ++ malMsbMoves K n)
        (Iris.chunkLoop (ops G H K signed me) a mA x)
  | [] => PV.pure rfl
  | (_, _) :: x => (move_compareIrisMany signed hK).bind (fun _ hr => (move_chunkLoop signed hK x).bind (n' := []) (fun _ hs =>
      PV.pure (by simp only [Len] at hr hs; simp [Len, hr, hs])) (List.append_nil _)) (by simp)

theorem move_query (signed : Bool) (hK : K ≠ 0) {a : List (AShare K)} {b : List (List (AShare K))} {mA : IrisCodeArray}
    {m : List IrisCodeArray} (cs : Nat) :
    PV me Anything (malQueryMoves K cs (chunkSizes b.length cs)) (Iris.irisInDb (ops G H K signed me) a b mA m cs) := by
  unfold Iris.irisInDb
  refine PV.guard fun hc => ?_
  push Not at hc
  refine (PV.lift (R := Anything) fun _ _ => trivial).bind0 fun _ _ => ?_
  refine (PV.pure (R := Anything) trivial).bind0 fun _ _ => ?_
  refine (PV.lift (R := fun x => cs ≠ 0 ∧ x = chunksOf cs b) fun x hx => ?_).bind0 ?_
  · unfold chunksE at hx
    split at hx
    · cases hx
    · cases hx; exact ⟨by assumption, rfl⟩
  rintro _ ⟨hcs, rfl⟩
  refine (PV.lift (R := fun x => x = chunksOf cs m) fun x hx => ?_).bind0 ?_
  · unfold chunksE at hx
    split at hx
    · cases hx
    · cases hx; rfl
  rintro _ rfl
  have hl : (chunksOf cs b).length ≤ (chunksOf cs m).length := by rw [chunksOf_length hcs, chunksOf_length hcs, hc.1]
  have hz : (((chunksOf cs b).zip (chunksOf cs m)).map fun p => p.1.length) = chunkSizes b.length cs := by
    rw [← Aby3.chunks_sizes hcs b]
    conv_rhs => rw [← List.map_fst_zip hl, List.map_map]
    rfl
  refine (move_chunkLoop signed hK _).bind
    (n' := malOrTreeMoves (cs * 128) b.length ++ [.digestBack, .exchange 1, .digestBack]) (fun r hr => ?_) ?_
  · rw [hz, Aby3.chunkSizes_sum] at hr
    refine (move_reduceBinaryOr cs hr).bind (fun _ _ => ?_) rfl
    refine (PV.unwrap (PV.pure (R := Anything) trivial)).bind0 fun _ _ => move_openBit _
  · rw [hz, malQueryMoves, Aby3.chunkSizes_sum]

end MalAby3

end Verif
