import Verif.Proof.ExactMal

/-!
# The exact sequence of actions of the single operations of ABY3
-/

namespace Verif.Aby3

variable {G : Prg} {K : Nat} {me : Party}

theorem exact_mul (a b : AShare K) : PX me Anything [byteLen K] (mul (G := G) me a b) :=
  exact_zero.bind0 fun _ _ => exact_value.bind (n' := []) (fun _ _ => PX.pure trivial) rfl

theorem exact_dot (a b : List (AShare K)) : PX me Anything [byteLen K] (dot (G := G) me a b) :=
  PX.guard fun _ => exact_zero.bind0 fun _ _ => exact_value.bind (n' := []) (fun _ _ => PX.pure trivial) rfl

theorem exact_dotMany {a b : List (List (AShare K))} {n : Nat} (h : a.length = n) :
    PX me (Len n) [n * byteLen K] (dotMany (G := G) me a b) :=
  PX.guard fun hc => (MalAby3.move_dotLoop _).bind0 fun _ hr => exact_reshare (by
    push Not at hc
    simpa [Len, h, ← hc] using hr)

theorem exact_open (a : AShare K) : PX me Anything [byteLen K] (openShare (G := G) me a) :=
  exact_value.bind (n' := []) (fun _ _ => PX.pure trivial) rfl

theorem exact_openMany (a : List (AShare K)) : PX me Anything [a.length * byteLen K] (openMany (G := G) me a) := by
  have h := PX.net (σ := Aby3St G) (me := me) (n := [_]) (Exact.sendSliceAndReceiveIter (me := me) (x := a.map (·.b)))
  rw [List.length_map] at h
  exact h.bind (n' := []) (fun _ _ => PX.pure trivial) rfl

theorem exact_input (x : Option (BitVec K)) (id : Nat) : PX me Anything [byteLen K] (input (G := G) me x id) := by
  refine PX.guard fun _ => exact_zero.bind0 fun _ _ => ?_
  split
  · cases x with
    | none => exact PX.throw
    | some v => exact exact_value.bind (n' := []) (fun _ _ => PX.pure trivial) rfl
  · exact exact_value.bind (n' := []) (fun _ _ => PX.pure trivial) rfl

theorem exact_koggeLoop : ∀ (n i : Nat) (p g : AShare K),
    PX me Anything (List.replicate n (2 * byteLen K)) (((fam G me).ops K).koggeLoop n i p g)
  | 0, _, _, _ => PX.pure trivial
  | n + 1, i, p, g =>
      (exact_andMany (n := 2) (a := [p, p]) (b := [((fam G me).ops K).shl g (2 ^ i), ((fam G me).ops K).shl p (2 ^ i)]) rfl).bind
        (fun _ _ => PX.idx.bind0 fun _ _ => PX.idx.bind0 fun _ _ => exact_koggeLoop n (i + 1) _ _) rfl

theorem exact_a2b (a : AShare K) :
    PX me Anything (byteLen K :: byteLen K :: List.replicate (ceilLog2 K) (2 * byteLen K)) (a2b (G := G) me a) :=
  (exact_and _ _).bind (fun _ _ => (exact_and _ _).bind (fun _ _ => (exact_koggeLoop _ _ _ _).bind (n' := [])
    (fun _ _ => PX.pure trivial) (List.append_nil _)) rfl) rfl

end Verif.Aby3
