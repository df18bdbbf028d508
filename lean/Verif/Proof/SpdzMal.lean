import Verif.Proof.Spdz
import Verif.Proof.JmpMal

/-! # The checks of the SPDZ-wise backend on arbitrary shares -/

namespace Verif

variable {G : Prg} {V K : Nat} {H : Hash}

namespace Spdz

open Jmp

theorem binHashZeroVerify_eq (me : Party) (ws : List (AShare K)) :
    binHashZeroVerify H me ws = digestCheck me (H.h (ws.flatMap (binZeroBytes me))) := rfl

theorem binZeroBytes_length (me : Party) (w : AShare K) : (binZeroBytes me w).length = 3 * byteLen K := by
  match me with
  | 0 => simp [binZeroBytes, hashBytes_length]; omega
  | 1 => simp [binZeroBytes, hashBytes_length]; omega
  | 2 => simp [binZeroBytes, hashBytes_length]; omega

/-- Two parties feed the same bytes to the hash only for a sharing of zero. -/
theorem binZeroBytes_eq {x : BitVec K} {w : Party → AShare K} (hw : BinSharesOf x w) {i j : Party} (hij : i ≠ j)
    (h : binZeroBytes i (w i) = binZeroBytes j (w j)) : x = 0 := by
  obtain ⟨b0, b1, b2⟩ := hw.b_eq
  have hs := hw.1
  have x3 : ∀ a b : BitVec K, a ^^^ b ^^^ (a ^^^ b) = 0 := fun a b => BitVec.xor_self
  have z1 : (w 1).a = (w 0).a ^^^ (w 2).a → x = 0 := fun e => by
    rw [← hs, e, ← x3 (w 0).a (w 2).a]; bitwise
  have z2 : (w 0).a = (w 2).a ^^^ (w 1).a → x = 0 := fun e => by
    rw [← hs, e, ← x3 (w 2).a (w 1).a]; bitwise
  have z3 : (w 2).a = (w 1).a ^^^ (w 0).a → x = 0 := fun e => by
    rw [← hs, e, ← x3 (w 1).a (w 0).a]; bitwise
  have split : ∀ (a b c a' b' c' : BitVec K),
      hashBytes a ++ hashBytes b ++ hashBytes c = hashBytes a' ++ hashBytes b' ++ hashBytes c' →
      a = a' ∧ b = b' ∧ c = c' := by
    intro a b c a' b' c' h
    have h1 := List.append_inj_right' h (by simp [hashBytes_length])
    have h2 := List.append_inj_left' h (by simp [hashBytes_length])
    have h3 := List.append_inj_right' h2 (by simp [hashBytes_length])
    have h4 := List.append_inj_left' h2 (by simp [hashBytes_length])
    exact ⟨hashBytes_inj h4, hashBytes_inj h3, hashBytes_inj h1⟩
  have t01 : binZeroBytes 0 (w 0) = binZeroBytes 1 (w 1) → x = 0 := fun h => by
    obtain ⟨-, e, -⟩ := split _ _ _ _ _ _ h
    rw [b0] at e; exact z1 e.symm
  have t02 : binZeroBytes 0 (w 0) = binZeroBytes 2 (w 2) → x = 0 := fun h => by
    obtain ⟨e, -, -⟩ := split _ _ _ _ _ _ h
    rw [b2] at e; exact z2 e
  have t12 : binZeroBytes 1 (w 1) = binZeroBytes 2 (w 2) → x = 0 := fun h => by
    obtain ⟨-, -, e⟩ := split _ _ _ _ _ _ h
    rw [b1] at e; exact z3 e.symm
  match i, j, hij with
  | 0, 0, h' => exact absurd rfl h'
  | 1, 1, h' => exact absurd rfl h'
  | 2, 2, h' => exact absurd rfl h'
  | 0, 1, _ => exact t01 h
  | 0, 2, _ => exact t02 h
  | 1, 2, _ => exact t12 h
  | 1, 0, _ => exact t01 h.symm
  | 2, 0, _ => exact t02 h.symm
  | 2, 1, _ => exact t12 h.symm

theorem binZeroBytes_all {xs : List (BitVec K)} {ws : Party → List (AShare K)} (hw : Rels BinSharesOf xs ws)
    {i j : Party} (hij : i ≠ j) (h : (ws i).flatMap (binZeroBytes i) = (ws j).flatMap (binZeroBytes j)) :
    ∀ x ∈ xs, x = 0 := by
  induction xs generalizing ws with
  | nil => simp
  | cons x xs ih =>
    obtain ⟨b, ls, hb, h', rfl⟩ := hw.uncons
    simp only [List.flatMap_cons] at h
    have h1 := List.append_inj_left h (by simp [binZeroBytes_length])
    have h2 := List.append_inj_right h (by simp [binZeroBytes_length])
    intro y hy
    rcases List.mem_cons.1 hy with rfl | hy
    · exact binZeroBytes_eq hb hij h1
    · exact ih h' h2 y hy

/-- Honest parties reject whenever a shared value is not zero, unless the hashed strings collide. -/
theorem binHashZeroVerify_rejects {xs : List (BitVec K)} {ws : Party → List (AShare K)} (hw : Rels BinSharesOf xs ws)
    (hx : ¬ ∀ x ∈ xs, x = 0) : WPF (fun i => binHashZeroVerify H i (ws i)) .verify ∨
      Collision H ((ws 0).flatMap (binZeroBytes 0)) ((ws 1).flatMap (binZeroBytes 1)) := by
  by_cases h : H.h ((ws 0).flatMap (binZeroBytes 0)) = H.h ((ws 1).flatMap (binZeroBytes 1))
  · exact .inr ⟨fun e => hx (binZeroBytes_all hw (by decide) e), h⟩
  · exact .inl (digestCheck_fails (D := fun i => H.h ((ws i).flatMap (binZeroBytes i))) (.inl h))

/-- The list of the errors' differences vanishes exactly if the errors are equal. -/
theorem tripleErrors_zero {xs ys zs xs' ys' zs' : List (BitVec 128)} (h1 : ys.length = xs.length)
    (h2 : zs.length = xs.length) (h3 : xs'.length = xs.length) (h4 : ys'.length = xs.length) (h5 : zs'.length = xs.length) :
    (∀ e ∈ tripleErrors xs ys zs xs' ys' zs', e = 0) ↔ errorsOf xs ys zs = errorsOf xs' ys' zs' := by
  have key : ∀ l m : List (BitVec 128), l.length = m.length →
      ((∀ e ∈ List.zipWith (· ^^^ ·) l m, e = 0) ↔ l = m) := by
    intro l
    induction l with
    | nil => intro m h; cases m with | nil => simp | cons _ _ => simp at h
    | cons x l ih =>
      intro m h
      cases m with
      | nil => simp at h
      | cons y m =>
        simp only [List.length_cons, Nat.add_right_cancel_iff] at h
        simp only [List.zipWith_cons_cons, List.mem_cons, forall_eq_or_imp, ih m h, List.cons.injEq]
        exact and_congr_left' BitVec.xor_eq_zero_iff
  unfold tripleErrors errorsOf
  exact key _ _ (by simp [*])

end Spdz

theorem hashZeroVerify_rejects {xs : List (BitVec K)} {ws : Party → List (AShare K)} (hw : Rels SharesOf xs ws)
    (hx : ¬ ∀ x ∈ xs, x = 0) : WPF (fun i => hashZeroVerify H i (ws i)) .verify ∨
      Collision H ((ws 0).flatMap (zeroBytes 0)) ((ws 1).flatMap (zeroBytes 1)) := by
  by_cases h : H.h ((ws 0).flatMap (zeroBytes 0)) = H.h ((ws 1).flatMap (zeroBytes 1))
  · exact .inr ⟨fun e => hx (zeroBytes_all hw (by decide) e), h⟩
  · exact .inl (digestCheck_fails (D := fun i => H.h ((ws i).flatMap (zeroBytes i))) (.inl h))

theorem WPSF.net {σ α : Type} {p : Party → Prog α} {st : Party → σ} {e : Err} (h : WPF p e) :
    WPSF (fun i => Proto.net (p i)) st e := by
  have := WPF.bind_left (k := fun i (a : α) => (.ret (a, st i) : Prog (α × σ))) h
  exact this

end Verif
