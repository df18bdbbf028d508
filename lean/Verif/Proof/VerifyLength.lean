import Verif.Proof.AlikeAndVerify
import Verif.Proof.Swift3Finish

/-!
# The length of the check sent by the verification of multiplications and dot products
-/

namespace Verif

open Polynomial LawfulPolyT

variable {G : Prg} {K : Nat}

theorem flat_bv_len : ∀ xs : List (BitVec K), (xs.flatMap Bincode.enc).length = xs.length * byteLen K
  | [] => (Nat.zero_mul _).symm
  | x :: xs => by
      rw [List.flatMap_cons, List.length_append, flat_bv_len xs, show (Bincode.enc x).length = byteLen K from leBytes_length _ _,
        List.length_cons]
      ring

theorem enc_poly_len (p : Poly (BitVec K)) : (Bincode.enc p).length = 8 + p.coeffs.length * byteLen K := by
  show (leBytes 8 _ ++ p.coeffs.flatMap Bincode.enc).length = _
  rw [List.length_append, flat_bv_len, leBytes_length]

theorem enc_check_len (v : ZkShared (Poly (BitVec K))) :
    (Bincode.enc v).length = (Bincode.enc v.f).length + (8 + v.pr.coeffs.length * byteLen K) + (8 + v.b.coeffs.length * byteLen K) := by
  show (Bincode.enc v.f ++ Bincode.enc v.pr ++ Bincode.enc v.b).length = _
  rw [List.length_append, List.length_append, enc_poly_len, enc_poly_len]

theorem betaSum_zero (n : Nat) : ∀ bc : List (Poly (BitVec K) × Poly (BitVec K)),
    ZkEnv.betaSum (List.replicate n (⟨[0]⟩ : Poly (BitVec K))) PolyT.zero bc = Poly.zero
  | [] => rfl
  | (be, co) :: bc => by
      rw [ZkEnv.betaSum, show ([0] : List (BitVec K)) = List.replicate 1 0 from rfl, horner_zero]
      exact betaSum_zero n bc

theorem semL_zeros {R : Type} [CommRing R] {T : Type} [PolyT T] [LawfulPolyT T R] (z : T) (hz : (sem z : R) = 0) (n : Nat) :
    (semL (List.replicate n z) : R[X]) = 0 := by
  induction n with
  | zero => rfl
  | succ n ih => rw [List.replicate_succ, semL, ih, hz]; simp

/-- A reduced polynomial that stands for `X` has at least two coefficients. -/
theorem rem_X_length (hK : 0 < K) {p md q : Poly (BitVec K)} {d : Nat} (hd : 2 ≤ d) (hm : Poly.MonicRep d md)
    (hp : (p.sem : (BitVec K)[X]) = X) (h : p.rem md = .ok q) : 2 ≤ q.coeffs.length := by
  have := Poly.nontrivial_bitVec hK
  obtain ⟨r, e, -, hs⟩ := Poly.rem_spec hK p md hm
  rw [e] at h
  cases h
  have hmo := hm.monic hK
  have hX : (X : (BitVec K)[X]) %ₘ md.sem = X := by
    refine (modByMonic_eq_self_iff hmo.1).2 ?_
    rw [degree_eq_natDegree hmo.1.ne_zero, hmo.2, degree_X]
    exact_mod_cast (by omega : 1 < d)
  have hx : (r.shrink.sem : (BitVec K)[X]) = X := by rw [Poly.sem_shrink, hs, hp, hX]
  by_contra hlt
  have h1 := degree_X (R := BitVec K)
  rw [← hx] at h1
  have h2 := semL_degree_lt (R := BitVec K) r.shrink.coeffs
  change (r.shrink.sem : (BitVec K)[X]).degree < _ at h2
  rw [h1] at h2
  have : 1 < r.shrink.coeffs.length := by exact_mod_cast h2
  omega

theorem horner_X (r : Poly (BitVec K)) (n : Nat) :
    ((ZkEnv.horner r PolyT.zero PolyT.one (⟨[0, 1]⟩ :: List.replicate n ⟨[0]⟩) : Poly (BitVec K)).sem : (BitVec K)[X]) = X := by
  have h := horner_sem (R := (BitVec K)[X]) r PolyT.zero PolyT.one (⟨[0, 1]⟩ :: List.replicate n ⟨[0]⟩ : List (Poly (BitVec K)))
  refine Eq.trans h ?_
  have hz : (sem (⟨[0]⟩ : Poly (BitVec K)) : (BitVec K)[X]) = 0 := by
    show C (0 : BitVec K) + X * (0 : (BitVec K)[X]) = 0
    simp
  have hx : (sem (⟨[0, 1]⟩ : Poly (BitVec K)) : (BitVec K)[X]) = X := by
    show C (0 : BitVec K) + X * (C (1 : BitVec K) + X * (0 : (BitVec K)[X])) = X
    rw [show (C (0 : BitVec K) : (BitVec K)[X]) = 0 from C_0, show (C (1 : BitVec K) : (BitVec K)[X]) = 1 from C_1]
    ring
  rw [semL, semL_zeros _ hz, hx, sem_zero, sem_one]
  simp

/-- With the right sizes the check can be computed. -/
theorem ZkEnv.verifyPi_total {I : Type} (hK : 0 < K) {E : ZkEnv G (Poly (BitVec K)) I} {md : Poly (BitVec K)} {d : Nat}
    (hm : Poly.MonicRep d md) (hE : ∀ x, E.red x = x.rem md) {l m : Nat} {inputs : List I} {betas : List (Poly (BitVec K))}
    (r : Poly (BitVec K)) {Ls : List (Poly (Poly (BitVec K)))} {coords : List (Poly (BitVec K))} {pf : ZkPf (Poly (BitVec K))}
    (hb : betas.length = m) (hL : Ls.length = m + 1) (hco : coords.length = m + 1) (hw : pf.w.length = E.circ.wires * l)
    (ha : pf.a.length = 2 * m + 1) {V : Nat → Nat → Poly (BitVec K)} (hV : E.Gates (l * m) inputs V) :
    ∃ v, E.verifyPi l m inputs betas r Ls coords pf = .ok v := by
  obtain ⟨P, hP, -⟩ := E.wirePolys_sem (RingHom.id (BitVec K)[X]) l m pf.w inputs Ls hw hL V hV
  have hr : ∀ x, ∃ y, E.red x = .ok y := fun x => by
    obtain ⟨y, e, -⟩ := Poly.rem_spec hK x md hm
    exact ⟨_, (hE x).trans e⟩
  choose rd hrd using hr
  unfold ZkEnv.verifyPi
  rw [if_pos ⟨hb.symm, hL.symm, by rw [hV.1, Nat.mul_comm], hco.symm⟩, if_neg (by simp [hw, ha]), hP]
  simp only [bind, Except.bind, pure, Except.pure]
  rw [mapM_ok (f := fun p : Poly (Poly (BitVec K)) => E.red (p.evaluate r)) (g := fun p => rd (p.evaluate r)) _ (fun p _ => hrd _),
    hrd (horner r PolyT.zero PolyT.one pf.a), hrd (betaSum pf.a PolyT.zero (betas.zip (coords.drop 1)))]
  exact ⟨_, rfl⟩

/-- The check of a proof with `a = 0` is shorter than the check of the same proof with `a = (X, 0, …, 0)`. -/
theorem ZkEnv.verifyPi_varies {I : Type} (hK : 0 < K) {E : ZkEnv G (Poly (BitVec K)) I} {md : Poly (BitVec K)} {d : Nat}
    (hd : 2 ≤ d) (hm : Poly.MonicRep d md) (hE : ∀ x, E.red x = x.rem md) {l m : Nat} {inputs : List I}
    {betas : List (Poly (BitVec K))} {r : Poly (BitVec K)} {Ls : List (Poly (Poly (BitVec K)))} {coords w : List (Poly (BitVec K))}
    {v : ZkShared (Poly (BitVec K))}
    (h : E.verifyPi l m inputs betas r Ls coords ⟨w, List.replicate (2 * m + 1) ⟨[0]⟩⟩ = .ok v) :
    ∃ v', E.verifyPi l m inputs betas r Ls coords ⟨w, ⟨[0, 1]⟩ :: List.replicate (2 * m) ⟨[0]⟩⟩ = .ok v' ∧
      (Bincode.enc v).length < (Bincode.enc v').length := by
  unfold ZkEnv.verifyPi at h ⊢
  split at h
  swap
  · cases h
  rename_i hc
  split at h
  · cases h
  rename_i hw
  rw [if_pos hc, if_neg (by simp only [List.length_cons, List.length_replicate] at hw ⊢; exact hw)]
  obtain ⟨fp, h1, h⟩ := OpsAlike.bindE h
  obtain ⟨f, h2, h⟩ := OpsAlike.bindE h
  obtain ⟨pr, h3, h⟩ := OpsAlike.bindE h
  obtain ⟨b, h4, h⟩ := OpsAlike.bindE h
  cases h
  obtain ⟨r1, e1, -⟩ := Poly.rem_spec hK (ZkEnv.horner r PolyT.zero PolyT.one (⟨[0, 1]⟩ :: List.replicate (2 * m) ⟨[0]⟩)) md hm
  obtain ⟨r2, e2, -⟩ := Poly.rem_spec hK (ZkEnv.betaSum (⟨[0, 1]⟩ :: List.replicate (2 * m) ⟨[0]⟩) PolyT.zero
    (betas.zip (coords.drop 1))) md hm
  refine ⟨⟨f, r1.shrink, r2.shrink⟩, ?_, ?_⟩
  · simp only [] at h1 h2 ⊢
    rw [h1]
    show (fp.mapM (fun p => E.red (p.evaluate r)) >>= _) = _
    rw [h2, hE, hE, e1, e2]
    rfl
  · dsimp only at h3 h4
    rw [hE, show ([0] : List (BitVec K)) = List.replicate 1 0 from rfl, horner_zero] at h3
    rw [hE, betaSum_zero] at h4
    have a1 := rem_zero_length h3
    have a2 := rem_zero_length h4
    have a3 := rem_X_length hK hd hm (horner_X r _) e1
    have a4 : 1 ≤ r2.shrink.coeffs.length := by rw [Poly.length_shrink]; omega
    have hb : 0 < byteLen K := by unfold byteLen; omega
    rw [enc_check_len, enc_check_len]
    dsimp only
    rw [a1, a2]
    have t1 : 1 * byteLen K < r1.shrink.coeffs.length * byteLen K := (Nat.mul_lt_mul_right hb).2 (by omega)
    have t2 : 1 * byteLen K ≤ r2.shrink.coeffs.length * byteLen K := Nat.mul_le_mul_right _ a4
    omega

end Verif
