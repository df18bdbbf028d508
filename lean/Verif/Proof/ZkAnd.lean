import Verif.Proof.ZkComplete
import Verif.Proof.ZkCount
import Verif.Spec.Swift3

/-! # The proof system for AND gates -/

namespace Verif

open Polynomial

theorem andPoints_nodup (n : Nat) (h : n ≤ 2 ^ 64) : (andPoints n).Nodup := by
  unfold andPoints
  refine List.Nodup.map_on ?_ List.nodup_range
  intro x hx y hy hxy
  have hx := List.mem_range.1 hx
  have hy := List.mem_range.1 hy
  have := congrArg (fun z : GF2p64 => z.val.toNat) hxy
  simp only [GF2p64.new, BitVec.toNat_ofNat] at this
  rwa [Nat.mod_eq_of_lt (by omega), Nat.mod_eq_of_lt (by omega)] at this

theorem andPoints_length (n : Nat) : (andPoints n).length = n := by simp [andPoints]

theorem and_redOk (G : Prg) : (andEnv G).RedOk (RingHom.id F64) (fun _ => True) where
  red x := ⟨x, rfl, rfl, trivial⟩
  zero x y _ _ := by
    rw [isZero_iff, sem_add]; rfl

/-- The bit `b` as a field element. -/
noncomputable def bitF (b : Bool) : F64 := if b then 1 else 0

theorem sem_lift (b : Bool) : (GF2p64.lift b).sem = bitF b := by
  unfold bitF GF2p64.lift
  cases b
  · exact GF2p64.sem_zero
  · exact GF2p64.sem_one

theorem two_F64 : (2 : F64) = 0 := by
  have := GF2p64.neg_sem 1
  linear_combination -this

theorem bitF_xor (a b : Bool) : bitF (a ^^ b) = bitF a + bitF b := by
  have := two_F64
  cases a <;> cases b <;> simp [bitF]
  linear_combination -this

theorem bitF_and (a b : Bool) : bitF (a && b) = bitF a * bitF b := by
  cases a <;> cases b <;> simp [bitF]

theorem bitF_inj {a b : Bool} : bitF a = bitF b ↔ a = b := by
  cases a <;> cases b <;> simp [bitF]

/-- Wire `i` of a gate, as a bit. -/
def ZInput.bit (x : ZInput Bool) (i : Nat) : Bool := match x.get i with
  | .ok b => b
  | .error _ => false

theorem and_wire (G : Prg) (x : ZInput Bool) (i : Nat) (h : i < 6) :
    (andEnv G).wire x i = .ok (GF2p64.lift (x.bit i)) := by
  match i, h with
  | 0, _ => rfl
  | 1, _ => rfl
  | 2, _ => rfl
  | 3, _ => rfl
  | 4, _ => rfl
  | 5, _ => rfl

/-- The wires of a list of gates. -/
def andV (inputs : List (ZInput Bool)) (q i : Nat) : GF2p64 :=
  GF2p64.lift ((inputs.getD q ⟨false, false, false, false, false, false⟩).bit i)

theorem and_gates (G : Prg) (inputs : List (ZInput Bool)) : (andEnv G).Gates inputs.length inputs (andV inputs) := by
  refine ⟨rfl, fun q hq => ⟨inputs[q], List.getElem?_eq_getElem hq, fun i hi => ?_⟩⟩
  rw [and_wire G _ i hi, andV, List.getD_eq_getElem?_getD, List.getElem?_eq_getElem hq]
  rfl

/-- The gate constraint. -/
def AndOk (g : ZInput Bool) : Prop := ((g.a0 && g.b0) ^^ (g.a0 && g.b1) ^^ (g.a1 && g.b0) ^^ g.r) = g.s

theorem mulExpr_bits (g : ZInput Bool) :
    mulExpr F64 ((List.range 6).map fun i => bitF (g.bit i)) =
      bitF (((g.a0 && g.b0) ^^ (g.a0 && g.b1) ^^ (g.a1 && g.b0) ^^ g.r)) - bitF g.s := by
  show mulExpr F64 [bitF g.a0, bitF g.a1, bitF g.b0, bitF g.b1, bitF g.r, bitF g.s] = _
  simp only [mulExpr, bitF_xor, bitF_and]

theorem mulExpr_zero_iff (g : ZInput Bool) : mulExpr F64 ((List.range 6).map fun i => bitF (g.bit i)) = 0 ↔ AndOk g := by
  rw [mulExpr_bits, sub_eq_zero, bitF_inj]; rfl

/-- Exclusive or of two gates, wire by wire. -/
def ZInput.xor (x y : ZInput Bool) : ZInput Bool :=
  ⟨x.a0 ^^ y.a0, x.a1 ^^ y.a1, x.b0 ^^ y.b0, x.b1 ^^ y.b1, x.r ^^ y.r, x.s ^^ y.s⟩

theorem ZInput.bit_xor (x y : ZInput Bool) (i : Nat) : (x.xor y).bit i = (x.bit i ^^ y.bit i) := by
  match i with
  | 0 => rfl
  | 1 => rfl
  | 2 => rfl
  | 3 => rfl
  | 4 => rfl
  | 5 => rfl
  | _ + 6 => rfl

theorem resize_of_le {α : Type} (l : List α) (n : Nat) (d : α) (h : l.length ≤ n) :
    resize l n d = l ++ List.replicate (n - l.length) d := by
  unfold resize; rw [List.take_of_length_le h]

/-- Padding keeps gates consistent and correct. -/
theorem Gates.resize {I : Type} {ok : I → I → I → Prop} {p vp vn : List I} (h : Gates ok p vp vn) (n : Nat) (d : I)
    (hd : ok d d d) (hn : p.length ≤ n) : Gates ok (resize p n d) (resize vp n d) (resize vn n d) := by
  obtain ⟨gs, hg, rfl, rfl, rfl⟩ := h
  simp only [List.length_map] at hn
  refine ⟨gs ++ List.replicate (n - gs.length) (d, d, d), ?_, ?_, ?_, ?_⟩
  · intro g hm
    rcases List.mem_append.1 hm with hm | hm
    · exact hg g hm
    · rw [List.eq_of_mem_replicate hm]; exact hd
  all_goals rw [resize_of_le _ _ _ (by simpa using hn)]; simp

theorem Gates.length {I : Type} {ok : I → I → I → Prop} {p vp vn : List I} (h : Gates ok p vp vn) :
    vp.length = p.length ∧ vn.length = p.length := by
  obtain ⟨gs, _, rfl, rfl, rfl⟩ := h
  simp

theorem Gates.get {I : Type} {ok : I → I → I → Prop} {p vp vn : List I} (h : Gates ok p vp vn) (q : Nat) (d : I)
    (hq : q < p.length) : ok (p.getD q d) (vp.getD q d) (vn.getD q d) := by
  obtain ⟨gs, hg, rfl, rfl, rfl⟩ := h
  simp only [List.length_map] at hq
  simp only [List.getD_eq_getElem?_getD, List.getElem?_map, List.getElem?_eq_getElem hq]
  exact hg _ (List.getElem_mem hq)

theorem and_lagrange (m : Nat) (hm : m < 2 ^ 64) :
    ∃ Ls, GF2p64.lagrangePolys (andPoints (m + 1)) = .ok Ls ∧ Ls.length = m + 1 ∧
      ∀ j (hj : j < Ls.length), IsLagrange ((andPoints (m + 1)).map fun x => RingHom.id F64 (sem x)) j
        ((Ls[j].sem : F64[X]).map (RingHom.id F64)) := by
  obtain ⟨Ls, e, hl, h⟩ := GF2p64.lagrangePolys_spec _ (andPoints_nodup (m + 1) (by omega))
  refine ⟨Ls, e, by rw [hl, andPoints_length], fun j hj => ?_⟩
  have := h j hj
  rw [Polynomial.map_id]
  exact this

theorem andSetParameters_ok (l m : Nat) (hsec : 2 ^ 40 * (2 * m + 1) < 2 ^ 64 - m) (w : ZProof Bool)
    (hw : w.proof.length ≤ l * m) : andSetParameters w l m =
      .ok ⟨l, m, resize w.proof (l * m) ⟨false, false, false, false, false, false⟩,
        resize w.verifyPrev (l * m) ⟨false, false, false, false, false, false⟩,
        resize w.verifyNext (l * m) ⟨false, false, false, false, false, false⟩⟩ := by
  have hs := (andSecure_iff m).2 hsec
  have e : w.setParameters ⟨false, false, false, false, false, false⟩ l m =
      .ok ⟨l, m, resize w.proof (l * m) ⟨false, false, false, false, false, false⟩,
        resize w.verifyPrev (l * m) ⟨false, false, false, false, false, false⟩,
        resize w.verifyNext (l * m) ⟨false, false, false, false, false, false⟩⟩ := by
    unfold ZProof.setParameters
    rw [if_pos (show w.getMuls ≤ l * m from hw)]
  unfold andSetParameters
  rw [e, hs]
  rfl

/-- The views of the two verifiers add up to the gate. -/
def AndSplit (p vp vn : ZInput Bool) : Prop := p = vp.xor vn

/-- By how much the output of a gate is wrong. -/
def ZInput.err (g : ZInput Bool) : Bool := ((g.a0 && g.b0) ^^ (g.a0 && g.b1) ^^ (g.a1 && g.b0) ^^ g.r) ^^ g.s

theorem mulExpr_err (g : ZInput Bool) : mulExpr F64 ((List.range 6).map fun i => bitF (g.bit i)) = bitF g.err := by
  rw [mulExpr_bits]
  simp only [ZInput.err, bitF_xor]
  have := two_F64
  linear_combination -(bitF g.s) * this

/-- An honestly computed proof is accepted as soon as in every column the weighted errors add up to zero. -/
theorem and_complete_cols (G : Prg) (l m : Nat) (hm : m < 2 ^ 64) (p vp vn : List (ZInput Bool)) (h : Gates AndSplit p vp vn)
    (hp : p.length = l * m) (thetas : List GF2p64) (hth : thetas.length = l)
    (hcol : ∀ k < m, ((List.range l).map fun j => (thetas.getD j PolyT.zero).sem *
      bitF (p.getD (j * m + k) ⟨false, false, false, false, false, false⟩).err).sum = 0) (rng : G.S) :
    ∃ Ls sd pf rng', GF2p64.lagrangePolys (andPoints (m + 1)) = .ok Ls ∧ Ls.length = m + 1 ∧
      (andEnv G).prove l m p thetas Ls rng = .ok (sd, pf, rng') ∧
      ∀ betas r, betas.length = m → ∃ v1 v2,
        (andEnv G).verifyPi l m vp betas r Ls (andPoints (m + 1)) pf = .ok v1 ∧
        (andEnv G).verifyPi l m vn betas r Ls (andPoints (m + 1)) ((andEnv G).fromSeed sd l m) = .ok v2 ∧
        (andEnv G).combine l thetas v1 v2 = .ok () := by
  obtain ⟨Ls, eL, hL, hLag⟩ := and_lagrange m hm
  have hlen := h.length
  have g1 := and_gates G p
  have g2 := and_gates G vp
  have g3 := and_gates G vn
  rw [hlen.1, hp] at g2
  rw [hlen.2, hp] at g3
  rw [hp] at g1
  obtain ⟨sd, pf, rng', e, hrest⟩ := (andEnv G).complete_cols (RingHom.id F64) (and_redOk G) mulCirc_lawful l m p vp vn thetas Ls
    (andPoints (m + 1)) rng hth hL (andPoints_length _) hLag (andV p) (andV vp) (andV vn) g1 g2 g3
    (by
      intro q hq i _
      have hg : p.getD q ⟨false, false, false, false, false, false⟩ = _ :=
        h.get q ⟨false, false, false, false, false, false⟩ (by omega)
      simp only [andV, RingHom.id_apply, sem_gf, sem_lift]
      rw [hg, ZInput.bit_xor, bitF_xor])
    (by
      intro k hk
      rw [← hcol k hk, ZkEnv.rowSum]
      congr 1
      apply List.map_congr_left
      intro j _
      rw [← mulExpr_err]
      simp only [andV, RingHom.id_apply, sem_gf, sem_lift]
      rfl)
  refine ⟨Ls, sd, pf, rng', eL, hL, e, fun betas r hb => ?_⟩
  obtain ⟨v1, v2, y, e1, e2, -, -, -, hy, hc⟩ := hrest betas r hb
  refine ⟨v1, v2, e1, e2, ?_⟩
  rw [hc, if_neg]
  · rfl
  · rw [not_not]
    apply GF2p64.sem_injective
    have : y.sem = v1.pr.sem + v2.pr.sem := hy
    rw [this]
    exact (GF2p64.sem_add _ _).symm

/-- Completeness for one prover. -/
theorem and_complete (G : Prg) (l m : Nat) (hm : m < 2 ^ 64) (p vp vn : List (ZInput Bool)) (h : Gates AndGateOk p vp vn)
    (hp : p.length = l * m) (thetas : List GF2p64) (hth : thetas.length = l) (rng : G.S) :
    ∃ Ls sd pf rng', GF2p64.lagrangePolys (andPoints (m + 1)) = .ok Ls ∧ Ls.length = m + 1 ∧
      (andEnv G).prove l m p thetas Ls rng = .ok (sd, pf, rng') ∧
      ∀ betas r, betas.length = m → ∃ v1 v2,
        (andEnv G).verifyPi l m vp betas r Ls (andPoints (m + 1)) pf = .ok v1 ∧
        (andEnv G).verifyPi l m vn betas r Ls (andPoints (m + 1)) ((andEnv G).fromSeed sd l m) = .ok v2 ∧
        (andEnv G).combine l thetas v1 v2 = .ok () := by
  have hs : Gates AndSplit p vp vn := by
    obtain ⟨gs, hg, e⟩ := h
    exact ⟨gs, fun g hm => (hg g hm).1, e⟩
  refine and_complete_cols G l m hm p vp vn hs hp thetas hth (fun k hk => ?_) rng
  apply List.sum_eq_zero
  intro x hx
  obtain ⟨j, hj, rfl⟩ := List.mem_map.1 hx
  have hq := ZkEnv.flat_lt' (List.mem_range.1 hj) hk
  have hg := (h.get _ ⟨false, false, false, false, false, false⟩ (by rw [hp]; exact hq)).2
  unfold ZInput.err
  rw [hg]
  simp [bitF]


/-! ## Soundness -/

instance : Finite GF2p64 :=
  Finite.of_injective (fun x : GF2p64 => x.val.toFin) fun x y h => GF2p64.ext (BitVec.eq_of_toFin_eq h)

theorem natCard_GF2p64 : Nat.card GF2p64 = 2 ^ 64 := by
  rw [← GF2p64.natCard_F64]
  exact Nat.card_eq_of_bijective GF2p64.sem ⟨GF2p64.sem_injective, GF2p64.sem_surjective⟩

/-- The values that `get_and_r` may return. -/
def AndR (m : Nat) : Type := {r : GF2p64 // m < r.val.toNat}

instance (m : Nat) : Finite (AndR m) := inferInstanceAs (Finite {r : GF2p64 // m < r.val.toNat})

theorem natCard_AndR (m : Nat) (hm : m < 2 ^ 64) : Nat.card (AndR m) = 2 ^ 64 - m - 1 := by
  have e : AndR m ≃ Fin (2 ^ 64 - m - 1) :=
    { toFun := fun r => ⟨r.1.val.toNat - m - 1, by have := r.2; have := r.1.val.isLt; omega⟩
      invFun := fun k => ⟨⟨BitVec.ofNat 64 (k.1 + m + 1)⟩, by
        have := k.2
        simp only [BitVec.toNat_ofNat]
        rw [Nat.mod_eq_of_lt (by omega)]; omega⟩
      left_inv := fun r => by
        apply Subtype.ext
        apply GF2p64.ext
        apply BitVec.eq_of_toNat_eq
        have := r.2
        have := r.1.val.isLt
        simp only [BitVec.toNat_ofNat]
        rw [Nat.mod_eq_of_lt (by omega)]; omega
      right_inv := fun k => by
        apply Fin.ext
        have := k.2
        simp only [BitVec.toNat_ofNat]
        rw [Nat.mod_eq_of_lt (by omega)]; omega }
  rw [Nat.card_congr e, Nat.card_eq_fintype_card, Fintype.card_fin]

open ZkEnv in
/-- Soundness count for one prover: `vp`, `vn` are the views of the two verifiers, of which at least one gate is wrong. The
prover's messages may depend on `θ`. -/
theorem and_sound (G : Prg) (l m : Nat) (hm : m < 2 ^ 63) (vp vn : List (ZInput Bool)) (hp : vp.length = l * m)
    (hn : vn.length = l * m) (d0 : ZInput Bool) (q : Nat) (hq : q < l * m)
    (hbad : ¬ AndOk ((vp.getD q d0).xor (vn.getD q d0)))
    (pf1 pf2 : (Fin l → GF2p64) → ZkPf GF2p64) :
    Nat.card GF2p64 * Nat.card {x : (Fin l → GF2p64) × (Fin m → GF2p64) × AndR m //
      ∃ Ls v1 v2, GF2p64.lagrangePolys (andPoints (m + 1)) = .ok Ls ∧
        (andEnv G).verifyPi l m vp (List.ofFn x.2.1) x.2.2.1 Ls (andPoints (m + 1)) (pf1 x.1) = .ok v1 ∧
        (andEnv G).verifyPi l m vn (List.ofFn x.2.1) x.2.2.1 Ls (andPoints (m + 1)) (pf2 x.1) = .ok v2 ∧
        (andEnv G).combine l (List.ofFn x.1) v1 v2 = .ok ()} ≤
      Nat.card GF2p64 ^ (l + m) * (Nat.card (AndR m) + 2 * m * Nat.card GF2p64) := by
  obtain ⟨Ls, eL, hL, hLag⟩ := and_lagrange m (by omega)
  have hm0 : 0 < m := by
    rcases Nat.eq_zero_or_pos m with rfl | h
    · simp at hq
    · exact h
  have g2 := and_gates G vp
  have g3 := and_gates G vn
  rw [hp] at g2
  rw [hn] at g3
  have hxs : ((andPoints (m + 1)).map fun x => RingHom.id F64 (sem x)).length = m + 1 := by
    simp [andPoints_length]
  set j0 := q / m with hj0
  set k0 := q % m with hk0
  have hj : j0 < l := Nat.div_lt_of_lt_mul (by rwa [Nat.mul_comm])
  have hk : k0 < m := Nat.mod_lt _ hm0
  have hqe : j0 * m + k0 = q := by rw [Nat.mul_comm]; exact Nat.div_add_mod q m
  -- the value of a gate
  set val : Nat → F64 := fun q => mulExpr F64 ((List.range 6).map fun i =>
    RingHom.id F64 (sem (andV vp q i)) + RingHom.id F64 (sem (andV vn q i))) with hval
  have hvq : val q ≠ 0 := by
    have e : val q = mulExpr F64 ((List.range 6).map fun i => bitF (((vp.getD q d0).xor (vn.getD q d0)).bit i)) := by
      rw [hval]
      simp only [andV, RingHom.id_apply, sem_gf, sem_lift, ZInput.bit_xor, bitF_xor]
      simp only [List.getD_eq_getElem?_getD]
      rw [List.getElem?_eq_getElem (by omega), List.getElem?_eq_getElem (by omega)]
      rfl
    rw [e]
    exact fun h => hbad ((mulExpr_zero_iff _).1 h)
  refine count_accept GF2p64.sem ⟨GF2p64.sem_injective, GF2p64.sem_surjective⟩ (Subtype.val : AndR m → GF2p64)
    Subtype.val_injective (d := 2 * m) ?_ (fun j : Fin l => val (j.1 * m + k0)) ⟨j0, hj⟩ (by rw [hqe]; exact hvq)
    (fun θ β r => ∃ Ls v1 v2, GF2p64.lagrangePolys (andPoints (m + 1)) = .ok Ls ∧
        (andEnv G).verifyPi l m vp (List.ofFn β) r.1 Ls (andPoints (m + 1)) (pf1 θ) = .ok v1 ∧
        (andEnv G).verifyPi l m vn (List.ofFn β) r.1 Ls (andPoints (m + 1)) (pf2 θ) = .ok v2 ∧
        (andEnv G).combine l (List.ofFn θ) v1 v2 = .ok ()) ?_
  · show Nat.card (AndR m) ≤ _
    rw [natCard_AndR m (by omega), natCard_GF2p64]
    calc 2 ^ 64 - m - 1 ≤ 1 * 2 ^ 64 := by omega
      _ ≤ 2 * m * 2 ^ 64 := Nat.mul_le_mul_right _ (by omega)
  · intro θ hθ
    set Gp : F64[X] := polyA (RingHom.id F64) (pf1 θ).a + polyA (RingHom.id F64) (pf2 θ).a with hGp
    set W : F64[X] := rowSum mulExpr 6 l (fun j => C (RingHom.id F64 (sem ((List.ofFn θ).getD j PolyT.zero))))
      (wireA (RingHom.id F64) Ls l m (fun q => RingHom.id F64 (sem ((pf1 θ).w.getD q PolyT.zero)) +
          RingHom.id F64 (sem ((pf2 θ).w.getD q PolyT.zero)))
        (fun q i => RingHom.id F64 (sem (andV vp q i)) + RingHom.id F64 (sem (andV vn q i)))) with hW
    have hacc : ∀ β (r : AndR m), (∃ Ls v1 v2, GF2p64.lagrangePolys (andPoints (m + 1)) = .ok Ls ∧
        (andEnv G).verifyPi l m vp (List.ofFn β) r.1 Ls (andPoints (m + 1)) (pf1 θ) = .ok v1 ∧
        (andEnv G).verifyPi l m vn (List.ofFn β) r.1 Ls (andPoints (m + 1)) (pf2 θ) = .ok v2 ∧
        (andEnv G).combine l (List.ofFn θ) v1 v2 = .ok ()) →
        (∑ k : Fin m, Gp.eval (sem ((andPoints (m + 1))[k.1 + 1]'(by rw [andPoints_length]; omega))) * (β k).sem) = 0 ∧
        W.eval r.1.sem = Gp.eval r.1.sem ∧ (pf1 θ).a.length = 2 * m + 1 ∧ (pf2 θ).a.length = 2 * m + 1 := by
      rintro β r ⟨Ls', v1, v2, eL', e1, e2, ec⟩
      obtain rfl : Ls = Ls' := Except.ok.inj (eL.symm.trans eL')
      have := (andEnv G).accept_eqs (RingHom.id F64) (and_redOk G) mulCirc_lawful l m vp vn (List.ofFn θ) Ls
        (andPoints (m + 1)) (by simp) hL (andPoints_length _) (andV vp) (andV vn) g2 g3 (pf1 θ) (pf2 θ) (List.ofFn β) r.1
        (by simp) v1 v2 e1 e2 ec
      refine ⟨?_, this.2.1, this.2.2⟩
      rw [← this.1]
      apply Finset.sum_congr rfl
      intro k _
      simp [hGp, sem_gf]
    by_cases hz : ∀ k (hk : k < m), Gp.eval (sem ((andPoints (m + 1))[k + 1]'(by rw [andPoints_length]; omega))) = 0
    · right
      -- `W` does not vanish at the point of the wrong gate
      have hWk : W.eval (sem ((andPoints (m + 1))[k0 + 1]'(by rw [andPoints_length]; omega))) ≠ 0 := by
        rw [hW]
        erw [rowSum_eval (circ := mulCirc) mulCirc_lawful]
        have : rowSum mulExpr 6 l (fun j => RingHom.id F64 (sem ((List.ofFn θ).getD j PolyT.zero)))
            (fun j i => (wireA (RingHom.id F64) Ls l m (fun q => RingHom.id F64 (sem ((pf1 θ).w.getD q PolyT.zero)) +
              RingHom.id F64 (sem ((pf2 θ).w.getD q PolyT.zero)))
            (fun q i => RingHom.id F64 (sem (andV vp q i)) + RingHom.id F64 (sem (andV vn q i))) j i).eval
              (sem ((andPoints (m + 1))[k0 + 1]'(by rw [andPoints_length]; omega)))) = ∑ j : Fin l, val (j.1 * m + k0) * (θ j).sem := by
          rw [rowSum, ← List.sum_ofFn]
          congr 1
          apply List.ext_getElem
          · simp
          · intro j h1 h2
            simp only [List.length_map, List.length_range] at h1
            simp only [List.getElem_map, List.getElem_range, List.getElem_ofFn]
            have e : (List.ofFn θ).getD j PolyT.zero = θ ⟨j, h1⟩ := by
              rw [List.getD_eq_getElem?_getD, List.getElem?_eq_getElem (by simpa using h1)]; simp
            rw [e, mul_comm]
            congr 1
            rw [hval]
            congr 1
            apply List.map_congr_left
            intro i _
            have := wireA_eval (RingHom.id F64) Ls l m _ hxs hL hLag
              (fun q => RingHom.id F64 (sem ((pf1 θ).w.getD q PolyT.zero)) + RingHom.id F64 (sem ((pf2 θ).w.getD q PolyT.zero)))
              (fun q i => RingHom.id F64 (sem (andV vp q i)) + RingHom.id F64 (sem (andV vn q i))) j i k0 hk
            rw [List.getElem_map] at this
            exact this
        erw [this]
        exact hθ
      by_cases hlen : (pf1 θ).a.length = 2 * m + 1 ∧ (pf2 θ).a.length = 2 * m + 1
      · refine ⟨W - Gp, ?_, ?_, ?_⟩
        · intro h0
          apply hWk
          have := congrArg (fun p => Polynomial.eval (sem ((andPoints (m + 1))[k0 + 1]'(by rw [andPoints_length]; omega))) p) h0
          simp only [eval_sub, hz k0 hk, sub_zero, eval_zero] at this
          exact this
        · refine natDegree_sub_le' ?_ ?_
          · rw [hW]
            exact rowSum_natDegree (circ := mulCirc) mulCirc_lawful l m _ _ fun j i => wireA_natDegree _ _ _ _ _ hxs hLag _ _ _ _
          · have hdeg : ∀ a : List GF2p64, a.length = 2 * m + 1 → (polyA (RingHom.id F64) a).natDegree ≤ 2 * m := by
              intro a ha
              unfold polyA
              rw [Polynomial.map_id]
              have := semL_degree_lt (R := F64) a
              rw [ha] at this
              exact Nat.lt_succ_iff.1 (by
                by_cases h0 : (semL a : F64[X]) = 0
                · rw [h0]; simp
                · rw [natDegree_lt_iff_degree_lt h0]; exact this)
            exact natDegree_add_le' (hdeg _ hlen.1) (hdeg _ hlen.2)
        · intro β r h
          have := (hacc β r h).2.1
          rw [eval_sub, this, sub_self]
      · refine ⟨1, one_ne_zero, by simp, fun β r h => ?_⟩
        exact absurd (hacc β r h).2.2 hlen
    · left
      push Not at hz
      obtain ⟨k, hk, hne⟩ := hz
      exact ⟨fun k => Gp.eval (sem ((andPoints (m + 1))[k.1 + 1]'(by rw [andPoints_length]; omega))), ⟨⟨k, hk⟩, hne⟩,
        fun β r h => (hacc β r h).1⟩

end Verif
