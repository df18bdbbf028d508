import Verif.Proof.ZkHide
import Verif.Proof.LockMal
import Verif.Proof.SpdzLockQuery
import Verif.Spec.ZkPrivacy

/-! # Counting the tapes of a prover -/

namespace Verif

open Polynomial

variable {K : Nat}

/-! ## Tapes as lists of vectors -/

/-- The beginning of a tape cut into `n` vectors of `e` elements. -/
def groups (K e : Nat) : Nat → List Bool → List (List (BitVec K))
  | 0, _ => []
  | n + 1, t => words K e t :: groups K e n (t.drop (K * e))

/-- The tape that yields the vectors. -/
def gtape (gs : List (List (BitVec K))) : List Bool := gs.flatMap tapesOf

theorem groups_length (e n : Nat) (t : List Bool) : (groups K e n t).length = n := by
  induction n generalizing t with
  | zero => rfl
  | succ n ih => simp [groups, ih]

theorem groups_mem {e n : Nat} {t : List Bool} {ws : List (BitVec K)} (h : ws ∈ groups K e n t) : ws.length = e := by
  induction n generalizing t with
  | zero => cases h
  | succ n ih =>
    rcases List.mem_cons.1 h with rfl | h
    · exact words_length _ _ _
    · exact ih h

theorem gtape_length {e : Nat} {gs : List (List (BitVec K))} (h : ∀ g ∈ gs, g.length = e) : (gtape gs).length = K * e * gs.length := by
  induction gs with
  | nil => rfl
  | cons g gs ih =>
    have := ih fun x hx => h x (by simp [hx])
    unfold gtape at this ⊢
    rw [List.flatMap_cons, List.length_append, this, tapesOf_length, h g (by simp), List.length_cons]
    ring

theorem groups_gtape {e : Nat} {gs : List (List (BitVec K))} (h : ∀ g ∈ gs, g.length = e) (t : List Bool) :
    groups K e gs.length (gtape gs ++ t) = gs := by
  induction gs with
  | nil => rfl
  | cons g gs ih =>
    have hg := h g (by simp)
    have e1 : gtape (g :: gs) ++ t = tapesOf g ++ (gtape gs ++ t) := by simp [gtape]
    rw [List.length_cons, groups, e1, words_tapesOf hg, List.drop_left' (by rw [tapesOf_length, hg]), ih fun x hx => h x (by simp [hx])]

theorem gtape_groups (e n : Nat) (t : List Bool) (h : K * e * n ≤ t.length) : gtape (groups K e n t) ++ t.drop (K * e * n) = t := by
  induction n generalizing t with
  | zero => simp [groups, gtape]
  | succ n ih =>
    rw [Nat.mul_succ] at h
    have e1 : gtape (groups K e (n + 1) t) = tapesOf (words K e t) ++ gtape (groups K e n (t.drop (K * e))) := by simp [groups, gtape]
    have e2 : words K e t = words K e (t.take (K * e)) := by
      conv_lhs => rw [← List.take_append_drop (K * e) t]
      rw [words_append (by simp; omega)]
    rw [e1, e2, tapesOf_words (by simp; omega), Nat.mul_succ, Nat.add_comm, ← List.drop_drop, List.append_assoc,
      ih _ (by simp; omega), List.take_append_drop]

/-- Add the given vectors to those of a tape. -/
def shiftTape (op : BitVec K → BitVec K → BitVec K) (e : Nat) (δ : List (List (BitVec K))) (t : List Bool) : List Bool :=
  gtape (List.zipWith (List.zipWith op) (groups K e δ.length t) δ) ++ t.drop (K * e * δ.length)

section

variable {op : BitVec K → BitVec K → BitVec K} {e : Nat} {δ : List (List (BitVec K))}

theorem shift_shape (hδ : ∀ g ∈ δ, g.length = e) (t : List Bool) :
    (∀ g ∈ List.zipWith (List.zipWith op) (groups K e δ.length t) δ, g.length = e) ∧
      (List.zipWith (List.zipWith op) (groups K e δ.length t) δ).length = δ.length := by
  refine ⟨fun g hg => ?_, by simp [groups_length]⟩
  obtain ⟨k, hk, rfl⟩ := List.mem_iff_getElem.1 hg
  rw [List.getElem_zipWith, List.length_zipWith, groups_mem (List.getElem_mem _), hδ _ (List.getElem_mem _), Nat.min_self]

theorem shiftTape_groups (hδ : ∀ g ∈ δ, g.length = e) (t : List Bool) :
    groups K e δ.length (shiftTape op e δ t) = List.zipWith (List.zipWith op) (groups K e δ.length t) δ := by
  obtain ⟨h1, h2⟩ := shift_shape (op := op) hδ t
  have := groups_gtape h1 (t.drop (K * e * δ.length))
  rwa [h2] at this

theorem shiftTape_drop (hδ : ∀ g ∈ δ, g.length = e) (t : List Bool) :
    (shiftTape op e δ t).drop (K * e * δ.length) = t.drop (K * e * δ.length) := by
  obtain ⟨h1, h2⟩ := shift_shape (op := op) hδ t
  exact List.drop_left' (by rw [gtape_length h1, h2])

theorem shiftTape_length (hδ : ∀ g ∈ δ, g.length = e) {t : List Bool} (ht : K * e * δ.length ≤ t.length) :
    (shiftTape op e δ t).length = t.length := by
  obtain ⟨h1, h2⟩ := shift_shape (op := op) hδ t
  rw [shiftTape, List.length_append, gtape_length h1, h2, List.length_drop]
  omega

theorem shiftTape_inj (hop : ∀ d, Function.Injective (op · d)) (hδ : ∀ g ∈ δ, g.length = e) {t t' : List Bool}
    (ht : K * e * δ.length ≤ t.length) (ht' : K * e * δ.length ≤ t'.length) (h : shiftTape op e δ t = shiftTape op e δ t') : t = t' := by
  have h1 := shiftTape_groups (op := op) hδ t
  have h2 := shiftTape_groups (op := op) hδ t'
  have h3 := shiftTape_drop (op := op) hδ t
  have h4 := shiftTape_drop (op := op) hδ t'
  rw [h] at h1 h3
  rw [h2] at h1
  rw [h4] at h3
  have hg : groups K e δ.length t = groups K e δ.length t' := by
    apply List.ext_getElem (by simp [groups_length])
    intro k hk hk'
    rw [groups_length] at hk
    have := congrArg (fun l => l[k]?) h1
    simp only [List.getElem?_zipWith] at this
    rw [List.getElem?_eq_getElem (l := groups K e δ.length t) (by rw [groups_length]; exact hk),
      List.getElem?_eq_getElem (l := groups K e δ.length t') (by rw [groups_length]; exact hk),
      List.getElem?_eq_getElem (l := δ) hk] at this
    simp only [Option.some.injEq] at this
    have l1 := groups_mem (List.getElem_mem (l := groups K e δ.length t) (n := k) (by rw [groups_length]; exact hk))
    have l2 := groups_mem (List.getElem_mem (l := groups K e δ.length t') (n := k) (by rw [groups_length]; exact hk))
    have l3 := hδ _ (List.getElem_mem hk)
    apply List.ext_getElem (by rw [l1, l2])
    intro q hq hq'
    have h5 := congrArg (fun l => l[q]?) this
    simp only [List.getElem?_zipWith] at h5
    rw [List.getElem?_eq_getElem hq, List.getElem?_eq_getElem hq', List.getElem?_eq_getElem (by rw [l3]; omega)] at h5
    simp only [Option.some.injEq] at h5
    exact (hop _ h5).symm
  rw [← gtape_groups e δ.length t ht, ← gtape_groups e δ.length t' ht', hg, h3]

end

theorem tapeCount_le {α : Type} {run run' : List Bool → Except Err α} {n : Nat} (σ : List Bool → List Bool)
    (hl : ∀ t, t.length = n → (σ t).length = n) (hi : ∀ t t', t.length = n → t'.length = n → σ t = σ t' → t = t')
    {v : α} (h : ∀ t, t.length = n → run t = .ok v → run' (σ t) = .ok v) : tapeCount run n v ≤ tapeCount run' n v := by
  unfold tapeCount
  rw [← Set.InjOn.ncard_image (f := σ) (s := {t | t.length = n ∧ run t = .ok v}) fun a ha b hb hab => hi a b ha.1 hb.1 hab]
  refine Set.ncard_le_ncard ?_ ?_
  · rintro _ ⟨t, ⟨h1, h2⟩, rfl⟩
    exact ⟨hl t h1, h t h1 h2⟩
  · exact (List.finite_length_eq Bool n).subset fun t ht => ht.1

/-! ## Random elements from tapes -/

namespace ZkEnv

section

variable {f : Bytes → List Bool} {T I : Type}

/-- The elements are drawn as vectors of `e` ring elements. -/
def Draws (E : ZkEnv (idealPrg f) T I) (K e : Nat) (mk : List (BitVec K) → T) : Prop :=
  ∀ t : List Bool, E.rnd t = (mk (words K e t), t.drop (K * e))

theorem randoms_eq {E : ZkEnv (idealPrg f) T I} {e : Nat} {mk : List (BitVec K) → T} (h : E.Draws K e mk) (n : Nat) (t : List Bool) :
    E.randoms n t = ((groups K e n t).map mk, t.drop (K * e * n)) := by
  induction n generalizing t with
  | zero => rfl
  | succ n ih =>
    simp only [randoms, groups]
    rw [h t, ih]
    refine Prod.ext rfl ?_
    show (t.drop (K * e)).drop (K * e * n) = t.drop (K * e * (n + 1))
    rw [List.drop_drop, Nat.mul_succ, Nat.add_comm]

end

end ZkEnv

theorem and_draws (f : Bytes → List Bool) : (andEnv (idealPrg f)).Draws 64 1 (fun ws => GF2p64.new (ws.headD 0)) := fun _ => rfl

theorem poly_draws (f : Bytes → List Bool) (n : Nat) (t : List Bool) :
    Poly.random (G := idealPrg f) K n t = (⟨words K (n + 1) t⟩, t.drop (K * (n + 1))) := by
  have key : ∀ (k : Nat) (l : List Nat) (acc : List (BitVec K)) (t : List Bool), l.length = k → (l.foldl (fun (acc : List (BitVec K) × (idealPrg f).S) _ =>
      let x := (idealPrg f).gen K acc.2
      (acc.1 ++ [x.1], x.2)) (acc, t)) = (acc ++ words K k t, t.drop (K * k)) := by
    intro k
    induction k with
    | zero => intro l acc t hl; rw [List.length_eq_zero_iff.1 hl]; simp [words]; rfl
    | succ k ih =>
      intro l acc t hl
      cases l with
      | nil => simp at hl
      | cons a l =>
        rw [List.foldl_cons]
        have e := ih l (acc ++ [((idealPrg f).gen K t).1]) (t.drop K) (by simpa using hl)
        refine e.trans (Prod.ext ?_ ?_)
        · show (acc ++ [((idealPrg f).gen K t).1]) ++ words K k (t.drop K) = acc ++ words K (k + 1) t
          rw [List.append_assoc]
          rfl
        · show (t.drop K).drop (K * k) = t.drop (K * (k + 1))
          rw [List.drop_drop, Nat.mul_succ, Nat.add_comm]
  unfold Poly.random
  have := key (n + 1) (List.range (n + 1)) [] t (by simp)
  simp only [List.nil_append] at this
  simp only
  rw [this]
  rfl

namespace ZkEnv

theorem randoms_getD {T I : Type} [PolyT T] {f : Bytes → List Bool} {E : ZkEnv (idealPrg f) T I} {e : Nat}
    {mk : List (BitVec K) → T} (h : E.Draws K e mk) (n : Nat) (t : List Bool) (q : Nat) (hq : q < n) (z : T) :
    (E.randoms n t).1.getD q z = mk ((groups K e n t)[q]'(by rw [groups_length]; exact hq)) := by
  rw [randoms_eq h]
  simp only [List.getD_eq_getElem?_getD, List.getElem?_map]
  rw [List.getElem?_eq_getElem (by rw [groups_length]; exact hq)]
  rfl

/-- Two provers with different gates, the same in the view of their predecessor: shifting the tape of the one gives a tape
of the other with which the predecessor sees the same. -/
theorem hide_shift {T I R A : Type} [PolyT T] [CommRing R] [LawfulPolyT T R] [CommRing A] {f : Bytes → List Bool}
    (E : ZkEnv (idealPrg f) T I) (ψ : R →+* A) {Red : T → Prop} (hr : E.RedOk ψ Red)
    (hred : ∀ x y, E.red x = .ok y → Red y) (hinj : ∀ x y, Red x → Red y → ψ (sem x) = ψ (sem y) → x = y)
    {cR : (A : Type) → [CommRing A] → List A → A} (hc : E.circ.Lawful cR) (l m : Nat)
    (p p' vp vp' vn : List I) (thetas : List T) (L0 : Poly T) (Ls : List (Poly T)) (coords : List T)
    (hth : thetas.length = l) (hL : Ls.length = m) (hco : coords.length = m + 1)
    (hLag : ∀ j (hj : j < (L0 :: Ls).length), IsLagrange (coords.map fun x => ψ (sem x)) j (((L0 :: Ls)[j].sem : R[X]).map ψ))
    (V V' Vp Vp' Vn : Nat → Nat → T) (hV : E.Gates (l * m) p V) (hV' : E.Gates (l * m) p' V')
    (hVp : E.Gates (l * m) vp Vp) (hVp' : E.Gates (l * m) vp' Vp') (hVn : E.Gates (l * m) vn Vn)
    (hsplit : ∀ q < l * m, ∀ i < E.circ.wires, ψ (sem (Vp q i)) + ψ (sem (Vn q i)) = ψ (sem (V q i)))
    (hsplit' : ∀ q < l * m, ∀ i < E.circ.wires, ψ (sem (Vp' q i)) + ψ (sem (Vn q i)) = ψ (sem (V' q i)))
    (hgate : ∀ q < l * m, cR A ((List.range E.circ.wires).map fun i => ψ (sem (V q i))) = 0)
    (hgate' : ∀ q < l * m, cR A ((List.range E.circ.wires).map fun i => ψ (sem (V' q i))) = 0)
    (betas : List T) (r : T) (hb : betas.length = m) (u : A) (hu : ((L0.sem : R[X]).map ψ).eval (ψ (sem r)) * u = 1)
    {e : Nat} {mk : List (BitVec K) → T} (hd : E.Draws K e mk) (op : BitVec K → BitVec K → BitVec K)
    (hop : ∀ d, Function.Injective (op · d))
    (hmk : ∀ a : A, ∃ δ : List (BitVec K), δ.length = e ∧ ∀ x : List (BitVec K), x.length = e →
      ψ (sem (mk (List.zipWith op x δ))) = ψ (sem (mk x)) + a) (n : Nat) (hn : K * e * (E.circ.wires * l) ≤ n) (out : Bytes × ZkShared T) :
    tapeCount (fun t => do
        let (sd, pf, _) ← E.prove l m p thetas (L0 :: Ls) t
        let v ← E.verifyPi l m vp betas r (L0 :: Ls) coords pf
        pure (sd, v)) n out ≤
      tapeCount (fun t => do
        let (sd, pf, _) ← E.prove l m p' thetas (L0 :: Ls) t
        let v ← E.verifyPi l m vp' betas r (L0 :: Ls) coords pf
        pure (sd, v)) n out := by
  choose D hD1 hD2 using hmk
  set δ : List (List (BitVec K)) := (List.range (E.circ.wires * l)).map fun q =>
    D (maskShift ψ (L0 :: Ls) l m (fun q i => ψ (sem (Vp q i))) (fun q i => ψ (sem (Vp' q i))) (ψ (sem r)) u (q % l) (q / l)) with hδ
  have hlen : δ.length = E.circ.wires * l := by simp [hδ]
  have hsh : ∀ g ∈ δ, g.length = e := by
    intro g hg
    rw [hδ] at hg
    obtain ⟨q, -, rfl⟩ := List.mem_map.1 hg
    exact hD1 _
  refine tapeCount_le (shiftTape op e δ) (fun t ht => ?_) (fun t t' ht ht' h => ?_) fun t ht h => ?_
  · rw [shiftTape_length hsh (by rw [hlen, ht]; exact hn), ht]
  · exact shiftTape_inj hop hsh (by rw [hlen, ht]; exact hn) (by rw [hlen, ht']; exact hn) h
  · obtain ⟨sd, pf, pf', s, v, e1, e2, e3, e4⟩ := E.hide ψ hr hred hinj hc l m p p' vp vp' vn thetas L0 Ls coords t (shiftTape op e δ t) hth hL hco hLag
      V V' Vp Vp' Vn hV hV' hVp hVp' hVn hsplit hsplit' hgate hgate' betas r hb u hu
      (by
        rw [randoms_eq hd, randoms_eq hd]
        have := shiftTape_drop (op := op) hsh t
        rw [hlen] at this
        exact this)
      (fun j hj i hi => by
        have hq : i * l + j < E.circ.wires * l := by
          calc i * l + j < i * l + l := by omega
            _ = (i + 1) * l := by ring
            _ ≤ _ := Nat.mul_le_mul_right _ hi
        rw [randoms_getD hd _ _ _ hq, randoms_getD hd _ _ _ hq]
        have hg := shiftTape_groups (op := op) hsh t
        rw [hlen] at hg
        have hgq : (groups K e (E.circ.wires * l) (shiftTape op e δ t))[i * l + j]'(by rw [groups_length]; exact hq) =
            List.zipWith op ((groups K e (E.circ.wires * l) t)[i * l + j]'(by rw [groups_length]; exact hq)) (δ[i * l + j]'(by rw [hlen]; exact hq)) := by
          simp only [hg, List.getElem_zipWith]
        rw [hgq]
        have hδq : δ[i * l + j]'(by rw [hlen]; exact hq) = D (maskShift ψ (L0 :: Ls) l m (fun q i => ψ (sem (Vp q i))) (fun q i => ψ (sem (Vp' q i))) (ψ (sem r)) u j i) := by
          simp only [hδ, List.getElem_map, List.getElem_range]
          rw [Nat.mul_comm i l, Nat.mul_add_mod, Nat.mod_eq_of_lt hj, Nat.mul_add_div (by omega), Nat.div_eq_of_lt hj, Nat.add_zero]
        rw [hδq, hD2 _ _ (groups_mem (List.getElem_mem _))])
    simp only [e1, bind, Except.bind] at h
    rw [e3] at h
    simp only [bind, Except.bind]
    rw [e2]
    simp only
    rw [e4]
    exact h

end ZkEnv

end Verif
