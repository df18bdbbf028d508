import Verif.Proof.ZkProof
import Verif.Proof.ZkMul

/-! # Sizes of proofs and verifications -/

namespace Verif

theorem mapM_inv {α β : Type} {f : α → Except Err β} {l : List α} {ys : List β} (h : l.mapM f = .ok ys) :
    ys.length = l.length ∧ ∀ y ∈ ys, ∃ x ∈ l, f x = .ok y := by
  induction l generalizing ys with
  | nil => cases h; simp
  | cons x l ih =>
    rw [List.mapM_cons] at h
    cases e : f x with
    | error _ => rw [e] at h; cases h
    | ok y =>
      rw [e] at h
      cases e2 : l.mapM f with
      | error _ => rw [e2] at h; cases h
      | ok ys' =>
        rw [e2] at h
        cases h
        obtain ⟨h1, h2⟩ := ih e2
        refine ⟨by simp [h1], fun z hz => ?_⟩
        rcases List.mem_cons.1 hz with rfl | hz
        · exact ⟨x, by simp, e⟩
        · obtain ⟨w, hw, e⟩ := h2 z hz
          exact ⟨w, by simp [hw], e⟩

namespace ZkEnv

variable {G : Prg} {T I : Type} [PolyT T] {E : ZkEnv G T I} {S : T → Prop}

/-- `S` contains the random elements and the reduced ones, and is closed under subtraction. -/
structure Small (E : ZkEnv G T I) (S : T → Prop) : Prop where
  zero : S PolyT.zero
  sub : ∀ {x y}, S x → S y → S (PolyT.sub x y)
  rnd : ∀ s, S (E.rnd s).1
  red : ∀ {x y}, E.red x = .ok y → S y

theorem Small.randoms (h : E.Small S) (n : Nat) (s : G.S) : ∀ x ∈ (E.randoms n s).1, S x := by
  induction n generalizing s with
  | zero => simp [ZkEnv.randoms]
  | succ n ih =>
    intro x hx
    simp only [ZkEnv.randoms, List.mem_cons] at hx
    rcases hx with rfl | hx
    · exact h.rnd s
    · exact ih _ x hx

theorem mem_zipWith {α β γ : Type} {f : α → β → γ} {xs : List α} {ys : List β} {z : γ}
    (h : z ∈ List.zipWith f xs ys) : ∃ x ∈ xs, ∃ y ∈ ys, z = f x y := by
  induction xs generalizing ys with
  | nil => simp at h
  | cons x xs ih =>
    cases ys with
    | nil => simp at h
    | cons y ys =>
      simp only [List.zipWith_cons_cons, List.mem_cons] at h
      rcases h with rfl | h
      · exact ⟨x, by simp, y, by simp, rfl⟩
      · obtain ⟨a, ha, b, hb, e⟩ := ih h
        exact ⟨a, by simp [ha], b, by simp [hb], e⟩

theorem mem_resize {α : Type} {l : List α} {n : Nat} {d x : α} (h : x ∈ resize l n d) : x ∈ l ∨ x = d := by
  unfold resize at h
  rcases List.mem_append.1 h with h | h
  · exact .inl (List.mem_of_mem_take h)
  · exact .inr (List.mem_replicate.1 h).2

theorem prove_inv (hS : E.Small S) {l m : Nat} {z : List I} {th : List T} {Ls : List (Poly T)} {rng rng' : G.S}
    {sd : Bytes} {pf : ZkPf T} (h : E.prove l m z th Ls rng = .ok (sd, pf, rng')) :
    sd = (G.genSeed (E.randoms (E.circ.wires * l) rng).2).1 ∧
      rng' = (G.genSeed (E.randoms (E.circ.wires * l) rng).2).2 ∧
      pf.w.length = E.circ.wires * l ∧ pf.a.length = 2 * m + 1 ∧ (∀ x ∈ pf.w, S x) ∧ ∀ x ∈ pf.a, S x := by
  unfold prove at h
  split at h
  · simp only [bind, Except.bind] at h
    split at h
    · cases h
    split at h
    · cases h
    split at h
    · cases h
    rename_i _ f ef _ g eg _ gc egc
    cases h
    refine ⟨rfl, rfl, by simp [randoms_length], by simp [randoms_length, Poly.length_resize], ?_, ?_⟩
    · intro x hx
      obtain ⟨a, ha, b, hb, rfl⟩ := mem_zipWith hx
      exact hS.sub (hS.randoms _ _ a ha) (hS.randoms _ _ b hb)
    · intro x hx
      obtain ⟨a, ha, b, hb, rfl⟩ := mem_zipWith hx
      refine hS.sub ?_ (hS.randoms _ _ b hb)
      rcases mem_resize ha with ha | rfl
      · obtain ⟨y, -, e⟩ := (mapM_inv egc).2 a ha
        exact hS.red e
      · exact hS.zero
  · cases h

theorem verifyPi_inv (hS : E.Small S) {l m : Nat} {z : List I} {be : List T} {r : T} {Ls : List (Poly T)}
    {coords : List T} {pf : ZkPf T} {v : ZkShared T} (h : E.verifyPi l m z be r Ls coords pf = .ok v) :
    v.f.length = E.circ.wires * l ∧ (∀ x ∈ v.f, S x) ∧ S v.pr ∧ S v.b := by
  unfold verifyPi at h
  split at h
  · split at h
    · cases h
    simp only [bind, Except.bind] at h
    split at h
    · cases h
    split at h
    · cases h
    split at h
    · cases h
    split at h
    · cases h
    rename_i _ fp efp _ f ef _ pr epr _ b eb
    cases h
    refine ⟨?_, ?_, hS.red epr, hS.red eb⟩
    · rw [(mapM_inv ef).1, (mapM_inv efp).1, wireIdx_length]
    · intro x hx
      obtain ⟨y, -, e⟩ := (mapM_inv ef).2 x hx
      exact hS.red e
  · cases h

end ZkEnv

theorem and_small (G : Prg) : (andEnv G).Small fun _ => True := ⟨trivial, fun _ _ => trivial, fun _ => trivial, fun _ => trivial⟩

theorem Poly.length_zipPad {T : Type} [PolyT T] (op : T → T → T) (xs ys : List T) :
    (Poly.zipPad op xs ys).length = max xs.length ys.length := by
  induction ys generalizing xs with
  | nil => cases xs <;> simp [Poly.zipPad]
  | cons y ys ih => cases xs <;> simp [Poly.zipPad, ih]

theorem Poly.random_length {G : Prg} (K d : Nat) (s : G.S) : (Poly.random K d s).1.coeffs.length = d + 1 := by
  have : ∀ (l : List Nat) (acc : List (BitVec K) × G.S), (l.foldl (fun (acc : List (BitVec K) × G.S) _ =>
      (acc.1 ++ [(G.gen K acc.2).1], (G.gen K acc.2).2)) acc).1.length = acc.1.length + l.length := by
    intro l
    induction l with
    | nil => intro; rfl
    | cons x l ih => intro acc; rw [List.foldl_cons, ih]; simp; omega
  have h := this (List.range (d + 1)) ([], s)
  rw [List.length_range] at h
  simpa [Poly.random] using h

variable {K : Nat}

theorem Poly.shrink_length (r : Poly (BitVec K)) : r.shrink.coeffs.length = r.degree + 1 := by
  unfold Poly.shrink; exact Poly.length_resize _ _ _

theorem Poly.degreeLoop_le (cs : List (BitVec K)) (n : Nat) : Poly.degreeLoop cs n ≤ n := by
  induction n with
  | zero => simp [Poly.degreeLoop]
  | succ n ih =>
    simp only [Poly.degreeLoop]
    split
    · split <;> omega
    · omega

theorem poly_small {G : Prg} {I : Type} (hK : 0 < K) (E : ZkEnv G (Poly (BitVec K)) I) {md : Poly (BitVec K)} {d : Nat}
    (hd : d < 64) (hm : Poly.MonicRep d md) (hE : ∀ x, E.red x = x.rem md)
    (hr : ∀ s, E.rnd s = Poly.random K (md.degree - 1) s) : E.Small fun p => p.coeffs.length ≤ 65 where
  zero := by simp [PolyT.zero, Poly.zero]
  sub := by
    intro x y hx hy
    show (Poly.zipPad _ _ _).length ≤ 65
    rw [Poly.length_zipPad]; omega
  rnd := by
    intro s
    rw [hr, Poly.random_length]
    obtain ⟨init, e, hlen⟩ := hm.degree_lt
    have h1 := Poly.degreeLoop_le md.coeffs md.coeffs.length
    have h2 : md.coeffs.length = d + 1 := by rw [e]; simp [hlen]
    show Poly.degreeLoop md.coeffs md.coeffs.length - 1 + 1 ≤ 65
    omega
  red := by
    intro x y h
    rw [hE] at h
    obtain ⟨r, e, hl, -⟩ := Poly.rem_spec hK x md hm
    rw [e] at h
    cases h
    rw [Poly.shrink_length]
    have h1 := Poly.degreeLoop_le r.coeffs r.coeffs.length
    show Poly.degreeLoop r.coeffs r.coeffs.length + 1 ≤ 65
    omega

end Verif
