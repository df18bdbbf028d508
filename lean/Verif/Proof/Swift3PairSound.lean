import Verif.Proof.Swift3PairCheck
import Verif.Proof.ZkMulSound

/-! # Swift3 verification with a corrupt party: the challenges it has to hit -/

namespace Verif

namespace Swift3

variable {G : Prg} {T I : Type} {H : Hash}

theorem rands3_shape [PolyT T] (E : ZkEnv G T I) (P : T → Prop) (hP : ∀ s, P (E.rnd s).1) (n : Nat) (s : G.S) (j : Party) :
    ((E.rands3 n s).1 j).length = n ∧ ∀ x ∈ (E.rands3 n s).1 j, P x := by
  have h : ∀ n s, ∀ x ∈ (E.randoms n s).1, P x := by
    intro n
    induction n with
    | zero => intro s x hx; cases hx
    | succ n ih =>
      intro s x hx
      simp only [ZkEnv.randoms, List.mem_cons] at hx
      rcases hx with rfl | hx
      · exact hP s
      · exact ih _ x hx
  match j with
  | 0 => exact ⟨ZkEnv.randoms_length E n _, h _ _⟩
  | 1 => exact ⟨ZkEnv.randoms_length E n _, h _ _⟩
  | 2 => exact ⟨ZkEnv.randoms_length E n _, h _ _⟩

theorem coinPoint_good (E : ZkEnv G T I) (P : T → Prop) (hP : ∀ s, P (E.rnd s).1) (bad : T → Bool) (m : Nat) (coin : Bytes)
    (j : Party) (x : T) (h : coinPoint E bad m coin j = some x) : P x ∧ bad x = false := by
  unfold coinPoint at h
  rw [Option.map_eq_some_iff] at h
  obtain ⟨r, hr, rfl⟩ := h
  unfold redraw3 at hr
  simp only [Option.bind_eq_bind, Option.bind_eq_some_iff, Option.pure_def, Option.some.injEq] at hr
  obtain ⟨⟨a0, b0⟩, h0, ⟨a1, b1⟩, h1, ⟨a2, b2⟩, h2, rfl⟩ := hr
  match j with
  | 0 => exact redraw_good _ _ P hP _ _ _ _ (hP _) h0
  | 1 => exact redraw_good _ _ P hP _ _ _ _ (hP _) h1
  | 2 => exact redraw_good _ _ P hP _ _ _ _ (hP _) h2

/-- What the challenges look like. -/
structure Shapes {Θ B R : Type} (E : ZkEnv G T I) (bad : T → Bool) (l m : Nat) (eθ : Θ → List T) (eβ : B → List T)
    (er : R → T) : Prop where
  thetas : ∀ pp j, ∃ θ, commonThetas E l pp j = eθ θ
  betas : ∀ coin j, ∃ β, coinBetas E m coin j = eβ β
  point : ∀ coin j x, coinPoint E bad m coin j = some x → ∃ r, x = er r

theorem shapes_and (l m : Nat) : Shapes (andEnv G) (andBad m) l m (fun θ : Fin l → GF2p64 => List.ofFn θ)
    (fun β : Fin m → GF2p64 => List.ofFn β) (fun r : AndChallenge m => r.1) := by
  have h : ∀ n s j, ∃ θ : Fin n → GF2p64, ((andEnv G).rands3 n s).1 j = List.ofFn θ := by
    intro n s j
    have hl := (rands3_shape (andEnv G) (fun _ => True) (fun _ => trivial) n s j).1
    generalize ((andEnv G).rands3 n s).1 j = L at hl
    subst hl
    exact ⟨fun i => L[i], List.ofFn_getElem.symm⟩
  refine ⟨fun pp j => h l _ j, fun coin j => h m _ j, ?_⟩
  intro coin j x hx
  have := (coinPoint_good (andEnv G) (fun _ => True) (fun _ => trivial) (andBad m) m coin j x hx).2
  refine ⟨⟨x, ?_⟩, rfl⟩
  unfold andBad at this
  have := of_decide_eq_false this
  exact Nat.lt_of_not_le this

theorem shapes_poly {K : Nat} (hK : 0 < K) {md : Poly (BitVec K)} {d : Nat} (hm : Poly.MonicRep d md)
    (hd : 0 < d) (E : ZkEnv G (Poly (BitVec K)) I) (hE : ∀ s, E.rnd s = Poly.random K (md.degree - 1) s) (l m : Nat) :
    Shapes E mulBad l m (fun θ : Fin l → PolyChallenge K d => List.ofFn fun j => (θ j).poly)
      (fun β : Fin m → PolyChallenge K d => List.ofFn fun k => (β k).poly)
      (fun r : PolyPoint K d => PolyChallenge.poly r.1) := by
  have hdeg : md.degree = d := by
    have := Poly.nontrivial_bitVec hK
    rw [Poly.degree_eq (R := BitVec K), (hm.monic hK).2]
  have hP : ∀ s, ∃ t : Fin d → BitVec K, (E.rnd s).1 = ⟨List.ofFn t⟩ := by
    intro s
    rw [hE, hdeg]
    have := random_shape (K := K) (G := G) (d - 1) s
    rwa [show d - 1 + 1 = d by omega] at this
  have h : ∀ n s j, ∃ θ : Fin n → PolyChallenge K d, (E.rands3 n s).1 j = List.ofFn fun k => (θ k).poly := by
    intro n s j
    obtain ⟨h1, h2⟩ := rands3_shape E (fun x => ∃ t : Fin d → BitVec K, x = ⟨List.ofFn t⟩) hP n s j
    exact list_shape _ h1 h2
  refine ⟨fun pp j => h l _ j, fun coin j => h m _ j, ?_⟩
  intro coin j x hx
  obtain ⟨⟨t, rfl⟩, hb⟩ := coinPoint_good E (fun x => ∃ t : Fin d → BitVec K, x = ⟨List.ofFn t⟩) hP mulBad m coin j x hx
  refine ⟨⟨t, ?_⟩, rfl⟩
  intro h0
  unfold mulBad at hb
  rw [h0] at hb
  simp at hb

variable [PolyT T] [Bincode T] [DecidableEq T]

omit [PolyT T] [DecidableEq T] in
/-- The proof in a message. -/
def proofOf (T : Type) [Bincode T] (b : Bytes) : ZkPf T :=
  match Bincode.deserialize (ZkPf T) b with
  | .ok p => p
  | .error _ => ⟨[], []⟩

theorem Passed.two {Θ B R : Type} {E : ZkEnv G T I} {bad : T → Bool} {l m : Nat} {eθ : Θ → List T} {eβ : B → List T}
    {er : R → T} (hE : Shapes E bad l m eθ eβ er) {coords : List T} {lagrange : List (Poly T)} {i : Party}
    {pp rng rng' : G.S} {vp vn : List I} {c : CorruptMsgs} (h : Passed H E bad l m coords lagrange i pp rng rng' vp vn c)
    (msgs : List T → Bytes × Bytes) (hc : (c.proof, c.seed) = msgs (commonThetas E l pp i.prev)) :
    ∃ θ β r β' r', Drew E bad l m i pp rng rng' c.opening (eθ θ) (eβ β) (er r) ∧
      Drew E bad l m i pp rng rng' c.opening' (eθ θ) (eβ β') (er r') ∧
      ∃ v1 v2, E.verifyPi l m vp (eβ β) (er r) lagrange coords (proofOf T (msgs (eθ θ)).1) = .ok v1 ∧
        E.verifyPi l m vn (eβ β') (er r') lagrange coords (E.fromSeed (msgs (eθ θ)).2 l m) = .ok v2 ∧
        E.combine l (eθ θ) v1 v2 = .ok () := by
  obtain ⟨proof, r, r', v1, v2, hp, hr, hr', h1, h2, h3⟩ := h.check
  obtain ⟨θ, hθ⟩ := hE.thetas pp i.prev
  obtain ⟨β, hβ⟩ := hE.betas (coinOf E l rng rng' c.opening) i.prev
  obtain ⟨β', hβ'⟩ := hE.betas (coinOf E l rng rng' c.opening') i.prev
  obtain ⟨x, rfl⟩ := hE.point _ _ _ hr
  obtain ⟨x', rfl⟩ := hE.point _ _ _ hr'
  rw [hθ] at hc h3
  rw [hβ] at h1
  rw [hβ'] at h2
  have e1 : proofOf T (msgs (eθ θ)).1 = proof := by
    rw [← hc]; unfold proofOf; dsimp only; rw [hp]
  have e2 : (msgs (eθ θ)).2 = c.seed := by rw [← hc]
  exact ⟨θ, β, x, β', x', ⟨hθ, hβ, hr⟩, ⟨hθ, hβ', hr'⟩, v1, v2, by rw [e1]; exact h1, by rw [e2]; exact h2, h3⟩

theorem Passed.one {Θ B R : Type} {E : ZkEnv G T I} {bad : T → Bool} {l m : Nat} {eθ : Θ → List T} {eβ : B → List T}
    {er : R → T} (hE : Shapes E bad l m eθ eβ er) {coords : List T} {lagrange : List (Poly T)} {i : Party}
    {pp rng rng' : G.S} {vp vn : List I} {c : CorruptMsgs} (h : Passed H E bad l m coords lagrange i pp rng rng' vp vn c)
    (msgs : List T → Bytes × Bytes) (hc : (c.proof, c.seed) = msgs (commonThetas E l pp i.prev)) (ho : c.comm = c.comm') :
    Collision H c.opening c.opening' ∨
    ∃ θ β r, Drew E bad l m i pp rng rng' c.opening (eθ θ) (eβ β) (er r) ∧ c.opening = c.opening' ∧
      ∃ v1 v2, E.verifyPi l m vp (eβ β) (er r) lagrange coords (proofOf T (msgs (eθ θ)).1) = .ok v1 ∧
        E.verifyPi l m vn (eβ β) (er r) lagrange coords (E.fromSeed (msgs (eθ θ)).2 l m) = .ok v2 ∧
        E.combine l (eθ θ) v1 v2 = .ok () := by
  by_cases e : c.opening = c.opening'
  · right
    obtain ⟨θ, β, r, β', r', d, d', v1, v2, h1, h2, h3⟩ := h.two hE msgs hc
    rw [← e] at d'
    have eb := d.betas.symm.trans d'.betas
    have er' := Option.some.inj (d.point.symm.trans d'.point)
    rw [← eb, ← er'] at h2
    exact ⟨θ, β, r, d, e, v1, v2, h1, h2, h3⟩
  · left
    exact ⟨e, by rw [← h.comm.2, ← h.comm'.2, ho]⟩

end Swift3

end Verif
