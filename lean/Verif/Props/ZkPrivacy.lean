import Verif.Proof.ZkReveal

/-! # Property C88: the distributed zero-knowledge proofs of Swift3 reveal nothing to the verifiers -/

namespace Verif

/-! ## AND gates -/

/-- C88, AND gates, the successor: whatever the gates of the prover are, every proof of the right shape is what the
successor receives for exactly one outcome of the random bits with which the prover masks it. So the proof is uniformly
distributed, and independent of the gates. -/
theorem C88_and_successor (l m : Nat) (hm : m < 2 ^ 64) (p : List (ZInput Bool)) (hp : p.length = l * m)
    (thetas : List GF2p64) (hth : thetas.length = l) (rng : List Bool) :
    ∃ sd, ∀ proof : ZkPf GF2p64, proof.w.length = 6 * l → proof.a.length = 2 * m + 1 →
      ∃! t : List Bool, t.length = 64 * (6 * l + (2 * m + 1)) ∧
        andMessages (fun _ => t) l m p thetas rng = .ok (sd, proof) :=
  and_mask l m hm p hp thetas hth rng

/-- C88, AND gates, the predecessor: two provers, with correct gates that may differ, but look the same to the
predecessor (`vn`), show it a seed and a verification of the successor with the same probability, for all challenges that
`get_and_r` may return. -/
theorem C88_and_predecessor (f : Bytes → List Bool) (l m : Nat) (hm : m < 2 ^ 64) (p p' vp vp' vn : List (ZInput Bool))
    (h : Gates AndGateOk p vp vn) (h' : Gates AndGateOk p' vp' vn) (hp : p.length = l * m) (hp' : p'.length = l * m)
    (thetas betas : List GF2p64) (hth : thetas.length = l) (hb : betas.length = m) (r : AndChallenge m)
    (n : Nat) (hn : 64 * (6 * l) ≤ n) (out : Bytes × ZkShared GF2p64) :
    tapeCount (andPredecessor f l m p vp thetas betas r.1) n out =
      tapeCount (andPredecessor f l m p' vp' thetas betas r.1) n out :=
  le_antisymm (and_hide_le f l m hm p p' vp vp' vn h h' hp hp' thetas betas hth hb r.1 r.2 n hn out)
    (and_hide_le f l m hm p' p vp' vp vn h' h hp' hp thetas betas hth hb r.1 r.2 n hn out)

/-! ## Multiplications -/

/-- C88, multiplications, the successor. -/
theorem C88_mul_successor {K : Nat} (hK : 0 < K) (h64 : K < 64) (l m : Nat) (hm : m ≤ 2 ^ 22)
    (p : List (ZInput (BitVec K))) (hp : p.length = l * m) (thetas : List (Poly (BitVec K))) (hth : thetas.length = l)
    (rng : List Bool) :
    ∃ sd, ∀ proof : ZkPf (Poly (BitVec K)), proof.w.length = 6 * l → proof.a.length = 2 * m + 1 →
      (∀ y ∈ proof.w, y.coeffs.length = mulDegree m) → (∀ y ∈ proof.a, y.coeffs.length = mulDegree m) →
      ∃! t : List Bool, t.length = K * mulDegree m * (6 * l + (2 * m + 1)) ∧
        mulMessages (fun _ => t) l m p thetas rng = .ok (sd, proof) :=
  mul_mask hK h64 l m hm p hp thetas hth rng

/-- C88, multiplications, the predecessor: as for AND gates, provided that the challenge point is, modulo two, none of
the points at which the wire polynomials take the values of the gates. -/
theorem C88_mul_predecessor (f : Bytes → List Bool) {K : Nat} (hK : 0 < K) (h64 : K < 64) (l m : Nat) (hm : m ≤ 2 ^ 22)
    (p p' vp vp' vn : List (ZInput (BitVec K))) (h : Gates MulGateOk p vp vn) (h' : Gates MulGateOk p' vp' vn)
    (hp : p.length = l * m) (hp' : p'.length = l * m) (thetas betas : List (Poly (BitVec K))) (hth : thetas.length = l)
    (hb : betas.length = m) (r : PolyChallenge K (mulDegree m)) (hr : Avoids m r) (n : Nat)
    (hn : K * mulDegree m * (6 * l) ≤ n) (out : Bytes × ZkShared (Poly (BitVec K))) :
    tapeCount (mulPredecessor f l m p vp thetas betas r.poly) n out =
      tapeCount (mulPredecessor f l m p' vp' thetas betas r.poly) n out :=
  le_antisymm (mul_hide_le f hK h64 l m hm p p' vp vp' vn h h' hp hp' thetas betas hth hb r hr n hn out)
    (mul_hide_le f hK h64 l m hm p' p vp' vp vn h' h hp' hp thetas betas hth hb r hr n hn out)

/-- C88: the points that `get_mul_r` may return and that are excluded in `C88_mul_predecessor` and `C88_dot_predecessor`
are at most a fraction `2^(-40)` of all the points that it may return. -/
theorem C88_rare {K : Nat} (hK : 0 < K) (m : Nat) (hm : m ≤ 2 ^ 22) :
    2 ^ 40 * Nat.card {r : PolyPoint K (mulDegree m) // ¬ Avoids m r.1} ≤ Nat.card (PolyPoint K (mulDegree m)) :=
  not_avoids_rare hK m hm

/-- C88, negative: `get_mul_r` redraws only if the constant coefficient of the point is zero (`get_and_r` excludes the
interpolation points instead), so it may return `1, 3, 5, …`, which are interpolation points. -/
theorem C88_allowed {K : Nat} (hK : 0 < K) (d k : Nat) (hk : k % 2 = 1) :
    ∃ r : PolyPoint K (d + 1), r.1 = pointAt K (d + 1) k := by
  refine ⟨⟨pointAt K (d + 1) k, ?_⟩, rfl⟩
  rw [List.ofFn_succ, List.head?_cons]
  have h1 : k.testBit 0 = true := by rw [Nat.testBit_zero, hk]; rfl
  have : pointAt K (d + 1) k 0 = 1 := by
    unfold pointAt
    rw [if_pos (by simpa using h1)]
  rw [this]
  intro h
  have := congrArg BitVec.toNat (Option.some.inj h)
  have h2 : 1 < 2 ^ K := Nat.one_lt_two_pow (by omega)
  simp [Nat.mod_eq_of_lt h2] at this

/-- C88, negative, multiplications: if the challenge is the interpolation point `k`, the verification that the successor
sends to the predecessor contains all the wires of gate `k - 1` of every row, as the successor sees them, in the clear.
(`register_mul` puts there the two shares that the predecessor lacks to know the factors.) -/
theorem C88_mul_reveals (f : Bytes → List Bool) {K : Nat} (hK : 0 < K) (h64 : K < 64) (l m : Nat) (hm : m ≤ 2 ^ 22)
    (p vp vn : List (ZInput (BitVec K))) (h : Gates MulGateOk p vp vn) (hp : p.length = l * m)
    (thetas betas : List (Poly (BitVec K))) (hth : thetas.length = l) (hb : betas.length = m) (k : Nat) (hk : 1 ≤ k)
    (hk' : k ≤ m) (rng : List Bool) :
    ∃ sd v, mulPredecessor f l m p vp thetas betas (pointAt K (mulDegree m) k).poly rng = .ok (sd, v) ∧
      ∀ j < l, ∀ i < 6, ∀ x y, vp[j * m + (k - 1)]? = some x → x.get i = .ok y → v.f[j * 6 + i]? = some (Poly.lift y) := by
  obtain ⟨md, Ls, sd, pf, rng', emd, eL, e, hrest⟩ := mul_complete (idealPrg f) hK h64 l m hm p vp vn h hp thetas hth rng
  obtain ⟨md', d, emd', h40, hd, hmon, hirr, hpts, -, hdd⟩ := mulModulus_spec hK m hm
  obtain rfl : md = md' := Except.ok.inj (emd.symm.trans emd')
  obtain rfl : d = mulDegree m := hdd
  obtain ⟨v, -, e1, -⟩ := hrest betas (pointAt K (mulDegree m) k).poly hb
  refine ⟨sd, v, ?_, fun j hj i hi x y hx hy => ?_⟩
  · unfold mulPredecessor
    simp only [emd, eL, bind, Except.bind]
    rw [e]
    simp only
    rw [e1]
    rfl
  · have := poly_reveal hK h64 (mulEnv (idealPrg f) K md) hd (by omega) hmon hirr (fun _ => rfl) ZInput.val ⟨0, 0, 0, 0, 0, 0⟩ l m hpts
      vp (fun x _ i hi => mul_wire _ md x i hi) betas k hk hk' Ls eL pf v e1 j i hj hi
    refine Eq.trans this ?_
    rw [List.getD_eq_getElem?_getD, hx, Option.getD_some, ZInput.val, hy]

/-! ## Dot products -/

/-- C88, dot products, the successor. -/
theorem C88_dot_successor {K : Nat} (hK : 0 < K) (h64 : K < 64) (size l m : Nat) (hm : m ≤ 2 ^ 22)
    (p : List (DInput K)) (hp : p.length = l * m) (hs : ∀ g ∈ p, g.Sized size) (thetas : List (Poly (BitVec K)))
    (hth : thetas.length = l) (rng : List Bool) :
    ∃ sd, ∀ proof : ZkPf (Poly (BitVec K)), proof.w.length = (4 * size + 2) * l → proof.a.length = 2 * m + 1 →
      (∀ y ∈ proof.w, y.coeffs.length = mulDegree m) → (∀ y ∈ proof.a, y.coeffs.length = mulDegree m) →
      ∃! t : List Bool, t.length = K * mulDegree m * ((4 * size + 2) * l + (2 * m + 1)) ∧
        dotMessages (fun _ => t) size l m p thetas rng = .ok (sd, proof) :=
  dot_mask hK h64 size l m hm p hp hs thetas hth rng

/-- C88, dot products, the predecessor. -/
theorem C88_dot_predecessor (f : Bytes → List Bool) {K : Nat} (hK : 0 < K) (h64 : K < 64) (size l m : Nat)
    (hm : m ≤ 2 ^ 22) (p p' vp vp' vn : List (DInput K)) (h : Gates DotGateOk p vp vn) (h' : Gates DotGateOk p' vp' vn)
    (hs : ∀ g ∈ p, g.Sized size) (hs' : ∀ g ∈ p', g.Sized size) (hp : p.length = l * m) (hp' : p'.length = l * m)
    (thetas betas : List (Poly (BitVec K))) (hth : thetas.length = l) (hb : betas.length = m)
    (r : PolyChallenge K (mulDegree m)) (hr : Avoids m r) (n : Nat) (hn : K * mulDegree m * ((4 * size + 2) * l) ≤ n)
    (out : Bytes × ZkShared (Poly (BitVec K))) :
    tapeCount (dotPredecessor f size l m p vp thetas betas r.poly) n out =
      tapeCount (dotPredecessor f size l m p' vp' thetas betas r.poly) n out :=
  le_antisymm (dot_hide_le f hK h64 size l m hm p p' vp vp' vn (gates_sized h hs) (gates_sized h' hs') hp hp' thetas betas hth hb r hr n hn out)
    (dot_hide_le f hK h64 size l m hm p' p vp' vp vn (gates_sized h' hs') (gates_sized h hs) hp' hp thetas betas hth hb r hr n hn out)

/-- C88, negative, dot products. -/
theorem C88_dot_reveals (f : Bytes → List Bool) {K : Nat} (hK : 0 < K) (h64 : K < 64) (size l m : Nat) (hm : m ≤ 2 ^ 22)
    (p vp vn : List (DInput K)) (h : Gates DotGateOk p vp vn) (hs : ∀ g ∈ p, g.Sized size) (hp : p.length = l * m)
    (thetas betas : List (Poly (BitVec K))) (hth : thetas.length = l) (hb : betas.length = m) (k : Nat) (hk : 1 ≤ k)
    (hk' : k ≤ m) (rng : List Bool) :
    ∃ sd v, dotPredecessor f size l m p vp thetas betas (pointAt K (mulDegree m) k).poly rng = .ok (sd, v) ∧
      ∀ j < l, ∀ i < 4 * size + 2, ∀ x y, vp[j * m + (k - 1)]? = some x → x.get i = .ok y →
        v.f[j * (4 * size + 2) + i]? = some (Poly.lift y) := by
  have hg := gates_sized h hs
  obtain ⟨md, Ls, sd, pf, rng', emd, eL, e, hrest⟩ := dot_complete (idealPrg f) hK h64 size l m hm p vp vn hg hp thetas hth rng
  obtain ⟨md', d, emd', h40, hd, hmon, hirr, hpts, -, hdd⟩ := mulModulus_spec hK m hm
  obtain rfl : md = md' := Except.ok.inj (emd.symm.trans emd')
  obtain rfl : d = mulDegree m := hdd
  obtain ⟨v, -, e1, -⟩ := hrest betas (pointAt K (mulDegree m) k).poly hb
  refine ⟨sd, v, ?_, fun j hj i hi x y hx hy => ?_⟩
  · unfold dotPredecessor
    simp only [emd, eL, bind, Except.bind]
    rw [e]
    simp only
    rw [e1]
    rfl
  · have := poly_reveal hK h64 (dotEnv (idealPrg f) K md size) hd (by omega) hmon hirr (fun _ => rfl) DInput.val (DInput.new K size) l m hpts
      vp (fun x hx i hi => dot_wire _ md size x (sized_all hg vp (by simp) x hx) i hi) betas k hk hk' Ls eL pf v e1 j i hj hi
    refine Eq.trans this ?_
    rw [List.getD_eq_getElem?_getD, hx, Option.getD_some, DInput.val, hy]

/-! ## The hypotheses can be met -/

/-- Two AND gates, `1 · 1 = 1` and `0 · 1 = 0`, of which the predecessor sees the same. -/
example (f : Bytes → List Bool) (t b : GF2p64) (out : Bytes × ZkShared GF2p64) :
    tapeCount (andPredecessor f 1 1 [⟨true, false, true, false, false, true⟩] [⟨true, false, true, false, false, true⟩] [t] [b] ⟨2⟩) 400 out =
      tapeCount (andPredecessor f 1 1 [⟨false, false, true, false, false, false⟩] [⟨false, false, true, false, false, false⟩] [t] [b] ⟨2⟩) 400 out :=
  C88_and_predecessor f 1 1 (by norm_num) _ _ _ _ [⟨false, false, false, false, false, false⟩]
    ⟨[(⟨true, false, true, false, false, true⟩, ⟨true, false, true, false, false, true⟩, ⟨false, false, false, false, false, false⟩)],
      by simp [AndGateOk], rfl, rfl, rfl⟩
    ⟨[(⟨false, false, true, false, false, false⟩, ⟨false, false, true, false, false, false⟩, ⟨false, false, false, false, false, false⟩)],
      by simp [AndGateOk], rfl, rfl, rfl⟩ rfl rfl [t] [b] rfl rfl ⟨⟨2⟩, by decide⟩ 400 (by norm_num) out

/-- The point `2` avoids the only gate of a row of length one. -/
example : Avoids 1 (pointAt 16 (mulDegree 1) 2) := by
  intro k h1 h2
  obtain rfl : k = 1 := by omega
  exact ⟨⟨0, by simp [mulDegree]⟩, by simp [pointAt]⟩

/-- Two multiplications, `2 · 3 = 6` and `5 · 3 = 15`, of which the predecessor sees the same. -/
example (f : Bytes → List Bool) (t b : Poly (BitVec 16)) (out : Bytes × ZkShared (Poly (BitVec 16))) (r : PolyChallenge 16 (mulDegree 1))
    (hr : Avoids 1 r) (n : Nat) (hn : 16 * mulDegree 1 * (6 * 1) ≤ n) :
    tapeCount (mulPredecessor f 1 1 [⟨2, 0, 3, 0, 0, 6⟩] [⟨2, 0, 3, 0, 0, 6⟩] [t] [b] r.poly) n out =
      tapeCount (mulPredecessor f 1 1 [⟨5, 0, 3, 0, 0, 15⟩] [⟨5, 0, 3, 0, 0, 15⟩] [t] [b] r.poly) n out :=
  C88_mul_predecessor f (by norm_num) (by norm_num) 1 1 (by norm_num) _ _ _ _ [⟨0, 0, 0, 0, 0, 0⟩]
    ⟨[(⟨2, 0, 3, 0, 0, 6⟩, ⟨2, 0, 3, 0, 0, 6⟩, ⟨0, 0, 0, 0, 0, 0⟩)], by simp [MulGateOk], rfl, rfl, rfl⟩
    ⟨[(⟨5, 0, 3, 0, 0, 15⟩, ⟨5, 0, 3, 0, 0, 15⟩, ⟨0, 0, 0, 0, 0, 0⟩)], by simp [MulGateOk], rfl, rfl, rfl⟩ rfl rfl [t] [b] rfl rfl r hr n hn out

/-- With the point `1`, the same predecessor reads off the factor `2`. -/
example (f : Bytes → List Bool) (t b : Poly (BitVec 16)) (rng : List Bool) :
    ∃ sd v, mulPredecessor f 1 1 [⟨2, 0, 3, 0, 0, 6⟩] [⟨2, 0, 3, 0, 0, 6⟩] [t] [b] (pointAt 16 (mulDegree 1) 1).poly rng = .ok (sd, v) ∧
      v.f[0]? = some ⟨[2]⟩ := by
  obtain ⟨sd, v, e, h⟩ := C88_mul_reveals f (K := 16) (by norm_num) (by norm_num) 1 1 (by norm_num) _ _ [⟨0, 0, 0, 0, 0, 0⟩]
    ⟨[(⟨2, 0, 3, 0, 0, 6⟩, ⟨2, 0, 3, 0, 0, 6⟩, ⟨0, 0, 0, 0, 0, 0⟩)], by simp [MulGateOk], rfl, rfl, rfl⟩ rfl [t] [b] rfl rfl 1 le_rfl le_rfl rng
  exact ⟨sd, v, e, h 0 (by norm_num) 0 (by norm_num) _ _ rfl rfl⟩

/-- Two dot products of size one. -/
example (f : Bytes → List Bool) (t b : Poly (BitVec 16)) (out : Bytes × ZkShared (Poly (BitVec 16))) (r : PolyChallenge 16 (mulDegree 1))
    (hr : Avoids 1 r) (n : Nat) (hn : 16 * mulDegree 1 * ((4 * 1 + 2) * 1) ≤ n) :
    tapeCount (dotPredecessor f 1 1 1 [⟨[2], [0], [3], [0], 0, 6⟩] [⟨[2], [0], [3], [0], 0, 6⟩] [t] [b] r.poly) n out =
      tapeCount (dotPredecessor f 1 1 1 [⟨[5], [0], [3], [0], 0, 15⟩] [⟨[5], [0], [3], [0], 0, 15⟩] [t] [b] r.poly) n out :=
  C88_dot_predecessor f (by norm_num) (by norm_num) 1 1 1 (by norm_num) _ _ _ _ [DInput.new 16 1]
    ⟨[(⟨[2], [0], [3], [0], 0, 6⟩, ⟨[2], [0], [3], [0], 0, 6⟩, DInput.new 16 1)],
      by simp [DotGateOk, DInput.Sized, DInput.new], rfl, rfl, rfl⟩
    ⟨[(⟨[5], [0], [3], [0], 0, 15⟩, ⟨[5], [0], [3], [0], 0, 15⟩, DInput.new 16 1)],
      by simp [DotGateOk, DInput.Sized, DInput.new], rfl, rfl, rfl⟩
    (by simp [DInput.Sized]) (by simp [DInput.Sized]) rfl rfl [t] [b] rfl rfl r hr n hn out

end Verif
