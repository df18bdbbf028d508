import Verif.Props.Swift3PairGates
import Verif.Proof.Swift3PairSound
import Verif.Props.Dzkp
import Verif.Props.DzkpTwo
import Verif.Props.Swift3Verify
import Verif.Proof.Swift3Coins

/-!
# C79: Swift3 verification with a corrupt party

The corrupt party is `i.prev`; nothing is assumed about it. The theorems about `coin` and `verify` speak about finished runs
of the honest parties `i` and `i.next` (`HonestViews`; `C24_views_of_reachable`).
-/

namespace Verif

open Swift3

variable {G : Prg} {H : Hash} {K : Nat}

/-- `coin`: if both honest parties finish, then each has received a commitment and a string that opens it, and their coins
are the XOR of the seeds of the honest parties and of what they have received. If the corrupt party has sent the same
commitment to both, then the coins agree, or the two openings are a hash collision. -/
theorem C79_coin (i : Party) (rng : Party → G.S) (st : Party → S3St G K) (rcvd sent : Party → Party → List Bytes)
    (out : Party → Bytes × S3St G K) (hv : HonestViews (fun k => coin H k (rng k) (st k)) i.prev rcvd sent out) :
    ∃ cm op cm' op', rcvd i i.prev = [cm, op] ∧ rcvd i.next i.prev = [cm', op'] ∧ Opens H cm op ∧ Opens H cm' op' ∧
      out i = (xor3 (G.genSeed (rng i)).1 (G.genSeed (rng i.next)).1 (op.take 32), st i) ∧
      out i.next = (xor3 (G.genSeed (rng i)).1 (G.genSeed (rng i.next)).1 (op'.take 32), st i.next) ∧
      (cm = cm' → Collision H op op' ∨ (out i).1 = (out i.next).1) := by
  obtain ⟨cm, op, cm', op', h1, h2, h3, h4, h5, h6⟩ := (coin_p2 (H := H) i (rng i) (rng i.next) (st i) (st i.next)).views hv
  refine ⟨cm, op, cm', op', h1, h2, h3, h4, h5, h6, ?_⟩
  intro e
  rcases collision_or (H := H) (m := op) (x := op') (by rw [← h3.2, ← h4.2, e]) with h | rfl
  · exact .inl h
  · exact .inr (by rw [h5, h6])

/-- Negative result: commitments and openings are sent to each party separately and not compared, so the corrupt party
can make the honest parties end with different coins. It commits to `o` towards the one and to `o'` towards the other;
under every schedule both accept, and their coins differ if the first 32 bytes do. -/
theorem C79_coin_differ (i : Party) (rng : Party → G.S) (st : Party → S3St G K) (o o' : Bytes) (ho : o.length = 64)
    (ho' : o'.length = 64) (hd : o.take 32 ≠ o'.take 32) (x : Bytes × S3St G K) :
    ∃ out, AllSchedules (corrupt (fun k => coin H k (rng k) (st k)) i.prev (twoCoins H i o o' x)) out ∧
      (out i).1 ≠ (out i.next).1 := by
  obtain ⟨out, h, e1, e2⟩ := (twoCoins_wp (H := H) i rng st o o' ho ho' x).allSchedules
  refine ⟨out, h, ?_⟩
  rw [e1, e2]
  intro e
  exact hd (xor3_inj (G.genSeed_length _) (G.genSeed_length _) (by simp [ho]) (by simp [ho']) e)

/-- Two such openings. -/
example : (List.replicate 64 (0 : Byte)).length = 64 ∧ (List.replicate 64 (1 : Byte)).length = 64 ∧
    (List.replicate 64 (0 : Byte)).take 32 ≠ (List.replicate 64 (1 : Byte)).take 32 := by decide

/-- `verify`: if both honest parties finish, then the proofs of the corrupt party have passed their checks, and the queues
of joint message passing are unchanged. -/
theorem C79_verify (hK : 0 < K) (i : Party) (rg : Party → VerifyRngs G) (st : Party → S3St G K)
    (hI : PairOk (st i) (st i.next))
    (rcvd sent : Party → Party → List Bytes) (out : Party → Unit × S3St G K)
    (hv : HonestViews (fun k => verify H k (rg k).mul (rg k).and (rg k).dot (st k)) i.prev rcvd sent out) :
    AllPassed H i (st i) (st i.next) (rg i) (rg i.next) (rcvd i i.prev) (rcvd i.next i.prev) ∧
      PairOk (out i).2 (out i.next).2 ∧ Verified (st i) (out i).2 ∧ Verified (st i.next) (out i.next).2 := by
  obtain ⟨h1, h2, h3, h4⟩ := (verify_p2 (H := H) hK i (rg i) (rg i.next) hI).views hv
  exact ⟨h4, h1, h2, h3⟩

/-- A wrong AND gate: for all gates registered by the honest parties, one of them wrong, and all ways of the corrupt party
to choose its proof from the `θ`s, there is a set of at most a fraction `2^-39` of the challenges (`θ`, and `β`, `r` for each
of the two honest parties), such that its proof only passes when the challenges drawn by the honest parties are in this
set. If it has sent the same commitment to both, then (unless the openings are a hash collision) they have drawn
the same `β`, `r`, from a set of at most a fraction `2^-40`. -/
theorem C79_and_caught (z z' : ZProof Bool) (hz : SameCount z z') (q : Nat) (hbad : WrongAnd z.verifyPrev z'.verifyNext q) (msgs : List GF2p64 → Bytes × Bytes) (l m : Nat)
    (hl : l = ceilSqrt z.proof.length) (hm : m = ceilDiv z.proof.length l) :
    ∃ (bad : Set ((Fin l → GF2p64) × ((Fin m → GF2p64) × AndChallenge m) × ((Fin m → GF2p64) × AndChallenge m)))
      (bad1 : Set ((Fin l → GF2p64) × (Fin m → GF2p64) × AndChallenge m)),
      2 ^ 39 * Nat.card bad ≤
        Nat.card ((Fin l → GF2p64) × ((Fin m → GF2p64) × AndChallenge m) × ((Fin m → GF2p64) × AndChallenge m)) ∧
      2 ^ 40 * Nat.card bad1 ≤ Nat.card ((Fin l → GF2p64) × (Fin m → GF2p64) × AndChallenge m) ∧
      ∀ (H : Hash) (i : Party) (pp rng rng' : G.S) (c : CorruptMsgs), AndPassed H i z z' pp rng rng' c →
        (c.proof, c.seed) = msgs (commonThetas (andEnv G) l pp i.prev) →
        (∃ x ∈ bad, Drew (andEnv G) (andBad m) l m i pp rng rng' c.opening (List.ofFn x.1) (List.ofFn x.2.1.1) x.2.1.2.1 ∧
          Drew (andEnv G) (andBad m) l m i pp rng rng' c.opening' (List.ofFn x.1) (List.ofFn x.2.2.1) x.2.2.2.1) ∧
        (c.comm = c.comm' → Collision H c.opening c.opening' ∨
          ∃ x ∈ bad1, c.opening = c.opening' ∧
            Drew (andEnv G) (andBad m) l m i pp rng rng' c.opening (List.ofFn x.1) (List.ofFn x.2.1) x.2.2.1) := by
  have hbad0 := hbad
  obtain ⟨n, ⟨h1, h2, h3⟩, h4, h5, h6⟩ := hz
  have h0 : n ≠ 0 := by
    obtain ⟨x, -, hx, -⟩ := hbad0
    have := (List.getElem?_eq_some_iff.1 hx).1
    omega
  rw [h1] at hl hm
  have hle := (params_le h0).1
  rw [← hl, ← hm] at hle
  by_cases hsec : 2 ^ 40 * (2 * m + 1) < 2 ^ 64 - m
  swap
  · refine ⟨∅, ∅, by simp, by simp, ?_⟩
    intro H i pp rng rng' c hc
    unfold AndPassed at hc
    simp only [h1, ← hl, ← hm] at hc
    obtain ⟨Ls, w, w', eL, ew, ew', hP⟩ := hc
    obtain ⟨e, he⟩ := andSetParameters_err l m hsec z
    cases he.symm.trans ew
  have e1 := andSetParameters_ok l m hsec z (by omega)
  have e2 := andSetParameters_ok l m hsec z' (by omega)
  generalize hvp : resize z.verifyPrev (l * m) (⟨false, false, false, false, false, false⟩ : ZInput Bool) = vp at e1
  generalize hvn : resize z'.verifyNext (l * m) (⟨false, false, false, false, false, false⟩ : ZInput Bool) = vn at e2
  have lp : vp.length = l * m := by rw [← hvp]; exact Poly.length_resize _ _ _
  have ln : vn.length = l * m := by rw [← hvn]; exact Poly.length_resize _ _ _
  have hw : WrongAnd vp vn q := by
    rw [← hvp, ← hvn]
    exact Bads.resize hbad _ _ (by omega) (by omega)
  refine ⟨{x | AndAcceptsTwo G l m vp vn (List.ofFn x.1) (List.ofFn x.2.1.1) x.2.1.2.1 (List.ofFn x.2.2.1) x.2.2.2.1
      (proofOf GF2p64 (msgs (List.ofFn x.1)).1) ((andEnv G).fromSeed (msgs (List.ofFn x.1)).2 l m)},
    {x | AndAccepts G l m vp vn (List.ofFn x.1) (List.ofFn x.2.1) x.2.2.1
      (proofOf GF2p64 (msgs (List.ofFn x.1)).1) ((andEnv G).fromSeed (msgs (List.ofFn x.1)).2 l m)},
    C80_and_bits G l m hsec vp vn lp ln q hw (fun θ => proofOf GF2p64 (msgs (List.ofFn θ)).1)
      (fun θ => (andEnv G).fromSeed (msgs (List.ofFn θ)).2 l m),
    C56_forty_bits G l m hsec vp vn lp ln q hw (fun θ => proofOf GF2p64 (msgs (List.ofFn θ)).1)
      (fun θ => (andEnv G).fromSeed (msgs (List.ofFn θ)).2 l m), ?_⟩
  intro H i pp rng rng' c hc hmsgs
  unfold AndPassed at hc
  simp only [h1, ← hl, ← hm] at hc
  obtain ⟨Ls, w, w', eL, ew, ew', hP⟩ := hc
  obtain rfl := Except.ok.inj (e1.symm.trans ew)
  obtain rfl := Except.ok.inj (e2.symm.trans ew')
  dsimp only at hP
  refine ⟨?_, ?_⟩
  · obtain ⟨θ, β, r, β', r', d, d', v1, v2, k1, k2, k3⟩ := hP.two (shapes_and l m) msgs hmsgs
    exact ⟨(θ, (β, r), (β', r')), ⟨Ls, v1, v2, eL, k1, k2, k3⟩, d, d'⟩
  · intro ho
    rcases hP.one (shapes_and l m) msgs hmsgs ho with h | ⟨θ, β, r, d, e, v1, v2, k1, k2, k3⟩
    · exact .inl h
    · exact .inr ⟨(θ, β, r), ⟨Ls, v1, v2, eL, k1, k2, k3⟩, e, d⟩

/-- A wrong multiplication. -/
theorem C79_mul_caught (hK : 2 ≤ K) (h64 : K < 64) (z z' : ZProof (BitVec K)) (hz : SameCount z z')
    (q : Nat) (hbad : WrongMul z.verifyPrev z'.verifyNext q) (msgs : List (Poly (BitVec K)) → Bytes × Bytes) (l m : Nat)
    (hl : l = ceilSqrt z.proof.length) (hm : m = ceilDiv z.proof.length l) :
    ∃ (bad : Set ((Fin l → PolyChallenge K (mulDegree m)) ×
          ((Fin m → PolyChallenge K (mulDegree m)) × PolyPoint K (mulDegree m)) ×
          ((Fin m → PolyChallenge K (mulDegree m)) × PolyPoint K (mulDegree m))))
      (bad1 : Set ((Fin l → PolyChallenge K (mulDegree m)) × (Fin m → PolyChallenge K (mulDegree m)) ×
          PolyPoint K (mulDegree m))),
      2 ^ 38 * Nat.card bad ≤ Nat.card ((Fin l → PolyChallenge K (mulDegree m)) ×
          ((Fin m → PolyChallenge K (mulDegree m)) × PolyPoint K (mulDegree m)) ×
          ((Fin m → PolyChallenge K (mulDegree m)) × PolyPoint K (mulDegree m))) ∧
      2 ^ 39 * Nat.card bad1 ≤ Nat.card ((Fin l → PolyChallenge K (mulDegree m)) × (Fin m → PolyChallenge K (mulDegree m)) ×
          PolyPoint K (mulDegree m)) ∧
      ∀ (modulus : Poly (BitVec K)), mulModulus K m = .ok modulus →
      ∀ (H : Hash) (i : Party) (pp rng rng' : G.S) (c : CorruptMsgs), MulPassed H i z z' pp rng rng' c →
        (c.proof, c.seed) = msgs (commonThetas (mulEnv G K modulus) l pp i.prev) →
        (∃ x ∈ bad, Drew (mulEnv G K modulus) mulBad l m i pp rng rng' c.opening (List.ofFn fun j => (x.1 j).poly)
            (List.ofFn fun k => (x.2.1.1 k).poly) (PolyChallenge.poly x.2.1.2.1) ∧
          Drew (mulEnv G K modulus) mulBad l m i pp rng rng' c.opening' (List.ofFn fun j => (x.1 j).poly)
            (List.ofFn fun k => (x.2.2.1 k).poly) (PolyChallenge.poly x.2.2.2.1)) ∧
        (c.comm = c.comm' → Collision H c.opening c.opening' ∨
          ∃ x ∈ bad1, c.opening = c.opening' ∧
            Drew (mulEnv G K modulus) mulBad l m i pp rng rng' c.opening (List.ofFn fun j => (x.1 j).poly)
              (List.ofFn fun k => (x.2.1 k).poly) (PolyChallenge.poly x.2.2.1)) := by
  have hbad0 := hbad
  obtain ⟨n, ⟨h1, h2, h3⟩, h4, h5, h6⟩ := hz
  have h0 : n ≠ 0 := by
    obtain ⟨x, -, hx, -⟩ := hbad0
    have := (List.getElem?_eq_some_iff.1 hx).1
    omega
  rw [h1] at hl hm
  have hle := (params_le h0).1
  rw [← hl, ← hm] at hle
  by_cases hm22 : m ≤ 2 ^ 22
  swap
  · exact ⟨∅, ∅, by simp, by simp, fun md emd => absurd (mulModulus_small emd) hm22⟩
  obtain ⟨md, d, emd, h40, hd, hmon, -, -, -, hdeg⟩ := mulModulus_spec (K := K) (by omega) m hm22
  obtain rfl : d = mulDegree m := hdeg
  have hset : ∀ z : ZProof (BitVec K), z.proof.length = n → z.setParameters ⟨0, 0, 0, 0, 0, 0⟩ l m =
      .ok ⟨l, m, resize z.proof (l * m) ⟨0, 0, 0, 0, 0, 0⟩, resize z.verifyPrev (l * m) ⟨0, 0, 0, 0, 0, 0⟩,
        resize z.verifyNext (l * m) ⟨0, 0, 0, 0, 0, 0⟩⟩ := by
    intro z hz
    unfold ZProof.setParameters
    rw [if_pos (by show z.proof.length ≤ _; rw [hz]; exact hle)]
  have e1 := hset z h1
  have e2 := hset z' h4
  generalize hvp : resize z.verifyPrev (l * m) (⟨0, 0, 0, 0, 0, 0⟩ : ZInput (BitVec K)) = vp at e1
  generalize hvn : resize z'.verifyNext (l * m) (⟨0, 0, 0, 0, 0, 0⟩ : ZInput (BitVec K)) = vn at e2
  have lp : vp.length = l * m := by rw [← hvp]; exact Poly.length_resize _ _ _
  have ln : vn.length = l * m := by rw [← hvn]; exact Poly.length_resize _ _ _
  have hw : WrongMul vp vn q := by
    rw [← hvp, ← hvn]
    exact Bads.resize hbad _ _ (by omega) (by omega)
  have hS := shapes_poly (K := K) (by omega) hmon (by omega) (mulEnv G K md) (fun _ => rfl) l m
  refine ⟨{x | MulAcceptsTwo G l m vp vn (List.ofFn fun j => (x.1 j).poly) (List.ofFn fun k => (x.2.1.1 k).poly)
        (PolyChallenge.poly x.2.1.2.1) (List.ofFn fun k => (x.2.2.1 k).poly) (PolyChallenge.poly x.2.2.2.1)
        (proofOf _ (msgs (List.ofFn fun j => (x.1 j).poly)).1)
        ((mulEnv G K md).fromSeed (msgs (List.ofFn fun j => (x.1 j).poly)).2 l m)},
    {x | MulAccepts G l m vp vn (List.ofFn fun j => (x.1 j).poly) (List.ofFn fun k => (x.2.1 k).poly)
        (PolyChallenge.poly x.2.2.1) (proofOf _ (msgs (List.ofFn fun j => (x.1 j).poly)).1)
        ((mulEnv G K md).fromSeed (msgs (List.ofFn fun j => (x.1 j).poly)).2 l m)},
    C80_mul_bits G hK h64 l m hm22 vp vn lp ln q hw (fun θ => proofOf _ (msgs (List.ofFn fun j => (θ j).poly)).1)
      (fun θ => (mulEnv G K md).fromSeed (msgs (List.ofFn fun j => (θ j).poly)).2 l m),
    C75_mul_bits G hK h64 l m hm22 vp vn lp ln q hw (fun θ => proofOf _ (msgs (List.ofFn fun j => (θ j).poly)).1)
      (fun θ => (mulEnv G K md).fromSeed (msgs (List.ofFn fun j => (θ j).poly)).2 l m), ?_⟩
  intro md0 emd0
  obtain rfl := Except.ok.inj (emd.symm.trans emd0)
  intro H i pp rng rng' c hc hmsgs
  unfold MulPassed at hc
  simp only [h1, ← hl, ← hm] at hc
  obtain ⟨md', Ls, w, w', emd', eL, ew, ew', hP⟩ := hc
  obtain rfl := Except.ok.inj (emd.symm.trans emd')
  obtain rfl := Except.ok.inj (e1.symm.trans ew)
  obtain rfl := Except.ok.inj (e2.symm.trans ew')
  dsimp only at hP
  refine ⟨?_, ?_⟩
  · obtain ⟨θ, β, r, β', r', d, d', v1, v2, k1, k2, k3⟩ := hP.two hS msgs hmsgs
    exact ⟨(θ, (β, r), (β', r')), ⟨md, Ls, v1, v2, emd, eL, k1, k2, k3⟩, d, d'⟩
  · intro ho
    rcases hP.one hS msgs hmsgs ho with h | ⟨θ, β, r, d, e, v1, v2, k1, k2, k3⟩
    · exact .inl h
    · exact .inr ⟨(θ, β, r), ⟨md, Ls, v1, v2, emd, eL, k1, k2, k3⟩, e, d⟩

/-- A wrong dot product. -/
theorem C79_dot_caught (hK : 2 ≤ K) (h64 : K < 64) (z z' : DProof K) (hz : SameDotCount z z')
    (q : Nat) (hbad : WrongDot z.verifyPrev z'.verifyNext q) (msgs : List (Poly (BitVec K)) → Bytes × Bytes) (l m : Nat)
    (hm : m = ceilSqrt ((4 * z.dotSize + 2) * z.proof.length)) (hl : l = ceilDiv z.proof.length m) :
    ∃ (bad : Set ((Fin l → PolyChallenge K (mulDegree m)) ×
          ((Fin m → PolyChallenge K (mulDegree m)) × PolyPoint K (mulDegree m)) ×
          ((Fin m → PolyChallenge K (mulDegree m)) × PolyPoint K (mulDegree m))))
      (bad1 : Set ((Fin l → PolyChallenge K (mulDegree m)) × (Fin m → PolyChallenge K (mulDegree m)) ×
          PolyPoint K (mulDegree m))),
      2 ^ 38 * Nat.card bad ≤ Nat.card ((Fin l → PolyChallenge K (mulDegree m)) ×
          ((Fin m → PolyChallenge K (mulDegree m)) × PolyPoint K (mulDegree m)) ×
          ((Fin m → PolyChallenge K (mulDegree m)) × PolyPoint K (mulDegree m))) ∧
      2 ^ 39 * Nat.card bad1 ≤ Nat.card ((Fin l → PolyChallenge K (mulDegree m)) × (Fin m → PolyChallenge K (mulDegree m)) ×
          PolyPoint K (mulDegree m)) ∧
      ∀ (modulus : Poly (BitVec K)), mulModulus K m = .ok modulus →
      ∀ (H : Hash) (i : Party) (pp rng rng' : G.S) (c : CorruptMsgs), DotPassed H i z z' pp rng rng' c →
        (c.proof, c.seed) = msgs (commonThetas (dotEnv G K modulus z.dotSize) l pp i.prev) →
        (∃ x ∈ bad, Drew (dotEnv G K modulus z.dotSize) mulBad l m i pp rng rng' c.opening (List.ofFn fun j => (x.1 j).poly)
            (List.ofFn fun k => (x.2.1.1 k).poly) (PolyChallenge.poly x.2.1.2.1) ∧
          Drew (dotEnv G K modulus z.dotSize) mulBad l m i pp rng rng' c.opening' (List.ofFn fun j => (x.1 j).poly)
            (List.ofFn fun k => (x.2.2.1 k).poly) (PolyChallenge.poly x.2.2.2.1)) ∧
        (c.comm = c.comm' → Collision H c.opening c.opening' ∨
          ∃ x ∈ bad1, c.opening = c.opening' ∧
            Drew (dotEnv G K modulus z.dotSize) mulBad l m i pp rng rng' c.opening (List.ofFn fun j => (x.1 j).poly)
              (List.ofFn fun k => (x.2.1 k).poly) (PolyChallenge.poly x.2.2.1)) := by
  have hbad0 := hbad
  obtain ⟨n, hD⟩ := hz
  obtain ⟨⟨h1, h2, h3⟩, ⟨h4, h5, h6⟩, h7, h8, h9⟩ := id hD
  have h0 : n ≠ 0 := by
    obtain ⟨x, -, hx, -⟩ := hbad0
    have := (List.getElem?_eq_some_iff.1 hx).1
    omega
  rw [h1] at hl hm
  have hle := (dot_params_le (size := z.dotSize) h0).1
  rw [← hm, ← hl] at hle
  by_cases hm22 : m ≤ 2 ^ 22
  swap
  · exact ⟨∅, ∅, by simp, by simp, fun md emd => absurd (mulModulus_small emd) hm22⟩
  obtain ⟨md, d, emd, h40, hd, hmon, -, -, -, hdeg⟩ := mulModulus_spec (K := K) (by omega) m hm22
  obtain rfl : d = mulDegree m := hdeg
  have hset : ∀ z : DProof K, z.proof.length = n → z.setParameters l m = .ok (dotPadded z l m) := by
    intro z hz
    unfold DProof.setParameters
    rw [if_pos (by show z.proof.length ≤ _; rw [hz]; exact hle)]
    rfl
  have e1 := hset z h1
  have e2 := hset z' h4
  obtain ⟨sp, sn⟩ := views_padded hD (l * m) hle
  have hw := wrongDot_padded hD (l * m) hle hbad
  generalize hvp : padFirst z.dotSize z.maxDot (resize z.verifyPrev (l * m) (DInput.new K z.dotSize)) = vp at sp hw
  generalize hvn : padFirst z'.dotSize z'.maxDot (resize z'.verifyNext (l * m) (DInput.new K z'.dotSize)) = vn at sn hw
  have lp : vp.length = l * m := by rw [← hvp]; exact (padFirst_length _ _ _).trans (Poly.length_resize _ _ _)
  have ln : vn.length = l * m := by rw [← hvn]; exact (padFirst_length _ _ _).trans (Poly.length_resize _ _ _)
  have hS := shapes_poly (K := K) (by omega) hmon (by omega) (dotEnv G K md z.dotSize) (fun _ => rfl) l m
  refine ⟨{x | DotAcceptsTwo G z.dotSize l m vp vn (List.ofFn fun j => (x.1 j).poly) (List.ofFn fun k => (x.2.1.1 k).poly)
        (PolyChallenge.poly x.2.1.2.1) (List.ofFn fun k => (x.2.2.1 k).poly) (PolyChallenge.poly x.2.2.2.1)
        (proofOf _ (msgs (List.ofFn fun j => (x.1 j).poly)).1)
        ((dotEnv G K md z.dotSize).fromSeed (msgs (List.ofFn fun j => (x.1 j).poly)).2 l m)},
    {x | DotAccepts G z.dotSize l m vp vn (List.ofFn fun j => (x.1 j).poly) (List.ofFn fun k => (x.2.1 k).poly)
        (PolyChallenge.poly x.2.2.1) (proofOf _ (msgs (List.ofFn fun j => (x.1 j).poly)).1)
        ((dotEnv G K md z.dotSize).fromSeed (msgs (List.ofFn fun j => (x.1 j).poly)).2 l m)},
    C80_dot_bits G hK h64 z.dotSize l m hm22 vp vn lp ln sp sn q hw (fun θ => proofOf _ (msgs (List.ofFn fun j => (θ j).poly)).1)
      (fun θ => (dotEnv G K md z.dotSize).fromSeed (msgs (List.ofFn fun j => (θ j).poly)).2 l m),
    C75_dot_bits G hK h64 z.dotSize l m hm22 vp vn lp ln sp sn q hw (fun θ => proofOf _ (msgs (List.ofFn fun j => (θ j).poly)).1)
      (fun θ => (dotEnv G K md z.dotSize).fromSeed (msgs (List.ofFn fun j => (θ j).poly)).2 l m), ?_⟩
  intro md0 emd0
  obtain rfl := Except.ok.inj (emd.symm.trans emd0)
  intro H i pp rng rng' c hc hmsgs
  unfold DotPassed at hc
  simp only [h1, ← hl, ← hm] at hc
  obtain ⟨md', Ls, w, w', emd', eL, ew, ew', hP⟩ := hc
  obtain rfl := Except.ok.inj (emd.symm.trans emd')
  obtain rfl := Except.ok.inj (e1.symm.trans ew)
  obtain rfl := Except.ok.inj (e2.symm.trans ew')
  have hP' : Passed H (dotEnv G K md z.dotSize) mulBad l m (mulPoints K (m + 1)) Ls i pp rng rng' vp vn c := by
    rw [← hvp, ← hvn]; exact hP
  refine ⟨?_, ?_⟩
  · obtain ⟨θ, β, r, β', r', d, d', v1, v2, k1, k2, k3⟩ := hP'.two hS msgs hmsgs
    exact ⟨(θ, (β, r), (β', r')), ⟨md, Ls, v1, v2, emd, eL, k1, k2, k3⟩, d, d'⟩
  · intro ho
    rcases hP'.one hS msgs hmsgs ho with h | ⟨θ, β, r, d, e, v1, v2, k1, k2, k3⟩
    · exact .inl h
    · exact .inr ⟨(θ, β, r), ⟨md, Ls, v1, v2, emd, eL, k1, k2, k3⟩, e, d⟩

/-! ## Examples -/

/-- A finished honest run of `coin`. -/
example (i : Party) : ∃ rcvd sent out,
    HonestViews (fun k => coin exHash k (stuckPrg.ofSeed (exSeed k)) (exFreshSt 16 k)) i.prev rcvd sent out := by
  obtain ⟨r, s, o, -, -, h⟩ := honest_views (coin_wp (H := exHash) (fun k => stuckPrg.ofSeed (exSeed k)) (exFreshSt 16))
  exact ⟨r, s, o, h i.prev⟩

/-- A finished honest run of `verify` with eight AND gates (K = 16). -/
example (i : Party) : ∃ (st : Party → S3St stuckPrg 16) (rg : Party → VerifyRngs stuckPrg) (rcvd sent : Party → Party → List Bytes)
    (out : Party → Unit × S3St stuckPrg 16), PairOk (st i) (st i.next) ∧
    (st i).andProof.proof.length = 8 ∧
    HonestViews (fun k => verify exHash k (rg k).mul (rg k).and (rg k).dot (st k)) i.prev rcvd sent out := by
  obtain ⟨c, st, -, -, hok⟩ := (and_wp (by decide) (exFreshSt_ok 16) (exS3Bin_ok (0x2f#8)) (exS3Bin_ok 0xa7)).allSchedules
  obtain ⟨rm, rd, st', u', v', w', h1, h2, h3, h4, -⟩ := verify_wpe (H := exHash) (by decide) (by decide) stuckPrg_lively hok
    (by norm_num) (by norm_num) (by norm_num) (fun _ => stuckPrg.ofSeed []) (fun _ => stuckPrg.ofSeed []) (fun _ => stuckPrg.ofSeed [])
  rw [MulOutcome, if_pos rfl] at h1
  rw [DotOutcome, if_pos rfl] at h2
  have hw := (h4 h1).wps (a := fun _ => ()) (st' := st') (fun i => by rw [h2]; rfl)
    (Q := fun _ st' => ∃ u' v' w', S3Ok u' v' w' st') ⟨u', v', w', h3⟩
  obtain ⟨r, s, o, -, -, h⟩ := honest_views hw
  refine ⟨st, fun _ => ⟨stuckPrg.ofSeed [], stuckPrg.ofSeed [], stuckPrg.ofSeed []⟩, r, s, o, (hok.pair i).1, (hok.ands i).2, h i.prev⟩

/-- A wrong AND gate, registered by both honest parties. -/
example : ∃ z z' : ZProof Bool, SameCount z z' ∧
    WrongAnd z.verifyPrev z'.verifyNext 0 := by
  refine ⟨⟨1, 1, [⟨false, false, false, false, false, false⟩], [⟨true, false, true, false, false, false⟩],
    [⟨false, false, false, false, false, false⟩]⟩, ⟨1, 1, [⟨false, false, false, false, false, false⟩],
    [⟨false, false, false, false, false, false⟩], [⟨false, false, false, false, false, false⟩]⟩,
    ⟨1, ⟨rfl, rfl, rfl⟩, rfl, rfl, rfl⟩, _, _, rfl, rfl, by decide⟩

/-- A wrong multiplication. -/
example : ∃ z z' : ZProof (BitVec 16), SameCount z z' ∧
    WrongMul z.verifyPrev z'.verifyNext 0 := by
  refine ⟨⟨1, 1, [⟨0, 0, 0, 0, 0, 0⟩], [⟨2, 0, 3, 0, 0, 7⟩], [⟨0, 0, 0, 0, 0, 0⟩]⟩,
    ⟨1, 1, [⟨0, 0, 0, 0, 0, 0⟩], [⟨0, 0, 0, 0, 0, 0⟩], [⟨0, 0, 0, 0, 0, 0⟩]⟩,
    ⟨1, ⟨rfl, rfl, rfl⟩, rfl, rfl, rfl⟩, _, _, rfl, rfl, by decide⟩

/-- A wrong dot product (`2 · 3 + 1 · 1 = 6`). -/
example : ∃ z z' : DProof 16, SameDotCount z z' ∧
    WrongDot z.verifyPrev z'.verifyNext 0 := by
  let g : DInput 16 := ⟨[2, 1], [0, 0], [3, 1], [0, 0], 0, 6⟩
  refine ⟨{ l := 1, m := 1, proof := [DInput.new 16 2], verifyPrev := [g], verifyNext := [DInput.new 16 2], dotSize := 2, maxDot := 0 },
    { l := 1, m := 1, proof := [DInput.new 16 2], verifyPrev := [DInput.new 16 2], verifyNext := [DInput.new 16 2], dotSize := 2, maxDot := 0 },
    ⟨1, ⟨rfl, rfl, rfl⟩, ⟨rfl, rfl, rfl⟩, rfl, rfl, ?_⟩, _, _, rfl, rfl, by decide⟩
  intro q x y hx hy
  match q with
  | 0 =>
    cases hx
    cases hy
    exact ⟨2, by simp [g, DInput.Sized], by simp [DInput.Sized, DInput.new], le_rfl, fun _ => rfl⟩
  | q + 1 => cases hx

end Verif
