import Verif.Spec.Dzkp
import Verif.Spec.PrivacyMal

/-!
# Specification: what the verifiers of a distributed zero-knowledge proof see

The prover sends a proof to its successor and a seed to its predecessor. The successor sends what it has computed from
the proof to the predecessor, which gets nothing else. The prover draws its randomness from the ideal generator of
`Spec/PrivacyMal.lean`; probabilities are numbers of tapes.
-/

namespace Verif

/-- The number of tapes of `n` bits with which `run` succeeds with the result `v`. -/
noncomputable def tapeCount {α : Type} (run : List Bool → Except Err α) (n : Nat) (v : α) : Nat :=
  Set.ncard {t : List Bool | t.length = n ∧ run t = .ok v}

/-! ## AND gates -/

/-- What the prover sends: the seed, to its predecessor, and the proof, to its successor. The generator started with a
seed gets the tape `f seed`; `rng` is the tape of the prover's own generator. -/
def andMessages (f : Bytes → List Bool) (l m : Nat) (p : List (ZInput Bool)) (thetas : List GF2p64) (rng : List Bool) :
    Except Err (Bytes × ZkPf GF2p64) := do
  let lagrange ← GF2p64.lagrangePolys (andPoints (m + 1))
  let (seed, proof, _) ← (andEnv (idealPrg f)).prove l m p thetas lagrange rng
  pure (seed, proof)

/-- What the predecessor of the prover receives: the seed, and the verification computed by the successor from its view
`vp` of the gates. -/
def andPredecessor (f : Bytes → List Bool) (l m : Nat) (p vp : List (ZInput Bool)) (thetas betas : List GF2p64)
    (r : GF2p64) (rng : List Bool) : Except Err (Bytes × ZkShared GF2p64) := do
  let lagrange ← GF2p64.lagrangePolys (andPoints (m + 1))
  let (seed, proof, _) ← (andEnv (idealPrg f)).prove l m p thetas lagrange rng
  let v ← (andEnv (idealPrg f)).verifyPi l m vp betas r lagrange (andPoints (m + 1)) proof
  pure (seed, v)

/-! ## Multiplications and dot products -/

/-- The same for multiplications. -/
def mulMessages (f : Bytes → List Bool) {K : Nat} (l m : Nat) (p : List (ZInput (BitVec K)))
    (thetas : List (Poly (BitVec K))) (rng : List Bool) : Except Err (Bytes × ZkPf (Poly (BitVec K))) := do
  let modulus ← mulModulus K m
  let lagrange ← Poly.lagrangePolys (mulPoints K (m + 1)) modulus
  let (seed, proof, _) ← (mulEnv (idealPrg f) K modulus).prove l m p thetas lagrange rng
  pure (seed, proof)

/-- What the predecessor of a prover of multiplications receives. -/
def mulPredecessor (f : Bytes → List Bool) {K : Nat} (l m : Nat) (p vp : List (ZInput (BitVec K)))
    (thetas betas : List (Poly (BitVec K))) (r : Poly (BitVec K)) (rng : List Bool) :
    Except Err (Bytes × ZkShared (Poly (BitVec K))) := do
  let modulus ← mulModulus K m
  let lagrange ← Poly.lagrangePolys (mulPoints K (m + 1)) modulus
  let (seed, proof, _) ← (mulEnv (idealPrg f) K modulus).prove l m p thetas lagrange rng
  let v ← (mulEnv (idealPrg f) K modulus).verifyPi l m vp betas r lagrange (mulPoints K (m + 1)) proof
  pure (seed, v)

/-- The same for dot products of the given size. -/
def dotMessages (f : Bytes → List Bool) {K : Nat} (size l m : Nat) (p : List (DInput K))
    (thetas : List (Poly (BitVec K))) (rng : List Bool) : Except Err (Bytes × ZkPf (Poly (BitVec K))) := do
  let modulus ← mulModulus K m
  let lagrange ← Poly.lagrangePolys (mulPoints K (m + 1)) modulus
  let (seed, proof, _) ← (dotEnv (idealPrg f) K modulus size).prove l m p thetas lagrange rng
  pure (seed, proof)

/-- What the predecessor of a prover of dot products receives. -/
def dotPredecessor (f : Bytes → List Bool) {K : Nat} (size l m : Nat) (p vp : List (DInput K))
    (thetas betas : List (Poly (BitVec K))) (r : Poly (BitVec K)) (rng : List Bool) :
    Except Err (Bytes × ZkShared (Poly (BitVec K))) := do
  let modulus ← mulModulus K m
  let lagrange ← Poly.lagrangePolys (mulPoints K (m + 1)) modulus
  let (seed, proof, _) ← (dotEnv (idealPrg f) K modulus size).prove l m p thetas lagrange rng
  let v ← (dotEnv (idealPrg f) K modulus size).verifyPi l m vp betas r lagrange (mulPoints K (m + 1)) proof
  pure (seed, v)

/-- The challenge point is not, modulo two, one of the points `1, …, m` at which the wire polynomials take the values of
the gates (as a polynomial, `k` has its binary digits as coefficients). -/
def Avoids {K d : Nat} (m : Nat) (r : PolyChallenge K d) : Prop :=
  ∀ k, 1 ≤ k → k ≤ m → ∃ i : Fin d, (r i).getLsbD 0 ≠ k.testBit i

/-- The point `k` as a challenge: the polynomial whose coefficients are the binary digits of `k`. -/
def pointAt (K d k : Nat) : PolyChallenge K d := fun i => if k.testBit i then 1 else 0

end Verif
