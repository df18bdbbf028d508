import Verif.Spec.Dzkp

/-!
# Specification: verifiers of a distributed zero-knowledge proof with different challenges

In the following, the successor of the prover uses the challenges `betas`, `r`, its predecessor `betas'`,
`r'`.
-/

namespace Verif

/-- The two verifiers of an AND proof accept. -/
def AndAcceptsTwo (G : Prg) (l m : Nat) (vp vn : List (ZInput Bool)) (thetas betas : List GF2p64) (r : GF2p64)
    (betas' : List GF2p64) (r' : GF2p64) (proof proofNext : ZkPf GF2p64) : Prop :=
  ∃ lagrange v1 v2, GF2p64.lagrangePolys (andPoints (m + 1)) = .ok lagrange ∧
    (andEnv G).verifyPi l m vp betas r lagrange (andPoints (m + 1)) proof = .ok v1 ∧
    (andEnv G).verifyPi l m vn betas' r' lagrange (andPoints (m + 1)) proofNext = .ok v2 ∧
    (andEnv G).combine l thetas v1 v2 = .ok ()

/-- The same for multiplications. -/
def MulAcceptsTwo (G : Prg) {K : Nat} (l m : Nat) (vp vn : List (ZInput (BitVec K))) (thetas betas : List (Poly (BitVec K)))
    (r : Poly (BitVec K)) (betas' : List (Poly (BitVec K))) (r' : Poly (BitVec K))
    (proof proofNext : ZkPf (Poly (BitVec K))) : Prop :=
  ∃ modulus lagrange v1 v2, mulModulus K m = .ok modulus ∧
    Poly.lagrangePolys (mulPoints K (m + 1)) modulus = .ok lagrange ∧
    (mulEnv G K modulus).verifyPi l m vp betas r lagrange (mulPoints K (m + 1)) proof = .ok v1 ∧
    (mulEnv G K modulus).verifyPi l m vn betas' r' lagrange (mulPoints K (m + 1)) proofNext = .ok v2 ∧
    (mulEnv G K modulus).combine l thetas v1 v2 = .ok ()

/-- The same for dot products of the given size. -/
def DotAcceptsTwo (G : Prg) {K : Nat} (size l m : Nat) (vp vn : List (DInput K)) (thetas betas : List (Poly (BitVec K)))
    (r : Poly (BitVec K)) (betas' : List (Poly (BitVec K))) (r' : Poly (BitVec K))
    (proof proofNext : ZkPf (Poly (BitVec K))) : Prop :=
  ∃ modulus lagrange v1 v2, mulModulus K m = .ok modulus ∧
    Poly.lagrangePolys (mulPoints K (m + 1)) modulus = .ok lagrange ∧
    (dotEnv G K modulus size).verifyPi l m vp betas r lagrange (mulPoints K (m + 1)) proof = .ok v1 ∧
    (dotEnv G K modulus size).verifyPi l m vn betas' r' lagrange (mulPoints K (m + 1)) proofNext = .ok v2 ∧
    (dotEnv G K modulus size).combine l thetas v1 v2 = .ok ()

end Verif
