import Verif.Spec.Swift3
import Verif.Model.ZkProof

/-!
# Specification: one session of a distributed zero-knowledge proof

The prover's gates are in `z`, the successor of the prover checks them with its `verify_prev` list, the predecessor with
its `verify_next` list. The successor gets the proof, the predecessor the seed; the predecessor combines the two
verifications with what the successor sends (`swift3/protocol.rs:631-708`).
-/

namespace Verif

/-- A session of the AND proof with challenges `thetas`, `betas`, `r` and the generator state `rng` of the prover. -/
def andSession (G : Prg) (z zNext zPrev : ZProof Bool) (l m : Nat) (thetas betas : List GF2p64) (r : GF2p64)
    (rng : G.S) : Except Err Unit := do
  let z ← andSetParameters z l m
  let zNext ← andSetParameters zNext l m
  let zPrev ← andSetParameters zPrev l m
  let coords := andPoints (m + 1)
  let lagrange ← GF2p64.lagrangePolys coords
  let (seed, proof, _) ← (andEnv G).prove z.l z.m z.proof thetas lagrange rng
  let v1 ← (andEnv G).verifyPi zNext.l zNext.m zNext.verifyPrev betas r lagrange coords proof
  let v2 ← (andEnv G).verifyPi zPrev.l zPrev.m zPrev.verifyNext betas r lagrange coords ((andEnv G).fromSeed seed l m)
  (andEnv G).combine zPrev.l thetas v1 v2

/-- The checks of the two verifiers accept: `vp` and `vn` are their views of the prover's gates, `proof` what the
successor has received, `proofNext` what the predecessor has expanded from the seed it has received. -/
def AndAccepts (G : Prg) (l m : Nat) (vp vn : List (ZInput Bool)) (thetas betas : List GF2p64) (r : GF2p64)
    (proof proofNext : ZkPf GF2p64) : Prop :=
  ∃ lagrange v1 v2, GF2p64.lagrangePolys (andPoints (m + 1)) = .ok lagrange ∧
    (andEnv G).verifyPi l m vp betas r lagrange (andPoints (m + 1)) proof = .ok v1 ∧
    (andEnv G).verifyPi l m vn betas r lagrange (andPoints (m + 1)) proofNext = .ok v2 ∧
    (andEnv G).combine l thetas v1 v2 = .ok ()

/-- The gate that two views determine together, at position `q`, is not a correct AND gate. -/
def WrongAnd (vp vn : List (ZInput Bool)) (q : Nat) : Prop :=
  ∃ x y, vp[q]? = some x ∧ vn[q]? = some y ∧
    (((x.a0 ^^ y.a0) && (x.b0 ^^ y.b0)) ^^ ((x.a0 ^^ y.a0) && (x.b1 ^^ y.b1)) ^^ ((x.a1 ^^ y.a1) && (x.b0 ^^ y.b0)) ^^
      (x.r ^^ y.r)) ≠ (x.s ^^ y.s)

/-- The values `get_and_r` may return (`swift3/protocol.rs:1882-1892`): it draws until the value is above `m`. -/
abbrev AndChallenge (m : Nat) : Type := {r : GF2p64 // m < r.val.toNat}

/-! ## Multiplications and dot products -/

/-- What the two verifiers have computed in a session of the multiplication proof, with the modulus. -/
def mulViews (G : Prg) {K : Nat} (z zNext zPrev : ZProof (BitVec K)) (l m : Nat) (thetas betas : List (Poly (BitVec K)))
    (r : Poly (BitVec K)) (rng : G.S) :
    Except Err (Poly (BitVec K) × ZkShared (Poly (BitVec K)) × ZkShared (Poly (BitVec K))) := do
  let z ← z.setParameters ⟨0, 0, 0, 0, 0, 0⟩ l m
  let zNext ← zNext.setParameters ⟨0, 0, 0, 0, 0, 0⟩ l m
  let zPrev ← zPrev.setParameters ⟨0, 0, 0, 0, 0, 0⟩ l m
  let modulus ← mulModulus K m
  let coords := mulPoints K (m + 1)
  let lagrange ← Poly.lagrangePolys coords modulus
  let (seed, proof, _) ← (mulEnv G K modulus).prove z.l z.m z.proof thetas lagrange rng
  let v1 ← (mulEnv G K modulus).verifyPi zNext.l zNext.m zNext.verifyPrev betas r lagrange coords proof
  let v2 ← (mulEnv G K modulus).verifyPi zPrev.l zPrev.m zPrev.verifyNext betas r lagrange coords
    ((mulEnv G K modulus).fromSeed seed l m)
  pure (modulus, v1, v2)

/-- A session of the multiplication proof with challenges `thetas`, `betas`, `r` and the generator state `rng` of the
prover. -/
def mulSession (G : Prg) {K : Nat} (z zNext zPrev : ZProof (BitVec K)) (l m : Nat) (thetas betas : List (Poly (BitVec K)))
    (r : Poly (BitVec K)) (rng : G.S) : Except Err Unit := do
  let (modulus, v1, v2) ← mulViews G z zNext zPrev l m thetas betas r rng
  (mulEnv G K modulus).combine l thetas v1 v2

/-- The same for dot products. -/
def dotViews (G : Prg) {K : Nat} (z zNext zPrev : DProof K) (l m : Nat) (thetas betas : List (Poly (BitVec K)))
    (r : Poly (BitVec K)) (rng : G.S) :
    Except Err (Poly (BitVec K) × ZkShared (Poly (BitVec K)) × ZkShared (Poly (BitVec K))) := do
  let z ← z.setParameters l m
  let zNext ← zNext.setParameters l m
  let zPrev ← zPrev.setParameters l m
  let modulus ← mulModulus K m
  let coords := mulPoints K (m + 1)
  let lagrange ← Poly.lagrangePolys coords modulus
  let (seed, proof, _) ← (dotEnv G K modulus z.dotSize).prove z.l z.m z.proof thetas lagrange rng
  let v1 ← (dotEnv G K modulus zNext.dotSize).verifyPi zNext.l zNext.m zNext.verifyPrev betas r lagrange coords proof
  let v2 ← (dotEnv G K modulus zPrev.dotSize).verifyPi zPrev.l zPrev.m zPrev.verifyNext betas r lagrange coords
    ((dotEnv G K modulus zPrev.dotSize).fromSeed seed l m)
  pure (modulus, v1, v2)

/-- A session of the dot-product proof. -/
def dotSession (G : Prg) {K : Nat} (z zNext zPrev : DProof K) (l m : Nat) (thetas betas : List (Poly (BitVec K)))
    (r : Poly (BitVec K)) (rng : G.S) : Except Err Unit := do
  let (modulus, v1, v2) ← dotViews G z zNext zPrev l m thetas betas r rng
  (dotEnv G K modulus zPrev.dotSize).combine l thetas v1 v2

/-- Two coefficient vectors have the same length, greater than one, and their last coefficients add up to zero: the
sum has a superfluous leading zero. -/
def LeadCancels {K : Nat} (p q : Poly (BitVec K)) : Prop :=
  p.coeffs.length = q.coeffs.length ∧ 1 < p.coeffs.length ∧
    ∀ x y, p.coeffs.getLast? = some x → q.coeffs.getLast? = some y → x + y = 0

/-! ## Provers that cheat, multiplications and dot products -/

/-- The polynomials that `Poly::random(d - 1)` may return: all vectors of `d` coefficients. -/
abbrev PolyChallenge (K d : Nat) : Type := Fin d → BitVec K

/-- Such a polynomial. -/
def PolyChallenge.poly {K d : Nat} (t : PolyChallenge K d) : Poly (BitVec K) := ⟨List.ofFn t⟩

/-- The values `get_mul_r` may return (`swift3/protocol.rs:1894-1908`): it draws until the first coefficient is not
zero. -/
abbrev PolyPoint (K d : Nat) : Type := {r : PolyChallenge K d // (List.ofFn r).head? ≠ some 0}

/-- The degree of the modulus. -/
def mulDegree (m : Nat) : Nat := ceilLog2 (2 * m) + 40

/-- The checks of the two verifiers of a multiplication proof accept: `vp` and `vn` are their views of the prover's
gates, `proof` what the successor has received, `proofNext` what the predecessor has expanded from the seed it has
received. -/
def MulAccepts (G : Prg) {K : Nat} (l m : Nat) (vp vn : List (ZInput (BitVec K))) (thetas betas : List (Poly (BitVec K)))
    (r : Poly (BitVec K)) (proof proofNext : ZkPf (Poly (BitVec K))) : Prop :=
  ∃ modulus lagrange v1 v2, mulModulus K m = .ok modulus ∧
    Poly.lagrangePolys (mulPoints K (m + 1)) modulus = .ok lagrange ∧
    (mulEnv G K modulus).verifyPi l m vp betas r lagrange (mulPoints K (m + 1)) proof = .ok v1 ∧
    (mulEnv G K modulus).verifyPi l m vn betas r lagrange (mulPoints K (m + 1)) proofNext = .ok v2 ∧
    (mulEnv G K modulus).combine l thetas v1 v2 = .ok ()

/-- The same for dot products of the given size. -/
def DotAccepts (G : Prg) {K : Nat} (size l m : Nat) (vp vn : List (DInput K)) (thetas betas : List (Poly (BitVec K)))
    (r : Poly (BitVec K)) (proof proofNext : ZkPf (Poly (BitVec K))) : Prop :=
  ∃ modulus lagrange v1 v2, mulModulus K m = .ok modulus ∧
    Poly.lagrangePolys (mulPoints K (m + 1)) modulus = .ok lagrange ∧
    (dotEnv G K modulus size).verifyPi l m vp betas r lagrange (mulPoints K (m + 1)) proof = .ok v1 ∧
    (dotEnv G K modulus size).verifyPi l m vn betas r lagrange (mulPoints K (m + 1)) proofNext = .ok v2 ∧
    (dotEnv G K modulus size).combine l thetas v1 v2 = .ok ()

/-- The gate that two views determine together, at position `q`, is not a correct multiplication. -/
def WrongMul {K : Nat} (vp vn : List (ZInput (BitVec K))) (q : Nat) : Prop :=
  ∃ x y, vp[q]? = some x ∧ vn[q]? = some y ∧
    (x.a0 + y.a0) * (x.b0 + y.b0) + (x.a0 + y.a0) * (x.b1 + y.b1) + (x.a1 + y.a1) * (x.b0 + y.b0) + (x.r + y.r) ≠
      x.s + y.s

/-- The inner product of two vectors. -/
def innerProd {K : Nat} (a b : List (BitVec K)) : BitVec K := (List.zipWith (· * ·) a b).sum

/-- The gate that two views determine together, at position `q`, is not a correct dot product. -/
def WrongDot {K : Nat} (vp vn : List (DInput K)) (q : Nat) : Prop :=
  ∃ x y, vp[q]? = some x ∧ vn[q]? = some y ∧
    let a0 := List.zipWith (· + ·) x.a0 y.a0
    let a1 := List.zipWith (· + ·) x.a1 y.a1
    let b0 := List.zipWith (· + ·) x.b0 y.b0
    let b1 := List.zipWith (· + ·) x.b1 y.b1
    innerProd a0 b0 + innerProd a0 b1 + innerProd a1 b0 + (x.r + y.r) ≠ x.s + y.s

end Verif
