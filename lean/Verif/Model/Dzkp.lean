import Verif.Model.AShare

/-!
# Registration of gates for the distributed zero-knowledge proofs

Models the first part of `iris-mpc/src/dzkp/{and_proof,mul_proof,dot_proof}.rs`: the gates recorded while the Swift3
protocol runs. Every party records its own gate (`proof`) and its view of the gates of its two neighbours
(`verify_prev`, `verify_next`).
-/

namespace Verif

/-- `Input`, `dzkp/and_proof.rs:12-20` (`α = bool`), `dzkp/mul_proof.rs:15-23` (`α = T`). -/
@[ext] structure ZInput (α : Type) where
  a0 : α
  a1 : α
  b0 : α
  b1 : α
  r : α
  s : α
  deriving DecidableEq

/-- `AndProof`, `dzkp/and_proof.rs:65-71`; `MulProof`, `dzkp/mul_proof.rs:72-80`, where the modulus is not stored but
computed from `m` when needed. -/
structure ZProof (α : Type) where
  l : Nat
  m : Nat
  proof : List (ZInput α)
  verifyPrev : List (ZInput α)
  verifyNext : List (ZInput α)

namespace ZProof

variable {α : Type}

/-- `Default`. -/
def empty : ZProof α := ⟨0, 0, [], [], []⟩

/-- The three `push`es. -/
def push (z : ZProof α) (p vp vn : ZInput α) : ZProof α :=
  { z with proof := z.proof ++ [p], verifyPrev := z.verifyPrev ++ [vp], verifyNext := z.verifyNext ++ [vn] }

/-- `get_muls`, `dzkp/and_proof.rs:143-145`, `dzkp/mul_proof.rs:119-121`. -/
def getMuls (z : ZProof α) : Nat := z.proof.length

/-- One iteration of the loop of `register_and`, `dzkp/and_proof.rs:92-140`, on the lowest bits. -/
def registerBit (z : ZProof Bool) (a0 a1 b0 b1 r0 r1 s0 s1 : Bool) : ZProof Bool :=
  z.push ⟨a0, a1, b0, b1, r0 ^^ r1, s0⟩ ⟨a1, false, b1, false, r1, s1⟩ ⟨false, a0, false, b0, r0, false⟩

/-- `T::one() & &x == T::one()`, `dzkp/and_proof.rs:93-100`. -/
def lowBit {K : Nat} (x : BitVec K) : Bool := 1 &&& x == 1

/-- The loop of `register_and`, `dzkp/and_proof.rs:92-140`; the first argument counts the remaining iterations. -/
def registerAndLoop {K : Nat} : Nat → ZProof Bool → (a0 a1 b0 b1 r0 r1 s0 s1 : BitVec K) → ZProof Bool
  | 0, z, _, _, _, _, _, _, _, _ => z
  | n + 1, z, a0, a1, b0, b1, r0, r1, s0, s1 =>
      registerAndLoop n
        (z.registerBit (lowBit a0) (lowBit a1) (lowBit b0) (lowBit b1) (lowBit r0) (lowBit r1) (lowBit s0) (lowBit s1))
        (ringShr a0 1) (ringShr a1 1) (ringShr b0 1) (ringShr b1 1) (ringShr r0 1) (ringShr r1 1) (ringShr s0 1)
        (ringShr s1 1)

/-- `register_and`, `dzkp/and_proof.rs:76-141`; the arguments are components of shares: `a = (a0, a1)` and so on. -/
def registerAnd {K : Nat} (z : ZProof Bool) (a b r s : AShare K) : ZProof Bool :=
  registerAndLoop K z a.a a.b b.a b.b r.a r.b s.a s.b

/-- `register_mul`, `dzkp/mul_proof.rs:87-117`. -/
def registerMul {K : Nat} (z : ZProof (BitVec K)) (a b r s : AShare K) : ZProof (BitVec K) :=
  z.push ⟨a.a, a.b, b.a, b.b, r.a - r.b, s.a⟩ ⟨a.b, 0, b.b, 0, r.b, s.b⟩ ⟨0, a.a, 0, b.a, -r.a, 0⟩

end ZProof

/-- `Input`, `dzkp/dot_proof.rs:15-23`. -/
@[ext] structure DInput (K : Nat) where
  a0 : List (BitVec K)
  a1 : List (BitVec K)
  b0 : List (BitVec K)
  b1 : List (BitVec K)
  r : BitVec K
  s : BitVec K
  deriving DecidableEq

/-- `DotProof`, `dzkp/dot_proof.rs:102-112`; the modulus is not stored but computed from `m` when needed. -/
structure DProof (K : Nat) where
  l : Nat
  m : Nat
  dotSize : Nat
  maxDot : Nat
  proof : List (DInput K)
  verifyPrev : List (DInput K)
  verifyNext : List (DInput K)

namespace DProof

variable {K : Nat}

/-- `Default`. -/
def empty : DProof K := ⟨0, 0, 0, 0, [], [], []⟩

/-- `get_muls`, `dzkp/dot_proof.rs:178-180`. -/
def getMuls (z : DProof K) : Nat := z.proof.length

/-- `register_dot`, `dzkp/dot_proof.rs:119-176`. The four vectors are the components of one list of pairs of shares, so
the assertions on their lengths (`:130-133`) hold. -/
def registerDot (z : DProof K) (ps : List (AShare K × AShare K)) (r s : AShare K) : DProof K :=
  let len := ps.length
  let a0 := ps.map (·.1.a)
  let a1 := ps.map (·.1.b)
  let b0 := ps.map (·.2.a)
  let b1 := ps.map (·.2.b)
  let a0 := if len < z.dotSize then resize a0 z.dotSize 0 else a0
  let a1 := if len < z.dotSize then resize a1 z.dotSize 0 else a1
  let b0 := if len < z.dotSize then resize b0 z.dotSize 0 else b0
  let b1 := if len < z.dotSize then resize b1 z.dotSize 0 else b1
  let maxDot := if len > z.dotSize then z.proof.length else z.maxDot
  let dotSize := if len > z.dotSize then len else z.dotSize
  let zeros := List.replicate dotSize 0
  { z with
    dotSize := dotSize
    maxDot := maxDot
    proof := z.proof ++ [⟨a0, a1, b0, b1, r.a - r.b, s.a⟩]
    verifyPrev := z.verifyPrev ++ [⟨a1, zeros, b1, zeros, r.b, s.b⟩]
    verifyNext := z.verifyNext ++ [⟨zeros, a0, zeros, b0, -r.a, 0⟩] }

end DProof

end Verif
