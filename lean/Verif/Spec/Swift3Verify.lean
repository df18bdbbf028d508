import Verif.Spec.Dzkp
import Verif.Model.Swift3Verify

/-!
# Specification: verification of a Swift3 run with honest parties
-/

namespace Verif

/-- Exclusive or of three byte strings. -/
def xor3 (a b c : Bytes) : Bytes := List.zipWith (· ^^^ ·) (List.zipWith (· ^^^ ·) a b) c

/-- The challenges of one verification: for the proof of every party the thetas, the betas and the point `r`. -/
structure Challenges (T : Type) where
  thetas : Party → List T
  betas : Party → List T
  r : Party → T

/-- The challenges that honest parties arrive at (`l`, `m`: parameters of the proof). The thetas are expanded from a seed
drawn from the generator that all three have in common (in state `pp`); the betas and `r` from the exclusive or of three
seeds, one drawn by every party from its own generator after its proof is finished (the proof has used `wires · l` random
elements and a seed). Values of `r` that are `bad` are drawn again; there is no result if this never ends. -/
def zkChallenges {G : Prg} {T I : Type} (E : ZkEnv G T I) (bad : T → Bool) (l m : Nat) (pp : G.S) (rng : Party → G.S) :
    Option (Challenges T) :=
  let own : Party → Bytes := fun i =>
    (G.genSeed (G.genSeed (E.randoms (E.circ.wires * l) (rng i)).2).2).1
  let betas := E.rands3 m (G.ofSeed (xor3 (own 0) (own 1) (own 2)))
  (redraw3 E.rnd bad betas.2).map fun r => ⟨(E.rands3 l (G.ofSeed (G.genSeed pp).1)).1, betas.1, r⟩

/-- Drawing again and again, from any state, an acceptable value appears. -/
def Recurs {S T : Type} (draw : S → T × S) (bad : T → Bool) : Prop :=
  ∀ s, ∃ n, bad (draw ((fun s => (draw s).2)^[n] s)).1 = false

/-- The generator is lively: among successive 64-bit values there is always one above `2^23`, and among successive
random polynomials over the ring one with non-zero constant coefficient. (Otherwise the loops that draw `r` would not
end. A generator that passes the weakest of statistical tests is lively.) -/
def Prg.Lively (G : Prg) (K : Nat) : Prop :=
  Recurs (G.gen 64) (fun x => decide (x.toNat ≤ 2 ^ 23)) ∧ ∀ d, Recurs (Poly.random (G := G) K d) mulBad

/-- `res i` is what the check of the registered multiplications gives at party `i`, which checks the proof of its
successor: nothing to check if there are none (`v = 0`), otherwise the result of a session of the proof (see
`Spec/Dzkp.lean`) of the three parties' records, with the parameters `l`, `m` computed from `v` and the challenges of
honest parties (`pp`: the state of the common generator). -/
def MulOutcome {G : Prg} {K : Nat} (v : Nat) (pp : G.S) (rng : Party → G.S) (z : Party → ZProof (BitVec K))
    (res : Party → Except Err Unit) : Prop :=
  if v = 0 then ∀ i, res i = .ok ()
  else
    let l := ceilSqrt v
    let m := ceilDiv v l
    ∃ modulus ch, mulModulus K m = .ok modulus ∧ zkChallenges (mulEnv G K modulus) mulBad l m pp rng = some ch ∧
      ∀ i : Party, res i = mulSession G (z i.next) (z i.prev) (z i) l m (ch.thetas i.next) (ch.betas i.next) (ch.r i.next)
        (rng i.next)

/-- The same for dot products. -/
def DotOutcome {G : Prg} {K : Nat} (w : DotCount) (pp : G.S) (rng : Party → G.S) (z : Party → DProof K)
    (res : Party → Except Err Unit) : Prop :=
  if w.n = 0 then ∀ i, res i = .ok ()
  else
    let m := ceilSqrt ((4 * w.size + 2) * w.n)
    let l := ceilDiv w.n m
    ∃ modulus ch, mulModulus K m = .ok modulus ∧ zkChallenges (dotEnv G K modulus w.size) mulBad l m pp rng = some ch ∧
      ∀ i : Party, res i = dotSession G (z i.next) (z i.prev) (z i) l m (ch.thetas i.next) (ch.betas i.next) (ch.r i.next)
        (rng i.next)

/-- The state of a generator after a seed was drawn from it, unless there was nothing (`n = 0`) to draw it for. -/
def seedFor {G : Prg} (n : Nat) (s : G.S) : G.S := if n = 0 then s else (G.genSeed s).2

/-- Every party finishes, under every schedule, with the given results. -/
def EveryScheduleOutcome {σ α : Type} (p : Party → Proto σ α) (st : Party → σ) (r : Party → Except Err (α × σ)) : Prop :=
  EndsIn (fun i => p i (st i)) (fun c => ∀ i, c.prog i = Prog.ofExcept (r i))

/-- `iris_in_db` after the checks of its arguments, up to the verification (`Props/Swift3Verify.lean` proves that the
whole is this, then `verify().unwrap()`, then the opening of the result). -/
def Iris.queryBody {σ A B : Type} {K : Nat} (ops : MpcOps σ A B K) (a : List A) (b : List (List A)) (mask : IrisCodeArray) (masks : List IrisCodeArray)
    (cs : Nat) : Proto σ B := do
  let numAnd ← Proto.lift (Iris.numAndTriples K b.length cs)
  ops.precompute numAnd
  let dbChunks ← Proto.lift (chunksE cs b)
  let maskChunks ← Proto.lift (chunksE cs masks)
  let bools ← Iris.chunkLoop ops a mask (dbChunks.zip maskChunks)
  ops.reduceBinaryOr bools cs

end Verif
