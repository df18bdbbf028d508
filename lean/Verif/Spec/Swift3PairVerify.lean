import Verif.Spec.Swift3Pair
import Verif.Spec.Swift3Verify

/-!
# Specification: Swift3 verification with a corrupt party

The corrupt party is `i.prev`. Its proof is checked by `i`, which gets the proof, and by `i.next`, which gets the seed.
-/

namespace Verif

namespace Swift3

/-- The commitment `cm` is opened by `op`: a seed of 32 bytes followed by 32 random bytes. -/
def Opens (H : Hash) (cm op : Bytes) : Prop := op.length = 64 ∧ cm = H.h op

/-- The messages of the corrupt party in one verification: to `i` its proof, the commitment to its seed for the coin, the
opening of it, and its part of the check of another proof; to `i.next` the seed of its proof, a commitment and an
opening. -/
structure CorruptMsgs where
  proof : Bytes
  comm : Bytes
  opening : Bytes
  check : Bytes
  seed : Bytes
  comm' : Bytes
  opening' : Bytes

/-- The messages to `i`, in order. -/
def CorruptMsgs.toFirst (c : CorruptMsgs) : List Bytes := [c.proof, c.comm, c.opening, c.check]

/-- The messages to `i.next`, in order. -/
def CorruptMsgs.toSecond (c : CorruptMsgs) : List Bytes := [c.seed, c.comm', c.opening']

variable {G : Prg} {T I : Type}

/-- The betas for the proof of party `j`, expanded from a coin. -/
def coinBetas (E : ZkEnv G T I) (m : Nat) (coin : Bytes) (j : Party) : List T := (E.rands3 m (G.ofSeed coin)).1 j

/-- The point `r` for the proof of party `j`, expanded from a coin; none if an acceptable value is never drawn. -/
def coinPoint (E : ZkEnv G T I) (bad : T → Bool) (m : Nat) (coin : Bytes) (j : Party) : Option T :=
  (redraw3 E.rnd bad (E.rands3 m (G.ofSeed coin)).2).map fun r => r j

/-- The thetas for the proof of party `j`; `pp` is the state of the generator all three have in common. -/
def commonThetas (E : ZkEnv G T I) (l : Nat) (pp : G.S) (j : Party) : List T :=
  (E.rands3 l (G.ofSeed (G.genSeed pp).1)).1 j

/-- The seed that an honest party with its generator in state `rng` contributes to the coin: drawn after it has finished
its own proof, which has used `wires · l` random elements and a seed. -/
def ownSeed (E : ZkEnv G T I) (l : Nat) (rng : G.S) : Bytes :=
  (G.genSeed (G.genSeed (E.randoms (E.circ.wires * l) rng).2).2).1

/-- The coin of a party that has received the opening `op` from the corrupt party; `rng`, `rng'` are the generators of
`i`, `i.next`. -/
def coinOf (E : ZkEnv G T I) (l : Nat) (rng rng' : G.S) (op : Bytes) : Bytes :=
  xor3 (ownSeed E l rng) (ownSeed E l rng') (op.take 32)

/-- The challenges for the proof of the corrupt party at an honest party that has received the opening `op`. -/
structure Drew (E : ZkEnv G T I) (bad : T → Bool) (l m : Nat) (i : Party) (pp rng rng' : G.S) (op : Bytes)
    (θ β : List T) (r : T) : Prop where
  thetas : commonThetas E l pp i.prev = θ
  betas : coinBetas E m (coinOf E l rng rng' op) i.prev = β
  point : coinPoint E bad m (coinOf E l rng rng' op) i.prev = some r

variable [PolyT T] [Bincode T] [DecidableEq T]

/-- The proof of the corrupt party has passed the check of `i` and `i.next`, which have the views `vp` and `vn` of its
gates: `v1` is what `i` has computed, with the challenges from its coin, `v2` what `i.next` has computed, with the
challenges from its own coin. -/
structure Passed (H : Hash) (E : ZkEnv G T I) (bad : T → Bool) (l m : Nat) (coords : List T) (lagrange : List (Poly T))
    (i : Party) (pp rng rng' : G.S) (vp vn : List I) (c : CorruptMsgs) : Prop where
  comm : Opens H c.comm c.opening
  comm' : Opens H c.comm' c.opening'
  seed : c.seed.length = 32
  check : ∃ proof r r' v1 v2, Bincode.deserialize (ZkPf T) c.proof = .ok proof ∧
    coinPoint E bad m (coinOf E l rng rng' c.opening) i.prev = some r ∧
    coinPoint E bad m (coinOf E l rng rng' c.opening') i.prev = some r' ∧
    E.verifyPi l m vp (coinBetas E m (coinOf E l rng rng' c.opening) i.prev) r lagrange coords proof = .ok v1 ∧
    E.verifyPi l m vn (coinBetas E m (coinOf E l rng rng' c.opening') i.prev) r' lagrange coords
      (E.fromSeed c.seed l m) = .ok v2 ∧
    E.combine l (commonThetas E l pp i.prev) v1 v2 = .ok ()

variable {K : Nat}

/-- The proof of the corrupt party for its AND gates has passed. `z`, `z'` are the gates registered by `i` and `i.next`; the
parameters are computed from their number, and the lists are filled up with trivial gates (`set_parameters`). -/
def AndPassed (H : Hash) (i : Party) (z z' : ZProof Bool) (pp rng rng' : G.S) (c : CorruptMsgs) : Prop :=
  let l := ceilSqrt z.proof.length
  let m := ceilDiv z.proof.length l
  ∃ lagrange w w', GF2p64.lagrangePolys (andPoints (m + 1)) = .ok lagrange ∧ andSetParameters z l m = .ok w ∧
    andSetParameters z' l m = .ok w' ∧
    Passed H (andEnv G) (andBad m) l m (andPoints (m + 1)) lagrange i pp rng rng' w.verifyPrev w'.verifyNext c

/-- The same for multiplications. -/
def MulPassed (H : Hash) (i : Party) (z z' : ZProof (BitVec K)) (pp rng rng' : G.S) (c : CorruptMsgs) : Prop :=
  let l := ceilSqrt z.proof.length
  let m := ceilDiv z.proof.length l
  ∃ modulus lagrange w w', mulModulus K m = .ok modulus ∧
    Poly.lagrangePolys (mulPoints K (m + 1)) modulus = .ok lagrange ∧
    z.setParameters ⟨0, 0, 0, 0, 0, 0⟩ l m = .ok w ∧ z'.setParameters ⟨0, 0, 0, 0, 0, 0⟩ l m = .ok w' ∧
    Passed H (mulEnv G K modulus) mulBad l m (mulPoints K (m + 1)) lagrange i pp rng rng' w.verifyPrev w'.verifyNext c

/-- The same for dot products. -/
def DotPassed (H : Hash) (i : Party) (z z' : DProof K) (pp rng rng' : G.S) (c : CorruptMsgs) : Prop :=
  let m := ceilSqrt ((4 * z.dotSize + 2) * z.proof.length)
  let l := ceilDiv z.proof.length m
  ∃ modulus lagrange w w', mulModulus K m = .ok modulus ∧
    Poly.lagrangePolys (mulPoints K (m + 1)) modulus = .ok lagrange ∧
    z.setParameters l m = .ok w ∧ z'.setParameters l m = .ok w' ∧
    Passed H (dotEnv G K modulus z.dotSize) mulBad l m (mulPoints K (m + 1)) lagrange i pp rng rng'
      w.verifyPrev w'.verifyNext c

/-- `msgs`, `msgs'` are the messages of the corrupt party to `i` and `i.next` in a verification of `n` gates that has passed
in the sense of `P`; if there are no gates, there is no verification. -/
def PartPassed (n : Nat) (P : CorruptMsgs → Prop) (msgs msgs' : List Bytes) : Prop :=
  if n = 0 then msgs = [] ∧ msgs' = [] else ∃ c : CorruptMsgs, msgs = c.toFirst ∧ msgs' = c.toSecond ∧ P c

/-- The generators a party uses in the three verifications of `verify`. -/
structure VerifyRngs (G : Prg) where
  mul : G.S
  and : G.S
  dot : G.S

/-- All proofs of the corrupt party have passed: those for multiplications, AND gates and dot products, in this order.
`s`, `s'` are the states of `i` and `i.next` before. -/
def AllPassed (H : Hash) (i : Party) (s s' : S3St G K) (r r' : VerifyRngs G) (msgs msgs' : List Bytes) : Prop :=
  let nm := s.mulProof.proof.length
  let na := s.andProof.proof.length
  let nd := s.dotProof.proof.length
  ∃ a b c a' b' c', msgs = a ++ b ++ c ∧ msgs' = a' ++ b' ++ c' ∧
    PartPassed nm (MulPassed H i s.mulProof s'.mulProof s.prf.pp r.mul r'.mul) a a' ∧
    PartPassed na (AndPassed H i s.andProof s'.andProof (seedFor nm s.prf.pp) r.and r'.and) b b' ∧
    PartPassed nd (DotPassed H i s.dotProof s'.dotProof (seedFor na (seedFor nm s.prf.pp)) r.dot r'.dot) c c'

/-- `verify` leaves the queues of joint message passing alone: `s` is a state before, `t` the state after. -/
structure Verified (s t : S3St G K) : Prop where
  sendQNext : t.sendQNext = s.sendQNext
  sendQPrev : t.sendQPrev = s.sendQPrev
  rcvQNext : t.rcvQNext = s.rcvQNext
  rcvQPrev : t.rcvQPrev = s.rcvQPrev

end Swift3

end Verif
