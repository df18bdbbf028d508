import Verif.Model.Swift3
import Verif.Model.Bincode

/-!
# Verification in the Swift3 backend, `iris-mpc/src/swift3/protocol.rs`

`verify` and what it uses: `and_verify`, `mul_verify`, `dot_verify`, `coin`, the exchange of the proofs, and the sampling
of the challenges. The generators created with `ChaCha12Rng::from_entropy()` are parameters.
-/

namespace Verif

/-- The loop `while bad(x) { x = draw(rng) }` of `get_and_r`, `get_mul_r` (`swift3/protocol.rs:1886-1888, 1902-1904`), as
a partial function: `none` means that it does not end. -/
def redraw {S T : Type} (draw : S → T × S) (bad : T → Bool) (x : T) (s : S) : Option (T × S) :=
  if bad x then redraw draw bad (draw s).1 (draw s).2 else some (x, s)
partial_fixpoint

/-- `get_and_r`, `swift3/protocol.rs:1882-1892`, and `get_mul_r`, `:1894-1908`: first three draws, then each is repeated
until it is acceptable. -/
def redraw3 {S T : Type} (draw : S → T × S) (bad : T → Bool) (s : S) : Option (Party → T) := do
  let x0 := draw s
  let x1 := draw x0.2
  let x2 := draw x1.2
  let r0 ← redraw draw bad x0.1 x2.2
  let r1 ← redraw draw bad x1.1 r0.2
  let r2 ← redraw draw bad x2.1 r1.2
  pure fun i => match i with
    | 0 => r0.1
    | 1 => r1.1
    | 2 => r2.1

/-- `get_rands_for_and_dzkp`, `swift3/protocol.rs:1807-1821`, `get_rands_for_mul_dzkp`, `:1862-1880`; with the state of
the generator. -/
def ZkEnv.rands3 {G : Prg} {T I : Type} (E : ZkEnv G T I) (size : Nat) (s : G.S) : (Party → List T) × G.S :=
  let x0 := E.randoms size s
  let x1 := E.randoms size x0.2
  let x2 := E.randoms size x1.2
  (fun i => match i with
    | 0 => x0.1
    | 1 => x1.1
    | 2 => x2.1, x2.2)

/-- `*r <= m as u64`, `swift3/protocol.rs:1886`. -/
def andBad (m : Nat) (x : GF2p64) : Bool := decide (x.get.toNat ≤ m)

/-- `r.coeffs[0].is_zero()`, `swift3/protocol.rs:1902`; a random polynomial has at least one coefficient. -/
def mulBad {K : Nat} (x : Poly (BitVec K)) : Bool := x.coeffs.head? == some 0

namespace Swift3

variable {G : Prg} {K : Nat}

/-- An endless loop: the party waits for a message that nobody can send. -/
def hang {α : Type} (me : Party) : Proto (S3St G K) α := fun _ => .recv me fun _ => .fail .other

/-- The value of a loop that may not end. -/
def orHang {α : Type} (me : Party) : Option α → Proto (S3St G K) α
  | some a => pure a
  | none => hang me

/-- `self.prf.gen_p::<Seed>()`, `swift3/random/prf.rs:51-56`. -/
def genPSeed : Proto (S3St G K) Bytes :=
  Proto.step fun s => ((G.genSeed s.prf.pp).1, { s with prf := { s.prf with pp := (G.genSeed s.prf.pp).2 } })

/-- `coin`, `swift3/protocol.rs:1660-1729`; `rng` is the state of the generator passed in. (`clone_into`, which copies the
received slices, is not modelled separately.) -/
def coin (H : Hash) (me : Party) (rng : G.S) : Proto (S3St G K) Bytes := do
  let ids := otherIds me
  let sd := G.genSeed rng
  let seed := sd.1
  let comm : Commitment 8 := Commitment.commit H seed (G.genSeed sd.2).1
  let res ← Proto.net (broadcast me comm.comm)
  let rcv1 ← Proto.lift (idx res ids.1)
  let rcv2 ← Proto.lift (idx res ids.2)
  let cs := Commitment.commSize
  if rcv1.length ≠ cs ∨ rcv2.length ≠ cs then Proto.throw .invalidMessageSize
  else
    let res ← Proto.net (broadcast me (ringSliceToBytes comm.values ++ comm.rand))
    let msg1 ← Proto.lift (idx res ids.1)
    let msg2 ← Proto.lift (idx res ids.2)
    let ss := seed.length
    let rs := Commitment.randSize
    if msg1.length ≠ ss + rs ∨ msg2.length ≠ ss + rs then Proto.throw .invalidMessageSize
    else if MalAby3.verifyCommitment H (msg1.take ss) (msg1.drop ss) rcv1 = false then
      Proto.throw (.invalidCommitment ids.1)
    else if MalAby3.verifyCommitment H (msg2.take ss) (msg2.drop ss) rcv2 = false then
      Proto.throw (.invalidCommitment ids.2)
    else
      pure (List.zipWith (fun r (p : Byte × Byte) => r ^^^ (p.1 ^^^ p.2)) seed ((msg1.take ss).zip (msg2.take ss)))

variable {T I : Type} [PolyT T] [Bincode T]

/-- `send_receive_and_dzkp`, `swift3/protocol.rs:1731-1766`, `send_receive_mul_dzkp`, `:1769-1805`,
`send_receive_dot_dzkp`, `:1823-1860`. -/
def sendReceiveDzkp (E : ZkEnv G T I) (me : Party) (proof : ZkPf T) (seed : Bytes) (l m : Nat) :
    Proto (S3St G K) (ZkPf T × ZkPf T) := do
  Proto.net (sendNext me (Bincode.enc proof))
  Proto.net (sendPrev me seed)
  let bytes ← Proto.net (recvPrev me)
  let proofPrev ← Proto.lift (Bincode.deserialize (ZkPf T) bytes)
  let seedNext ← Proto.net (recvNext me)
  if seedNext.length ≠ seed.length then Proto.throw .invalidMessageSize
  else pure (proofPrev, E.fromSeed seedNext l m)

/-- The common part of `and_verify`, `mul_verify`, `dot_verify` from the theta challenges to the exchange of the
verifications, `swift3/protocol.rs:643-698`, `:725-780`, `:808-863`. Returns the thetas for the proof of the next party
and the two verifications of it. `z`, `zPrev`, `zNext` are the fields `proof`, `verify_prev`, `verify_next`. -/
def zkExchange (H : Hash) (E : ZkEnv G T I) (bad : T → Bool) (me : Party) (l m : Nat) (coords : List T)
    (lagrange : List (Poly T)) (z zPrev zNext : List I) (rng : G.S) :
    Proto (S3St G K) (List T × ZkShared T × ZkShared T) := do
  let seed ← genPSeed
  let thetas := (E.rands3 l (G.ofSeed seed)).1
  let (seed, proof, rng) ← Proto.lift (E.prove l m z (thetas me) lagrange rng)
  let (proofPrev, proofNext) ← sendReceiveDzkp E me proof seed l m
  let seed ← coin H me rng
  let betas := E.rands3 m (G.ofSeed seed)
  let r ← orHang me (redraw3 E.rnd bad betas.2)
  let vPrev ← Proto.lift (E.verifyPi l m zPrev (betas.1 me.prev) (r me.prev) lagrange coords proofPrev)
  let vNext ← Proto.lift (E.verifyPi l m zNext (betas.1 me.next) (r me.next) lagrange coords proofNext)
  Proto.net (sendNext me (Bincode.enc vPrev))
  let bytes ← Proto.net (recvPrev me)
  let rcv ← Proto.lift (Bincode.deserialize (ZkShared T) bytes)
  pure (thetas me.next, rcv, vNext)

/-- The same followed by `combine_verifications`, `swift3/protocol.rs:700-705`, `:782-787`, `:865-870`. -/
def zkVerify [DecidableEq T] (H : Hash) (E : ZkEnv G T I) (bad : T → Bool) (me : Party) (l m : Nat) (coords : List T)
    (lagrange : List (Poly T)) (z zPrev zNext : List I) (rng : G.S) : Proto (S3St G K) Unit := do
  let (thetas, vp, vn) ← zkExchange H E bad me l m coords lagrange z zPrev zNext rng
  Proto.lift (E.combine l thetas vp vn)

/-- `and_verify`, `swift3/protocol.rs:631-708`. -/
def andVerify (H : Hash) (me : Party) (rng : G.S) : Proto (S3St G K) Unit := do
  let s ← get
  let (l, m) := s.andProof.calcParams
  let z ← Proto.lift (andSetParameters s.andProof l m)
  Proto.step fun s => ((), { s with andProof := z })
  let coords := andPoints (m + 1)
  let lagrange ← Proto.lift (GF2p64.lagrangePolys coords)
  zkVerify H (andEnv G) (andBad m) me z.l z.m coords lagrange z.proof z.verifyPrev z.verifyNext rng

/-- `mul_verify`, `swift3/protocol.rs:710-790`. -/
def mulVerify (H : Hash) (me : Party) (rng : G.S) : Proto (S3St G K) Unit := do
  let s ← get
  let (l, m) := s.mulProof.calcParams
  let z ← Proto.lift (s.mulProof.setParameters ⟨0, 0, 0, 0, 0, 0⟩ l m)
  let modulus ← Proto.lift (mulModulus K m)
  Proto.step fun s => ((), { s with mulProof := z })
  let coords := mulPoints K (m + 1)
  let lagrange ← Proto.lift (Poly.lagrangePolys coords modulus)
  zkVerify H (mulEnv G K modulus) mulBad me z.l z.m coords lagrange z.proof z.verifyPrev z.verifyNext rng

/-- `dot_verify`, `swift3/protocol.rs:792-873`. -/
def dotVerify (H : Hash) (me : Party) (rng : G.S) : Proto (S3St G K) Unit := do
  let s ← get
  let (l, m) := s.dotProof.calcParams
  let z ← Proto.lift (s.dotProof.setParameters l m)
  let modulus ← Proto.lift (mulModulus K m)
  Proto.step fun s => ((), { s with dotProof := z })
  let coords := mulPoints K (m + 1)
  let lagrange ← Proto.lift (Poly.lagrangePolys coords modulus)
  zkVerify H (dotEnv G K modulus z.dotSize) mulBad me z.l z.m coords lagrange z.proof z.verifyPrev z.verifyNext rng

/-- `verify`, `swift3/protocol.rs:2297-2311`. -/
def verify (H : Hash) (me : Party) (rngMul rngAnd rngDot : G.S) : Proto (S3St G K) Unit := do
  let s ← get
  if s.mulProof.getMuls ≠ 0 then mulVerify H me rngMul
  let s ← get
  if s.andProof.getMuls ≠ 0 then andVerify H me rngAnd
  let s ← get
  if s.dotProof.getMuls ≠ 0 then dotVerify H me rngDot

end Swift3

end Verif
