import Verif.Spec.Spdz

/-!
# Specification: an attack on the AND triples of the SPDZ-wise backend

In `generate_triples` (`spdzwise/protocol.rs:323-378`) the parties exchange the components of the products `c` and then
toss the coin under which the second half of the triples is shuffled. A party sends its contribution to the coin as soon
as it has received the components of its *predecessor*; so the corrupt party, which learns the missing contribution from
its predecessor, can compute the shuffle before it sends its own components to its successor. The programs below do
this, and are otherwise the programs of an honest party.
-/

namespace Verif

/-- The parties hold shares of triples whose products are off by the given words: `c = (a & b) ^ e`. -/
def WrongTriplesOf (es : List (BitVec 128)) (a b c : Party → List (AShare 128)) : Prop :=
  ∃ xs ys : List (BitVec 128), xs.length = es.length ∧ ys.length = es.length ∧ Rels BinSharesOf xs a ∧
    Rels BinSharesOf ys b ∧ Rels BinSharesOf (List.zipWith (· ^^^ ·) (List.zipWith (· &&& ·) xs ys) es) c

namespace Spdz

open Jmp

variable {G : Prg} {V : Nat}

/-- The inverse of the shuffle of `permute` (`spdzwise/protocol.rs:312-318`) on one component: the swaps in the opposite
order. -/
def unshuffle (G : Prg) : Nat → Nat → G.S → List (BitVec 128) → List (BitVec 128)
  | 0, _, _, l => l
  | n + 1, j, s, l => swapBitC (unshuffle G n (j + 1) (G.genRange (n + 1) s).2 l) (j + (G.genRange (n + 1) s).1) j

/-- `and_many` of ABY3 and the toss of the coin, as run by the corrupt party: it first receives both messages of its
predecessor, computes the seed, adds `errs seed` to its components, and then sends its two messages. -/
def rushAndCoin (me : Party) (errs : Bytes → List (BitVec 128)) (a b : List (AShare 128)) :
    Proto (JmpSt G) (List (AShare 128) × Bytes) := do
  let sharesA ← viaPrf (Aby3.andLoop (a.zip b))
  let (seed1, seed2) ← genSeeds
  let sharesB ← Proto.net (receiveVecPrev 128 me sharesA.length)
  jmpBufferMany (K := 8) seed1
  let seed3 ← jmpReceiveMany 8 me seed2.length
  let seed := List.zipWith (fun s1 (p : Byte × Byte) => s1 ^^^ (p.2 ^^^ p.1)) seed1 (seed2.zip seed3)
  let bad := List.zipWith (· ^^^ ·) sharesA (errs seed)
  Proto.net (sendVecNext me bad)
  jmpSendMany (K := 8) me seed2
  pure (List.zipWith AShare.mk bad sharesB, seed)

/-- `generate_triples` as run by the corrupt party, which changes the products of the triples by `es`: the first half gets
the errors `es`, the second half errors which the shuffle turns into `es`, followed by a correct triple (the one that is
opened). -/
def rushGenerate (H : Hash) (me : Party) (num : Nat) (es : List (BitVec 128)) : Proto (SpdzSt G V) Triples := do
  let n := max num minTriples
  let a ← viaJmp (genRandMany 128 (2 * n + 1))
  let b ← viaJmp (genRandMany 128 (2 * n + 1))
  let (c, seed) ← viaJmp (rushAndCoin me
    (fun seed => es ++ unshuffle G ((n + 1) * 128) 0 (G.ofSeed seed) (es ++ [0])) a b)
  let (xs, ys, zs) := permuteLoop G ((a.drop n).length * 128) 0 (G.ofSeed seed) (a.drop n, b.drop n, c.drop n)
  let (x, xs) ← Proto.lift (popE xs)
  let (y, ys) ← Proto.lift (popE ys)
  let (z, zs) ← Proto.lift (popE zs)
  let opened ← openBinMany me [x, y, z]
  let o0 ← Proto.lift (idx opened 0)
  let o1 ← Proto.lift (idx opened 1)
  let o2 ← Proto.lift (idx opened 2)
  if (o0 &&& o1) ≠ o2 then Proto.throw .verify
  else do
    verifyTriples H me (a.take n) (b.take n) (c.take n) xs ys zs
    Proto.lift (Triples.new (a.take n) (b.take n) (c.take n))

/-- `precompute_and_triples` as run by the corrupt party: every bit of every new triple is wrong. -/
def rushPrecompute (H : Hash) (me : Party) (amount : Nat) : Proto (SpdzSt G V) Unit := do
  let s ← get
  let ands := s.prec.len
  let amount := (amount + 127) / 128
  if ands ≤ amount then do
    let new ← rushGenerate H me (amount - ands)
      (List.replicate (max (amount - ands) minTriples) (BitVec.allOnes 128))
    let s ← get
    let prec ← Proto.lift (s.prec.extend new)
    Proto.step fun s : SpdzSt G V => ((), { s with prec := prec })
  else pure ()

/-- `and_many` of ABY3 as run by the corrupt party: it inverts its component of every result before it sends it. -/
def invertAnds (me : Party) (a b : List (AShare 128)) : Proto (Aby3St G) (List (AShare 128)) :=
  if a.length ≠ b.length then Proto.throw .invalidSize
  else do
    let sharesA ← Aby3.andLoop (a.zip b)
    let bad := sharesA.map (· ^^^ BitVec.allOnes 128)
    let sharesB ← Proto.net (sendSliceAndReceiveIter me bad)
    pure (List.zipWith AShare.mk bad sharesB)

/-- `and_many` as run by the corrupt party. -/
def rushAndMany (me : Party) (a b : List (AShare 128)) : Proto (SpdzSt G V) (List (AShare 128)) := do
  let c ← viaAby (invertAnds me a b)
  let s ← get
  let buffer ← Proto.lift (s.buffer.addMany a b c)
  Proto.step fun s : SpdzSt G V => (c, { s with buffer := buffer })

end Spdz

end Verif
