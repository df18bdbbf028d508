import Verif.Model.AShare

/-!
# Hashing and commitments

`Sha512` (crate `sha2`) is an arbitrary function from byte strings to 64 bytes: every theorem quantifies over
it, and a security statement that needs collision resistance exhibits the collision instead.
-/

namespace Verif

/-- `Sha512`: a hash of 64 bytes (`Sha512::output_size()`, `commitment/mod.rs:27-29`). -/
structure Hash where
  h : Bytes → Bytes
  len : ∀ m, (h m).length = 64

/-- `to_le_bytes`. -/
def leBytes : Nat → Nat → Bytes
  | 0, _ => []
  | n + 1, v => BitVec.ofNat 8 v :: leBytes n (v / 256)

/-- `add_to_hash`, `types/int_ring.rs:155-157, 212-214, 269-271, 326-328, 383-385, 433-435`: the bytes appended to
the hash input, least significant first. -/
def hashBytes {K : Nat} (x : BitVec K) : Bytes := leBytes (byteLen K) x.toNat

/-- `Commitment`, `commitment/mod.rs:6-14`. -/
structure Commitment (K : Nat) where
  values : List (BitVec K)
  rand : Bytes
  comm : Bytes

/-- `CommitOpening`, `commitment/mod.rs:16-24`. -/
structure CommitOpening (K : Nat) where
  values : List (BitVec K)
  rand : Bytes

namespace Commitment

variable {K : Nat}

/-- `get_comm_size`, `commitment/mod.rs:27-29`. -/
def commSize : Nat := 64

/-- `get_rand_size`, `commitment/mod.rs:31-33`. -/
def randSize : Nat := 32

/-- `commit_with_rand`, `commitment/mod.rs:40-48`; `commit` (`:35-38`) draws `rand` from a random generator. -/
def commit (H : Hash) (values : List (BitVec K)) (rand : Bytes) : Commitment K :=
  ⟨values, rand, H.h (ringSliceToBytes values ++ rand)⟩

/-- `open`, `commitment/mod.rs:50-55`. -/
def opening (c : Commitment K) : CommitOpening K := ⟨c.values, c.rand⟩

end Commitment

/-- `CommitOpening::verify`, `commitment/mod.rs:58-68`. -/
def CommitOpening.verify {K : Nat} (H : Hash) (o : CommitOpening K) (comm : Bytes) : Bool :=
  comm == H.h (ringSliceToBytes o.values ++ o.rand)

/-- The bytes one party feeds to the hash for one share of a value claimed to be zero,
`spdzwise/protocol.rs:91-128`, `aby3_mal/protocol.rs:258-276`: its two components and the negated sum, in the
order that makes the three parties hash the same string for a sharing of zero. -/
def zeroBytes {K : Nat} (me : Party) (w : AShare K) : Bytes :=
  let neg := -w.a - w.b
  match me with
  | 0 => hashBytes w.a ++ hashBytes neg ++ hashBytes w.b
  | 1 => hashBytes w.b ++ hashBytes w.a ++ hashBytes neg
  | 2 => hashBytes neg ++ hashBytes w.b ++ hashBytes w.a

/-- The hash-based check that all shares in a list are shares of zero: broadcast the digest and compare the
three, `aby3_mal/protocol.rs:257-284, 357-420, 502-528, 614-684`, `spdzwise/protocol.rs:91-128`. -/
def hashZeroVerify {K : Nat} (H : Hash) (me : Party) (ws : List (AShare K)) : Prog Unit := do
  let hashes ← broadcast me (H.h (ws.flatMap (zeroBytes me)))
  let h0 ← Prog.ofExcept (idx hashes 0)
  let h1 ← Prog.ofExcept (idx hashes 1)
  let h2 ← Prog.ofExcept (idx hashes 2)
  if h0 ≠ h1 ∨ h0 ≠ h2 then .fail .verify else pure ()

end Verif
