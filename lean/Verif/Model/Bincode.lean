import Verif.Model.ZkProof
import Verif.Model.Hash

/-!
# Serialisation with `bincode`

`bincode::serialize` and `bincode::deserialize` (crate `bincode` 1.3, not part of the repository) of the types that the
verification of Swift3 sends (`swift3/protocol.rs:680-690, 1742-1754` and copies): integers in a fixed number of bytes,
least significant first; `bool` as one byte that must be 0 or 1; a `Vec` as its length in 8 bytes followed by the
elements; a struct as the concatenation of its fields. `deserialize` ignores bytes left over at the end. No size limit is
configured.
-/

namespace Verif

/-- Value of bytes, least significant first: `from_le_bytes`. -/
def ofLe : Bytes → Nat
  | [] => 0
  | b :: bs => b.toNat + 256 * ofLe bs

/-- `Serialize` and `Deserialize` through `bincode`; `dec` returns the value and the bytes after it. -/
class Bincode (α : Type) where
  enc : α → Bytes
  dec : Bytes → Option (α × Bytes)

namespace Bincode

/-- `RingElement<T>` (`types/ring_element.rs:173-177`, a newtype) over the integers and over `Bit`
(`types/bit.rs:14-17`); for the integers the range test always succeeds. -/
instance (K : Nat) : Bincode (BitVec K) where
  enc x := leBytes (byteLen K) x.toNat
  dec bs :=
    if bs.length < byteLen K then none
    else
      let v := ofLe (bs.take (byteLen K))
      if v < 2 ^ K then some (BitVec.ofNat K v, bs.drop (byteLen K)) else none

/-- `GF2p64`, `dzkp/gf2p64.rs:84-101`: as a `u64`. -/
instance : Bincode GF2p64 where
  enc x := enc x.get
  dec bs := do
    let (v, bs) ← dec (α := BitVec 64) bs
    pure (GF2p64.new v, bs)

/-- `n` elements of a `Vec`. -/
def decMany {α : Type} [Bincode α] : Nat → Bytes → Option (List α × Bytes)
  | 0, bs => some ([], bs)
  | n + 1, bs => do
      let (x, bs) ← dec bs
      let (xs, bs) ← decMany n bs
      pure (x :: xs, bs)

/-- `Vec<α>`. -/
instance {α : Type} [Bincode α] : Bincode (List α) where
  enc xs := enc (BitVec.ofNat 64 xs.length) ++ xs.flatMap enc
  dec bs := do
    let (n, bs) ← dec (α := BitVec 64) bs
    decMany n.toNat bs

/-- `Poly<T>`, `dzkp/polynomial.rs:33-37`. -/
instance {T : Type} [Bincode T] : Bincode (Poly T) where
  enc p := enc p.coeffs
  dec bs := do
    let (cs, bs) ← dec (α := List T) bs
    pure (⟨cs⟩, bs)

/-- `Proof`, `dzkp/and_proof.rs:38-42`, `dzkp/mul_proof.rs:41-46`, `dzkp/dot_proof.rs:65-70`. -/
instance {T : Type} [Bincode T] : Bincode (ZkPf T) where
  enc p := enc p.w ++ enc p.a
  dec bs := do
    let (w, bs) ← dec (α := List T) bs
    let (a, bs) ← dec (α := List T) bs
    pure (⟨w, a⟩, bs)

/-- `SharedVerify`, `dzkp/and_proof.rs:57-62`, `dzkp/mul_proof.rs:64-70`, `dzkp/dot_proof.rs:94-100`. -/
instance {T : Type} [Bincode T] : Bincode (ZkShared T) where
  enc v := enc v.f ++ enc v.pr ++ enc v.b
  dec bs := do
    let (f, bs) ← dec (α := List T) bs
    let (pr, bs) ← dec (α := T) bs
    let (b, bs) ← dec (α := T) bs
    pure (⟨f, pr, b⟩, bs)

/-- `bincode::deserialize(&bytes).map_err(|_| Error::SerializationError)`. -/
def deserialize (α : Type) [Bincode α] (bs : Bytes) : Except Err α :=
  match dec bs with
  | some (x, _) => .ok x
  | none => .error .serialization

end Bincode

end Verif
