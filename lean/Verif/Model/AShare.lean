import Verif.Model.Fam
import Verif.Model.Plain

/-!
# Replicated shares, the pairwise PRF, and the exchange helpers of `aby3/utils.rs`
-/

namespace Verif

/-- `aby3::share::Share<T>`, `aby3/share.rs:21-27`: `x = x1 + x2 + x3`, party `i` holds `(x_i, x_{i-1})`. -/
@[ext] structure AShare (K : Nat) where
  a : BitVec K
  b : BitVec K

namespace AShare

variable {K : Nat}

/-- `Zero`, `aby3/share.rs:546-553`; also `Default`. -/
def zero (K : Nat) : AShare K := ⟨0, 0⟩

/-- `Add`, `aby3/share.rs:125-161`. -/
def add (x y : AShare K) : AShare K := ⟨x.a + y.a, x.b + y.b⟩

/-- `Sub`, `aby3/share.rs:163-205`. -/
def sub (x y : AShare K) : AShare K := ⟨x.a - y.a, x.b - y.b⟩

/-- `Neg`, `aby3/share.rs:333-343`. -/
def neg (x : AShare K) : AShare K := ⟨-x.a, -x.b⟩

/-- `Mul<RingElement>`, `aby3/share.rs:207-255`. -/
def mulConst (x : AShare K) (c : BitVec K) : AShare K := ⟨x.a * c, x.b * c⟩

/-- `Mul`, the local part of the multiplication, `aby3/share.rs:288-331`. -/
def mulLocal (x y : AShare K) : AShare K := ⟨x.a * y.a + x.a * y.b + x.b * y.a, 0⟩

/-- `BitXor`, `aby3/share.rs:351-387`. -/
def xor (x y : AShare K) : AShare K := ⟨x.a ^^^ y.a, x.b ^^^ y.b⟩

/-- `BitAnd`, the local part of the AND, `aby3/share.rs:390-433`. -/
def andLocal (x y : AShare K) : AShare K := ⟨(x.a &&& y.a) ^^^ (x.a &&& y.b) ^^^ (x.b &&& y.a), 0⟩

/-- `BitAnd<RingElement>`, `aby3/share.rs:435-483`. -/
def andConst (x : AShare K) (c : BitVec K) : AShare K := ⟨x.a &&& c, x.b &&& c⟩

/-- `Not`, `aby3/share.rs:515-525`. -/
def not (x : AShare K) : AShare K := ⟨~~~x.a, ~~~x.b⟩

/-- `Shl<u32>`, `aby3/share.rs:527-544`. -/
def shl (x : AShare K) (n : Nat) : AShare K := ⟨ringShl x.a n, ringShl x.b n⟩

/-- `get_msb`, `aby3/share.rs:82-88`. -/
def getMsb (x : AShare K) : AShare 1 := ⟨Verif.getMsb x.a, Verif.getMsb x.b⟩

/-- `to_bits`, `aby3/share.rs:60-68`. -/
def toBits (x : AShare K) : List (AShare 1) := List.zipWith AShare.mk (Verif.toBits x.a) (Verif.toBits x.b)

/-- `to_verificationtype`, `aby3/share.rs:51-58`. -/
def toVerif (V : Nat) (x : AShare K) : AShare V := ⟨Verif.toVerif V x.a, Verif.toVerif V x.b⟩

/-- `from_verificationtype`, `aby3/share.rs:42-49`. -/
def fromVerif {V : Nat} (K : Nat) (x : AShare V) : AShare K := ⟨Verif.fromVerif K x.a, Verif.fromVerif K x.b⟩

/-- `add_const`, `aby3/share.rs:90-101`. -/
def addConst (x : AShare K) (c : BitVec K) (id : Party) : AShare K :=
  match id with
  | 0 => ⟨x.a + c, x.b⟩
  | 1 => ⟨x.a, x.b + c⟩
  | 2 => x

/-- `sub_const`, `aby3/share.rs:103-114`. -/
def subConst (x : AShare K) (c : BitVec K) (id : Party) : AShare K :=
  match id with
  | 0 => ⟨x.a - c, x.b⟩
  | 1 => ⟨x.a, x.b - c⟩
  | 2 => x

/-- `xor_assign_const`, `aby3/share.rs:116-122`. -/
def xorConst (x : AShare K) (c : BitVec K) (id : Party) : AShare K :=
  match id with
  | 0 => ⟨x.a ^^^ c, x.b⟩
  | 1 => ⟨x.a, x.b ^^^ c⟩
  | 2 => x

/-- Componentwise treatment of a list of shares, used by `pack` (`aby3/protocol.rs:90-107`),
`transpose_shared_input` (`aby3/utils.rs:366-384`), `to_bits` and `split`: the `a` components and the `b`
components go through the same rearrangement. -/
def mapLists {L : Nat} (f : List (BitVec K) → List (BitVec L)) (l : List (AShare K)) : List (AShare L) :=
  List.zipWith AShare.mk (f (l.map (·.a))) (f (l.map (·.b)))

/-- The filtered fold of `filter_reduce_add_twice`, `aby3/vecshare.rs:22-31`, from position `i`;
`get_bit` panics past the end of the mask. -/
def filterSum (mask : IrisCodeArray) : Nat → AShare K → List (AShare K) → Except Err (AShare K)
  | _, acc, [] => .ok acc
  | i, acc, x :: xs => do
      let bit ← mask.getBit i
      filterSum mask (i + 1) (if bit then acc.add x else acc) xs

/-- `filter_reduce_add_twice`, `aby3/vecshare.rs:13-33`. -/
def filterReduceAddTwice (a b : List (AShare K)) (mask : IrisCodeArray) :
    Except Err (AShare K × AShare K) :=
  if a.isEmpty ∨ a.length ≠ b.length then .error .invalidCodeSize
  else do
    let sa ← filterSum mask 0 (zero K) a
    let sb ← filterSum mask 0 (zero K) b
    pure (sa, sb)

end AShare

/-! ## The pairwise PRF -/

/-- `Prf`, `aby3/random/prf.rs:8-11`. -/
structure Prf (G : Prg) where
  my : G.S
  next : G.S

namespace Prf

variable {G : Prg}

/-- `Prf::new`, `aby3/random/prf.rs:23-28`. -/
def new (myKey nextKey : Bytes) : Prf G := ⟨G.ofSeed myKey, G.ofSeed nextKey⟩

/-- `gen_rands`, `aby3/random/prf.rs:35-42`. -/
def genRands (K : Nat) (p : Prf G) : (BitVec K × BitVec K) × Prf G :=
  (((G.gen K p.my).1, (G.gen K p.next).1), ⟨(G.gen K p.my).2, (G.gen K p.next).2⟩)

/-- `gen_rand`, `aby3/random/prf.rs:44-49`. -/
def genRand (K : Nat) (p : Prf G) : AShare K × Prf G :=
  let ((a, b), p) := p.genRands K
  (⟨a, b⟩, p)

/-- `gen_zero_share`, `aby3/random/prf.rs:51-57`. -/
def genZeroShare (K : Nat) (p : Prf G) : BitVec K × Prf G :=
  let ((a, b), p) := p.genRands K
  (a - b, p)

/-- `gen_binary_zero_share`, `aby3/random/prf.rs:59-65`. -/
def genBinaryZeroShare (K : Nat) (p : Prf G) : BitVec K × Prf G :=
  let ((a, b), p) := p.genRands K
  (a ^^^ b, p)

end Prf

/-! ## Exchange helpers, `aby3/utils.rs` -/

/-- `send_and_receive_value`, `aby3/utils.rs:62-68`. -/
def sendAndReceiveValue {K : Nat} (me : Party) (x : BitVec K) : Prog (BitVec K) := do
  let response ← sendAndReceive me (toBytes x)
  Prog.ofExcept (fromBytes K response)

/-- `send_slice_and_receive_iter`, `aby3/utils.rs:97-104`, and `send_iter_and_receive_iter`,
`aby3/utils.rs:124-131`. -/
def sendSliceAndReceiveIter {K : Nat} (me : Party) (xs : List (BitVec K)) : Prog (List (BitVec K)) := do
  let response ← sendAndReceive me (ringSliceToBytes xs)
  Prog.ofExcept (ringIterFromBytes K response xs.length)

/-- `send_slice_and_receive_vec`, `aby3/utils.rs:70-77`. -/
def sendSliceAndReceiveVec {K : Nat} (me : Party) (xs : List (BitVec K)) : Prog (List (BitVec K)) := do
  let response ← sendAndReceive me (ringSliceToBytes xs)
  Prog.ofExcept (ringVecFromBytes K response xs.length)

/-- `send_slices_and_receive_iters`, `aby3/utils.rs:80-95`. -/
def sendSlicesAndReceiveIters {K : Nat} (me : Party) (xs ys : List (BitVec K)) :
    Prog (List (BitVec K) × List (BitVec K)) := do
  sendNext me (ringSliceToBytes xs)
  sendNext me (ringSliceToBytes ys)
  let r1 ← recvPrev me
  let r2 ← recvPrev me
  let a ← Prog.ofExcept (ringIterFromBytes K r1 xs.length)
  let b ← Prog.ofExcept (ringIterFromBytes K r2 ys.length)
  pure (a, b)

/-- `send_value`, `aby3/utils.rs:133-139`. -/
def sendValue {K : Nat} (me : Party) (x : BitVec K) (id : Nat) : Prog Unit := netSend me id (toBytes x)

/-- `send_value_next`, `aby3/utils.rs:141-146`. -/
def sendValueNext {K : Nat} (me : Party) (x : BitVec K) : Prog Unit := sendNext me (toBytes x)

/-- `send_value_prev`, `aby3/utils.rs:148-153`. -/
def sendValuePrev {K : Nat} (me : Party) (x : BitVec K) : Prog Unit := sendPrev me (toBytes x)

/-- `receive_value`, `aby3/utils.rs:155-161`. -/
def receiveValue (K : Nat) (me : Party) (id : Nat) : Prog (BitVec K) := do
  let response ← netRecv me id
  Prog.ofExcept (fromBytes K response)

/-- `receive_value_prev`, `aby3/utils.rs:163-168`. -/
def receiveValuePrev (K : Nat) (me : Party) : Prog (BitVec K) := do
  let response ← recvPrev me
  Prog.ofExcept (fromBytes K response)

/-- `receive_value_next`, `aby3/utils.rs:170-175`. -/
def receiveValueNext (K : Nat) (me : Party) : Prog (BitVec K) := do
  let response ← recvNext me
  Prog.ofExcept (fromBytes K response)

/-- `send_vec`, `aby3/utils.rs:177-183`. -/
def sendVec {K : Nat} (me : Party) (xs : List (BitVec K)) (id : Nat) : Prog Unit :=
  netSend me id (ringSliceToBytes xs)

/-- `send_vec_next`, `aby3/utils.rs:185-190`. -/
def sendVecNext {K : Nat} (me : Party) (xs : List (BitVec K)) : Prog Unit :=
  sendNext me (ringSliceToBytes xs)

/-- `receive_vec`, `aby3/utils.rs:200-207`. -/
def receiveVec (K : Nat) (me : Party) (id len : Nat) : Prog (List (BitVec K)) := do
  let response ← netRecv me id
  Prog.ofExcept (ringVecFromBytes K response len)

/-- `receive_vec_prev`, `aby3/utils.rs:209-215`. -/
def receiveVecPrev (K : Nat) (me : Party) (len : Nat) : Prog (List (BitVec K)) := do
  let response ← recvPrev me
  Prog.ofExcept (ringVecFromBytes K response len)

end Verif
