import Verif.Spec.Pair

/-!
# Specification: the MAC check with a corrupt party

As in `Spec/Pair.lean`, the corrupt party is `i.prev`.
-/

namespace Verif

namespace Spdz

open Jmp

variable {G : Prg} {V : Nat}

/-- What a party draws and computes in `verify_macs` independently of the messages it receives: its shares of the random
coefficients, its components of the two inner products with them, and its share of zero for the final multiplication. -/
def macDraws (values macs : List (AShare V)) : Proto (JmpSt G) (List (AShare V) × List (BitVec V) × BitVec V) := do
  let rands ← genRandMany V values.length
  let cs ← viaPrf (Aby3.dotLoop ([values, macs].zip [rands, rands]))
  let zero ← viaPrf (Aby3.genZero V)
  pure (rands, cs, zero)

/-- What party `k` holds after all have sent their components `c` to their successors, and the corrupt party has sent `z`
instead of its own: own component and predecessor's. (The corrupt party could compute the third line.) -/
def reshared (i : Party) (c : Party → List (BitVec V)) (z : List (BitVec V)) (k : Party) : List (AShare V) :=
  List.zipWith AShare.mk (if k = i.prev then z else c k) (if k = i then z else c k.prev)

/-- A party's component of the product of the combination of the values with the key. -/
def macComponent (comb key : AShare V) (zero : BitVec V) : BitVec V := (comb.mulLocal key).a + zero

/-- The share that is hashed: the product, received as `t` from the predecessor, minus the combination of the MACs. -/
def macCheck (own t : BitVec V) (mac : AShare V) : AShare V := (⟨own, t⟩ : AShare V).sub mac

/-- The strings hashed at the end of `verify_macs` by `i` and `i.next` are a collision, where `c0`, `c1` are the components
of the two inner products, `zero` the shares of zero, `key` those of the key, and `z0`, `z1`, `z2` what `i` got from the
corrupt party. -/
def macCollision (H : Hash) (i : Party) (key : Party → AShare V) (c0 c1 zero : Party → BitVec V) (z0 z1 z2 : BitVec V) :
    Prop :=
  let own := macComponent ⟨c0 i, z0⟩ (key i) (zero i)
  let own' := macComponent ⟨c0 i.next, c0 i⟩ (key i.next) (zero i.next)
  Collision H (zeroBytes i (macCheck own z2 ⟨c1 i, z1⟩)) (zeroBytes i.next (macCheck own' own ⟨c1 i.next, c1 i⟩))

/-- The error of the third value sent by the corrupt party: the difference to its component of the product. -/
def macError (i : Party) (key : Party → AShare V) (c0 zero : Party → BitVec V) (z0 z2 : BitVec V) : BitVec V :=
  z2 - macComponent ⟨z0, c0 i.next⟩ (key i.prev) (zero i.prev)

end Spdz

end Verif
