import Verif.Model.Plain

/-!
# Specification: bits of iris codes, valid positions, Hamming distance
-/

namespace Verif

/-- Specification: bit `i` (of 12800) of an iris code array. -/
def IrisCodeArray.bitAt (c : IrisCodeArray) (i : Fin 12800) : Bool :=
  (c[i.val / 64]'(by omega)).getLsbD (i.val % 64)

/-- Specification of the bit sequence of an array. -/
def IrisCodeArray.bitList (c : IrisCodeArray) : List Bool := List.ofFn c.bitAt

/-- Specification: positions valid in both irises. -/
def commonBits (a b : IrisCode) : Nat :=
  (List.finRange 12800).countP fun i => a.mask.bitAt i && b.mask.bitAt i

/-- Specification: valid positions where the codes differ. -/
def hammingDistance (a b : IrisCode) : Nat :=
  (List.finRange 12800).countP fun i =>
    (a.code.bitAt i != b.code.bitAt i) && (a.mask.bitAt i && b.mask.bitAt i)

/-- Specification: the bits of a code as ring elements 0 and 1, which is what is shared. -/
def encode (K : Nat) (c : IrisCodeArray) : List (BitVec K) := c.bitList.map fun b => if b then 1 else 0

/-- Specification of the answer to a query: some entry of the database differs from the query in fewer than
`⌊34% ⌋` of the positions valid in both. -/
def inDb (q : IrisCode) (db : List IrisCode) : Bool :=
  db.any fun c => decide (hammingDistance c q < 34 * commonBits c q / 100)

end Verif
