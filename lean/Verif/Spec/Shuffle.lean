import Verif.Model.Proto
import Mathlib.Logic.Equiv.Basic
import Mathlib.Algebra.Group.End
import Mathlib.Data.Finset.Prod

/-!
# Specification: the shuffle of `permute`

`permute` swaps, for `j = 0, 1, 2, …`, position `j` with a position drawn from those from `j` on.
-/

namespace Verif

/-- The numbers `gen_range(j..n) - j` drawn for `j = 0, 1, …, n - 1` from the generator state `s`. -/
def shuffleDraws (G : Prg) : Nat → G.S → List Nat
  | 0, _ => []
  | n + 1, s => (G.genRange (n + 1) s).1 :: shuffleDraws G n (G.genRange (n + 1) s).2

/-- The permutation of positions performed with the given draws: after the shuffle, position `k` holds what was at
position `shuffleOf 0 ds k`. -/
def shuffleOf : Nat → List Nat → Equiv.Perm Nat
  | _, [] => 1
  | j, d :: ds => Equiv.swap (j + d) j * shuffleOf (j + 1) ds

/-- All sequences of draws for `n` positions: the first number is below `n`, the second below `n - 1`, and so on. -/
def drawSeqs : Nat → Finset (List Nat)
  | 0 => {[]}
  | n + 1 => (Finset.range (n + 1) ×ˢ drawSeqs n).image fun p => p.1 :: p.2

end Verif
