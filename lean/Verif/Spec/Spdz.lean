import Verif.Spec.Jmp
import Verif.Spec.Triples
import Verif.Model.Spdz

/-!
# Specification: authenticated shares and consistent states of the SPDZ-wise backend
-/

namespace Verif

/-- The parties hold shares of `x` together with shares of its MAC `key · x`. -/
def MacSharesOf {V : Nat} (key x : BitVec V) (s : Party → SShare V) : Prop :=
  SharesOf x (fun i => (s i).value) ∧ SharesOf (key * x) (fun i => (s i).mac)

/-- A consistent joint state: correlated generators and message queues; shares of the MAC key; a queue of values
waiting for verification whose MACs are valid; `p` words of valid precomputed AND triples; `u` bits of AND gates
waiting for verification, all computed correctly. -/
def SpdzOk {G : Prg} {V : Nat} (key : BitVec V) (p u : Nat) (st : Party → SpdzSt G V) : Prop :=
  Jmp.JmpOk (fun i => (st i).jmp) ∧ SharesOf key (fun i => (st i).macKey) ∧
    (∃ xs, Rels (MacSharesOf key) xs fun i => (st i).verifyQueue) ∧
    (TriplesOf p (fun i => (st i).prec.a) (fun i => (st i).prec.b) (fun i => (st i).prec.c) ∧
      ∀ i, (st i).prec.bitsInLast = 128) ∧
    ∃ words bits, TriplesOf words (fun i => (st i).buffer.a) (fun i => (st i).buffer.b) (fun i => (st i).buffer.c) ∧
      (∀ i, (st i).buffer.bitsInLast = bits) ∧ 1 ≤ bits ∧ bits ≤ 128 ∧ 128 * words + bits = u + 128

/-- Blocks of 128 values processed when `n` values are treated in chunks of `cs`. -/
def blocksOf (n cs : Nat) : Nat := n / cs * ((cs + 127) / 128) + (n % cs + 127) / 128

/-- Words of AND triples used by a query over `n` entries in chunks of `cs`: `2K-3` per block of comparisons and one per
block of the final disjunction. -/
def wordsNeeded (K n cs : Nat) : Nat := (2 * K - 3) * blocksOf n cs + (n + 127) / 128

/-- Words of AND triples a query asks for: `⌈n/cs⌉·cs` comparisons of `2K-3` gates and `⌈(n-1)/cs⌉·cs` gates for the
disjunction, rounded up to words. -/
def wordsRequested (K n cs : Nat) : Nat := ((n + cs - 1) / cs * cs * (2 * K - 3) + (n + cs - 2) / cs * cs + 127) / 128

/-- Words available after a request for `req` when `p` words were left: if not more than requested are left, at least
`8192` are generated. -/
def stockAfter (p req : Nat) : Nat := if p ≤ req then p + max (req - p) 8192 else p

/-- The triples suffice for the verification at the end of the query (which consumes at least 8192 words). -/
def EnoughTriples (K n cs p : Nat) : Prop := max (wordsNeeded K n cs) 8192 ≤ stockAfter p (wordsRequested K n cs)

end Verif
