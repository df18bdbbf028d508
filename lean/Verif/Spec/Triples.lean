import Verif.Model.Triples
import Verif.Spec.Sharing

/-!
# Specification: the bits stored in a buffer of AND triples
-/

namespace Verif

/-- Which value of a triple, and which component of its share: `(0, ·)`, `(1, ·)`, `(2, ·)` are `a`, `b`, `c`. -/
abbrev TripleComp := Fin 3 × Bool

/-- A component of a share. -/
def AShare.side {K : Nat} (snd : Bool) (s : AShare K) : BitVec K := if snd then s.b else s.a

/-- One AND gate added to the buffer: its width and its three shares. -/
structure Gate where
  K : Nat
  a : AShare K
  b : AShare K
  c : AShare K

/-- One component of an AND gate. -/
def Gate.comp (g : Gate) : TripleComp → BitVec g.K
  | (0, s) => g.a.side s
  | (1, s) => g.b.side s
  | (2, s) => g.c.side s

/-- The words of one component of a buffer. -/
def Triples.comp (t : Triples) : TripleComp → List (BitVec 128)
  | (0, s) => t.a.map (·.side s)
  | (1, s) => t.b.map (·.side s)
  | (2, s) => t.c.map (·.side s)

/-- The lowest `n` bits of a word, most significant first. -/
def lowBits {K : Nat} (n : Nat) (w : BitVec K) : List Bool := (List.range n).reverse.map w.getLsbD

/-- The bits stored in the words of a buffer: 128 per word, but only `last` in the last word. -/
def readBits (last : Nat) : List (BitVec 128) → List Bool
  | [] => []
  | [w] => lowBits last w
  | w :: ws => lowBits 128 w ++ readBits last ws

/-- Add gates one after the other. -/
def Triples.addGates : Triples → List Gate → Except Err Triples
  | t, [] => .ok t
  | t, g :: gs => do
      let t ← t.addT g.a g.b g.c
      addGates t gs

/-- All positions (number of the gate, bit) of gates of the given widths. -/
def gatePositions (widths : List Nat) : List (Nat × Nat) :=
  widths.zipIdx.flatMap fun p => (List.range p.1).map fun b => (p.2, b)

/-- The bit at a position. -/
def gateBit (gs : List Gate) (c : TripleComp) (p : Nat × Nat) : Bool :=
  (gs[p.1]?).elim false fun g => (g.comp c).getLsbD p.2

/-- Bit number `k` of a list of words. -/
def wordBit (l : List (BitVec 128)) (k : Nat) : Bool := (l.getD (k / 128) 0).getLsbD (k % 128)

/-- The parties hold shares of AND triples: `words` many, with `c = a & b`. -/
def TriplesOf (words : Nat) (a b c : Party → List (AShare 128)) : Prop :=
  ∃ xs ys : List (BitVec 128), xs.length = words ∧ ys.length = words ∧ Rels BinSharesOf xs a ∧
    Rels BinSharesOf ys b ∧ Rels BinSharesOf (List.zipWith (· &&& ·) xs ys) c

/-- The errors of triples: where `c` differs from `a & b`. -/
def errorsOf (a b c : List (BitVec 128)) : List (BitVec 128) := List.zipWith (· ^^^ ·) c (List.zipWith (· &&& ·) a b)

end Verif
