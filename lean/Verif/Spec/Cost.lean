import Verif.Spec.Traffic

/-!
# How many bytes a party sends
-/

namespace Verif

/-- The bytes sent in one action. -/
def WireEvent.bytes : WireEvent → Nat
  | .sent _ n => n
  | .took _ => 0

/-- The bytes sent in a list of actions. -/
def bytesSent (es : List WireEvent) : Nat := (es.map WireEvent.bytes).sum

/-- Whenever the code `p` returns `Ok`, it has sent exactly `n` bytes, from every local state and whatever it received. -/
def SendsBytes {σ α : Type} (n : Nat) (p : Proto σ α) : Prop :=
  ∀ s inbox, ((p s).traffic inbox).finished = true → bytesSent ((p s).traffic inbox).events = n

/-- In every execution of the three parties, under every schedule, in which all of them return `Ok`, every party has sent
exactly `n` bytes. -/
def EveryoneSends {α : Type} (n : Nat) (p : Party → Prog α) : Prop :=
  ∀ es (c : Config α), Watched (Config.init p) es c → (∀ i, ∃ a, c.prog i = .ret a) → ∀ i, bytesSent (actionsOf i es) = n

/-- The 128-bit words that `n` bits fill. -/
def wordsOf (n : Nat) : Nat := (n + 127) / 128

/-- What each party sends in an ABY3 query over chunks of the given numbers of entries: for each entry one ring element (the dot
product), for each chunk the gates of the comparison, `2K - 3` words per 128 entries, then one word less than the results fill
for combining them, 22 bytes for combining the bits of the last word, and one byte for opening the answer. -/
def aby3QueryBytes (K : Nat) (chunks : List Nat) : Nat :=
  (chunks.map fun n => n * byteLen K + 16 * ((2 * K - 3) * wordsOf n)).sum + 16 * (wordsOf chunks.sum - 1) + 22 + 1

/-- The sizes of the chunks into which `n` entries are divided: full chunks and a rest. -/
def chunkSizes (n cs : Nat) : List Nat := List.replicate (n / cs) cs ++ if n % cs = 0 then [] else [n % cs]

end Verif

namespace Verif

/-! ## The malicious variant of ABY3 -/

/-- What each party sends for `n` checked multiplications of single bits: three 64-bit elements for each, and once a seed, a
digest to the previous party and a digest to both others. -/
def malTripleBytes (n : Nat) : Nat := 24 * n + 32 + 64 + 128

/-- What each party sends for an AND of `n` pairs of `K`-bit words: the triples, and two words for each pair. -/
def malAndBytes (K n : Nat) : Nat := malTripleBytes (K * n) + 2 * n * byteLen K

/-- What each party sends for dot products of `n` pairs of vectors with `l` elements altogether, checked in a ring of `V` bits:
two elements for each pair, and one for every element of the vectors. -/
def malDotBytes (V n l : Nat) : Nat := (2 * n + l) * byteLen V + 32 + 64 + 128

/-- What each party sends for the addition of `n` triples of `K`-bit words: two ANDs and `⌈log K⌉` double ones. -/
def malMsbBytes (K n : Nat) : Nat := 2 * malAndBytes K n + ceilLog2 K * malAndBytes K (2 * n)

/-- The number of calls with which `n` bits are combined, at most `cs` gates in a call: the gates of a level of the tree are
`n / 2`. -/
def orTreeCalls (cs n : Nat) : Nat :=
  if n > 1 then (n / 2 + cs - 1) / cs + orTreeCalls cs (n / 2 + n % 2) else 0
termination_by n
decreasing_by omega

/-- What each party sends in a query of the malicious variant of ABY3. -/
def malQueryBytes (K cs : Nat) (chunks : List Nat) : Nat :=
  (chunks.map fun n => malDotBytes (verifWidth K) n (12800 * n) + malMsbBytes K n).sum
    + (26 * (chunks.sum - 1) + 224 * orTreeCalls (cs * 128) chunks.sum) + 129

end Verif
