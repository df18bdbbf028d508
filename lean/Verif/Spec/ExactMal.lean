import Verif.Spec.Exact

/-!
# The exact sequence of actions of a party in a query over the malicious variant of ABY3
-/

namespace Verif

/-- What a party does in one round: send a message of `l` bytes to the next party and wait for the previous one; send a digest to
the previous party and wait for the next one; or send a digest to both other parties and wait for both. -/
inductive Move where
  | exchange (l : Nat)
  | digestBack
  | digestAll

/-- The other two parties, in the order of their numbers. -/
def othersOf (me : Party) : List Party := [0, 1, 2].filter (· ≠ me)

/-- The actions of a move. -/
def Move.events (me : Party) : Move → List WireEvent
  | .exchange l => [.sent me.next l, .took me.prev]
  | .digestBack => [.sent me.prev 64, .took me.next]
  | .digestAll => (othersOf me).map (fun d => .sent d 64) ++ (othersOf me).map .took

/-- The bytes sent in a move. -/
def Move.bytes : Move → Nat
  | .exchange l => l
  | .digestBack => 64
  | .digestAll => 128

/-- One move after the other. -/
def moves (me : Party) (ms : List Move) : List WireEvent := ms.flatMap (Move.events me)

/-- Whenever the code `p` of party `me` returns `Ok`, its actions were exactly the moves `ms`, from every local state and
whatever it received. -/
def Moves {σ α : Type} (me : Party) (ms : List Move) (p : Proto σ α) : Prop :=
  ∀ s inbox, ((p s).traffic inbox).finished = true → ((p s).traffic inbox).events = moves me ms

/-- In every execution of the three parties, under every schedule, in which all of them return `Ok`, the actions of every party
were exactly the moves `ms`. -/
def EveryoneMoves {α : Type} (ms : List Move) (p : Party → Prog α) : Prop :=
  ∀ es (c : Config α), Watched (Config.init p) es c → (∀ i, ∃ a, c.prog i = .ret a) → ∀ i, actionsOf i es = moves i ms

/-- Checked products, `n` of them with `l` opened differences, in a ring of `V` bits: the products (each twice), a seed for the
coin, the differences, the digest of the received messages, the digest of the check. -/
def malCheckMoves (V n l : Nat) : List Move :=
  [.exchange (2 * n * byteLen V), .exchange 32, .exchange (l * byteLen V), .digestBack, .digestAll]

/-- An AND of `n` pairs of `K`-bit words: as many checked triples as there are bits, and the openings. -/
def malAndMoves (K n : Nat) : List Move :=
  malCheckMoves (verifWidth 1) (K * n) (K * n) ++ [.exchange (2 * n * byteLen K)]

/-- The addition of `n` triples of `K`-bit words: two ANDs, and `⌈log K⌉` of double size. -/
def malMsbMoves (K n : Nat) : List Move :=
  malAndMoves K n ++ malAndMoves K n ++ (List.replicate (ceilLog2 K) (malAndMoves K (2 * n))).flatten

/-- The tree that combines `n` bits: level by level, at most `cs` bits in an AND. -/
def malOrTreeMoves (cs n : Nat) : List Move :=
  if n > 1 then (chunkSizes (n / 2) cs).flatMap (malAndMoves 1) ++ malOrTreeMoves cs (n / 2 + n % 2) else []
termination_by n
decreasing_by omega

/-- A query of the malicious variant of ABY3 over chunks of the given sizes: the distances and the comparison of every chunk, the
tree, and the opening of the answer between two checks of the received messages. -/
def malQueryMoves (K cs : Nat) (chunks : List Nat) : List Move :=
  (chunks.flatMap fun n => malCheckMoves (verifWidth K) n (12800 * n) ++ malMsbMoves K n)
    ++ (malOrTreeMoves (cs * 128) chunks.sum ++ [.digestBack, .exchange 1, .digestBack])

end Verif
