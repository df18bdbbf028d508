import Verif.Spec.Cost

/-!
# The exact sequence of actions of a party in an ABY3 query
-/

namespace Verif

/-- One exchange after the other: send to the next party, then wait for the previous one; `ls` are the lengths of the messages
sent. -/
def exchanges (me : Party) (ls : List Nat) : List WireEvent := ls.flatMap fun l => [.sent me.next l, .took me.prev]

/-- Whenever the code `p` of party `me` returns `Ok`, its actions were exactly the exchanges `ls`, from every local state and
whatever it received. -/
def Exchanges {σ α : Type} (me : Party) (ls : List Nat) (p : Proto σ α) : Prop :=
  ∀ s inbox, ((p s).traffic inbox).finished = true → ((p s).traffic inbox).events = exchanges me ls

/-- In every execution of the three parties, under every schedule, in which all of them return `Ok`, the actions of every party
were exactly the exchanges `ls`. -/
def EveryoneExchanges {α : Type} (ls : List Nat) (p : Party → Prog α) : Prop :=
  ∀ es (c : Config α), Watched (Config.init p) es c → (∀ i, ∃ a, c.prog i = .ret a) → ∀ i, actionsOf i es = exchanges i ls

/-- The messages of the comparison of `n` values: the first layer of carries for all bit positions but the last, then one
position after the other. -/
def aby3MsbMsgs (K n : Nat) : List Nat := (K - 1) * wordsOf n * 16 :: List.replicate (K - 2) (wordsOf n * 16)

/-- The messages of the tree that combines `n` words: level by level, at most `cs` words in a message. -/
def orTreeMsgs (cs n : Nat) : List Nat :=
  if n > 1 then (chunkSizes (n / 2) cs).map (· * 16) ++ orTreeMsgs cs (n / 2 + n % 2) else []
termination_by n
decreasing_by omega

/-- The messages of an ABY3 query over chunks of the given sizes: for each chunk the dot products and the comparison, then the
tree, the bits of the last word in seven steps, and the answer. -/
def aby3QueryMsgs (K cs : Nat) (chunks : List Nat) : List Nat :=
  (chunks.flatMap fun n => n * byteLen K :: aby3MsbMsgs K n) ++ (orTreeMsgs cs (wordsOf chunks.sum) ++ [8, 4, 2, 1, 4, 2, 1]) ++ [1]

end Verif
