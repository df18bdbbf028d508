import Verif.Model.MpcNet

/-! # What a user expects from network establishment -/

namespace Verif

/-- A sensible deployment: at least two parties `ps` with distinct ids that fit into 32 bits; every
party is started with its own id and a configuration file naming the same parties, in any order. -/
structure NetSetup (ps : List Nat) (cfg : Nat → NetConfig) : Prop where
  nodup : ps.Nodup
  two : 2 ≤ ps.length
  small : ∀ p ∈ ps, p < 2 ^ 32
  me : ∀ p ∈ ps, (cfg p).myId = p
  perm : ∀ p ∈ ps, (cfg p).parties.Perm ps

/-- Every party has exactly one entry for every other party, and the entries of two parties for each
other are the two ends of one and the same connection, between those two parties. -/
def Paired (ps : List Nat) (m : Nat → List (Nat × Conn)) : Prop :=
  ∀ p ∈ ps, ((m p).map Prod.fst).Perm (ps.erase p) ∧
    ∀ q ∈ ps, q ≠ p → ∃ c, (q, c) ∈ m p ∧ (p, c) ∈ m q ∧ c.client = max p q ∧ c.server = min p q

end Verif
