import Verif.Spec.PrivacyMal
import Verif.Spec.Iris
import Verif.Spec.Spdz
import Verif.Model.Iris
import Verif.Model.Swift3Verify

/-!
# Specification: a session of queries

A deployment answers one query after the other with the same connection and the same random generators; the database may
be the same or another one (new entries are enrolled).
-/

namespace Verif

/-- One query of a session: the code, the database, and the shares of both that the parties hold. -/
structure Request (A : Type) where
  q : IrisCode
  db : List IrisCode
  a : Party → List A
  b : Party → List (List A)

/-- The shares are shares (in the sense of `R`) of the query and of the database, which has at least one entry; every entry
has enough bits in common with the query (otherwise the query is rejected in the clear). -/
def Request.Ok {A : Type} {W : Nat} (R : BitVec W → (Party → A) → Prop) (r : Request A) : Prop :=
  r.db ≠ [] ∧ (∀ c ∈ r.db, 8960 ≤ commonBits c r.q) ∧ Rels R (encode W r.q.code) r.a ∧
    Rels (Rels R) (r.db.map fun c => encode W c.code) r.b

/-- Party `i` cannot tell the two queries apart by what it is given and by the answer: same masks, same shares, same
answer. The codes, and the shares of the other parties, may differ. -/
def Request.Alike {A : Type} (i : Party) (r r' : Request A) : Prop :=
  r.q.mask = r'.q.mask ∧ (r.db.map fun c => c.mask) = r'.db.map (fun c => c.mask) ∧ r.a i = r'.a i ∧ r.b i = r'.b i ∧
    inDb r.q r.db = inDb r'.q r'.db

/-- The queries of a session, one after the other: `iris_in_db` is called for each of them on the same backend. -/
def session {σ A B : Type} {K : Nat} (ops : MpcOps σ A B K) (cs : Nat) (j : Party) :
    List (Request A) → Proto σ (List Bool)
  | [] => pure []
  | r :: rs => do
    let x ← Iris.irisInDb ops (r.a j) (r.b j) r.q.mask (r.db.map fun c => c.mask) cs
    let xs ← session ops cs j rs
    pure (x :: xs)

/-- The triples of the SPDZ-wise backend suffice for queries over databases of the given sizes, one after the other, if the
session starts with `p` words: what a query does not use is left for the next one. -/
def SessionEnough (K cs : Nat) : Nat → List Nat → Prop
  | _, [] => True
  | p, n :: ns => EnoughTriples K n cs p ∧
      SessionEnough K cs (stockAfter p (wordsRequested K n cs) - max (wordsNeeded K n cs) 8192) ns

/-- A session over Swift3. Every verification has its own local random generators. -/
def swift3Session {G : Prg} (H : Hash) (K : Nat) (signed : Bool) (cs : Nat) (j : Party) :
    List ((Party → G.S × G.S × G.S) × Request (S3Share K)) → Proto (S3St G K) (List Bool)
  | [] => pure []
  | (g, r) :: rs => do
    let x ← Iris.irisInDb (Swift3.ops G H K signed (Swift3.verify H j (g j).1 (g j).2.1 (g j).2.2) j) (r.a j) (r.b j) r.q.mask
      (r.db.map fun c => c.mask) cs
    let xs ← swift3Session H K signed cs j rs
    pure (x :: xs)

/-- The gates registered in a Swift3 session stay within the limits of the proofs. Registered gates are never removed, and
every verification adds padding: at most `2^22` AND gates, and dot products up to the square root of the size of the proof.
`u` and `d` bound the AND gates and dot products registered before. -/
def SessionFits : Nat → Nat → List Nat → Prop
  | _, _, [] => True
  | u, d, n :: ns => u + 1100 * n ≤ 2 ^ 44 ∧ 51202 * (d + n) ≤ 2 ^ 44 ∧
      SessionFits (u + 1100 * n + 2 ^ 22) (d + n + ceilSqrt (51202 * (d + n))) ns

end Verif
