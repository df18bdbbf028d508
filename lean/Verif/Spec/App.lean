import Verif.Model.App
import Verif.Spec.Iris

/-!
# Specification vocabulary: draws of a generator, databases that the creation program makes
-/

namespace Verif

/-- The generator after `n` draws. -/
def after {S α : Type} (f : S → α × S) : Nat → S → S
  | 0, s => s
  | n + 1, s => after f n (f s).2

/-- The draw number `n`, counted from 0. -/
def drawAt {S α : Type} (f : S → α × S) (n : Nat) (s : S) : α := (f (after f n s)).1

namespace App

/-- The databases that runs of `create_sample_data` for ABY3 make out of an empty one, with any numbers of entries and
any generator states. -/
inductive Aby3Db (R : AppRng) : List AbyRow → Prop
  | empty : Aby3Db R []
  | create {n : Nat} {s s' : R.S} {db db' : List AbyRow} (h : Aby3Db R db) (hc : createAby3 R n s db = .ok (db', s')) :
      Aby3Db R db'

/-- The same for Swift3. -/
inductive Swift3Db (R : AppRng) : List Swift3Row → Prop
  | empty : Swift3Db R []
  | create {n : Nat} {s s' : R.S} {db db' : List Swift3Row} (h : Swift3Db R db)
      (hc : createSwift3 R n s db = .ok (db', s')) : Swift3Db R db'

/-- The database that one run of `create_sample_data` for SPDZ-wise makes. -/
def SpdzDbNew (R : AppRng) (db : SpdzDb) : Prop :=
  ∃ n s s', createSpdz R n s ⟨[], []⟩ = .ok (db, s')

end App

end Verif
