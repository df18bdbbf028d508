import Verif.Model.Aby3

/-!
# The buffer of AND triples, `iris-mpc/src/spdzwise/triples.rs`
-/

namespace Verif

/-- `Triples`, `spdzwise/triples.rs:6-12`. -/
structure Triples where
  a : List (AShare 128)
  b : List (AShare 128)
  c : List (AShare 128)
  bitsInLast : Nat

namespace Triples

variable {K : Nat}

/-- `Default`, `spdzwise/triples.rs:14-23`. -/
def empty : Triples := ⟨[], [], [], 128⟩

/-- `new`, `spdzwise/triples.rs:26-36`: panics if the lengths differ. -/
def new (a b c : List (AShare 128)) : Except Err Triples :=
  if a.length ≠ b.length ∨ a.length ≠ c.length then .error .panic else .ok ⟨a, b, c, 128⟩

/-- `len`, `spdzwise/triples.rs:38-42`. -/
def len (t : Triples) : Nat := t.a.length

/-- `get_all`, `spdzwise/triples.rs:45-57`. -/
def getAll (t : Triples) : (List (AShare 128) × List (AShare 128) × List (AShare 128)) × Triples :=
  ((t.a, t.b, t.c), empty)

/-- `get`, `spdzwise/triples.rs:61-81`. (`drain(0..amount)` of `b` and `c` panics if they are shorter than `a`,
which `new`, `extend` and `add_t` exclude.) -/
def get (t : Triples) (amount : Nat) :
    Except Err ((List (AShare 128) × List (AShare 128) × List (AShare 128)) × Triples) :=
  if amount > t.len then .error .notEnoughTriples
  else .ok ((t.a.take amount, t.b.take amount, t.c.take amount),
    ⟨t.a.drop amount, t.b.drop amount, t.c.drop amount, 128⟩)

/-- `extend`, `spdzwise/triples.rs:83-88`. -/
def extend (t other : Triples) : Except Err Triples :=
  if other.bitsInLast ≠ 128 then .error .panic
  else .ok { t with a := t.a ++ other.a, b := t.b ++ other.b, c := t.c ++ other.c }

/-- `RingImpl::upgrade_to_128`, `types/ring_element.rs:150-152`, `types/int_ring.rs:159-161, 216-218, 273-275, 330-332,
387-389, 437-439`: zero extension. -/
def upgrade (x : BitVec K) : BitVec 128 := x.setWidth 128

/-- `push_t`, `spdzwise/triples.rs:90-95`. -/
def pushT (x : AShare K) (buffer : List (AShare 128)) : List (AShare 128) :=
  buffer ++ [⟨upgrade x.a, upgrade x.b⟩]

/-- `buffer.last_mut().expect("Is present")` and an update of that element. -/
def modifyLast (f : AShare 128 → AShare 128) (buffer : List (AShare 128)) : Except Err (List (AShare 128)) :=
  match buffer.getLast? with
  | some x => .ok (buffer.dropLast ++ [f x])
  | none => .error .panic

/-- The update of one component in `add_all_t`, `spdzwise/triples.rs:103-106`. -/
def addAllWord (x : BitVec K) (w : BitVec 128) : BitVec 128 := ringShl w K ||| upgrade x

/-- `add_all_t`, `spdzwise/triples.rs:97-107`. -/
def addAllT (x : AShare K) (buffer : List (AShare 128)) : Except Err (List (AShare 128)) :=
  modifyLast (fun w => ⟨addAllWord x.a w.a, addAllWord x.b w.b⟩) buffer

/-- The update of the last word in `split_and_add_t`, `spdzwise/triples.rs:119-123`. -/
def splitLow (open_ : Nat) (x : BitVec K) (w : BitVec 128) : BitVec 128 :=
  ringShl w open_ ||| (upgrade x &&& (ringShl 1 open_ - 1))

/-- The new word of `split_and_add_t`, `spdzwise/triples.rs:125-127`. -/
def splitHigh (open_ : Nat) (x : BitVec K) : BitVec 128 := ringShr (upgrade x) open_

/-- `split_and_add_t`, `spdzwise/triples.rs:109-128`. -/
def splitAndAddT (x : AShare K) (buffer : List (AShare 128)) (open_ : Nat) : Except Err (List (AShare 128)) := do
  let buffer ← modifyLast (fun w => ⟨splitLow open_ x.a w.a, splitLow open_ x.b w.b⟩) buffer
  pure (buffer ++ [⟨splitHigh open_ x.a, splitHigh open_ x.b⟩])

/-- `add_t`, `spdzwise/triples.rs:130-157`, with `K = T::Share::K`. -/
def addT (t : Triples) (a b c : AShare K) : Except Err Triples :=
  let open_ := 128 - t.bitsInLast
  if open_ = 0 then .ok ⟨pushT a t.a, pushT b t.b, pushT c t.c, K⟩
  else if open_ ≥ K then do
    let a ← addAllT a t.a
    let b ← addAllT b t.b
    let c ← addAllT c t.c
    pure ⟨a, b, c, t.bitsInLast + K⟩
  else do
    let a ← splitAndAddT a t.a open_
    let b ← splitAndAddT b t.b open_
    let c ← splitAndAddT c t.c open_
    pure ⟨a, b, c, K - open_⟩

/-- The loop of `add_many_t`, `spdzwise/triples.rs:169-171`. -/
def addLoop : Triples → List ((AShare K × AShare K) × AShare K) → Except Err Triples
  | t, [] => .ok t
  | t, ((a, b), c) :: rest => do
      let t ← t.addT a b c
      addLoop t rest

/-- `add_many_t`, `spdzwise/triples.rs:159-172`. -/
def addMany (t : Triples) (a b c : List (AShare K)) : Except Err Triples := addLoop t ((a.zip b).zip c)

end Triples

end Verif
