import Verif.Model.Ring

/-!
# Protocol code with local state, randomness, and list helpers

`&mut self` protocol methods are programs that take and return the local state of the party.
-/

namespace Verif

/-- An `async fn(&mut self, …) -> Result<α, Error>`: local state `σ`, network interactions, errors. -/
abbrev Proto (σ : Type) := StateT σ Prog

namespace Proto

/-- Run network code inside a protocol method. -/
def net {σ α : Type} (p : Prog α) : Proto σ α := fun s => p >>= fun a => .ret (a, s)

/-- `return Err(e)` or a panic. -/
def throw {σ α : Type} (e : Err) : Proto σ α := fun _ => .fail e

/-- `expr?` on a `Result` computed without network interaction. -/
def lift {σ α : Type} (r : Except Err α) : Proto σ α := net (Prog.ofExcept r)

/-- Update the local state and return a value. -/
def step {σ α : Type} (f : σ → α × σ) : Proto σ α := fun s => .ret (f s)

/-- Call a method of a component of the local state (`self.field.method(…)`). -/
def zoom {σ τ α : Type} (get : σ → τ) (set : σ → τ → σ) (p : Proto τ α) : Proto σ α :=
  fun s => p (get s) >>= fun r => .ret (r.1, set s r.2)

end Proto

/-- `Result::unwrap` on the result of awaited code: an error becomes a panic. -/
def Prog.unwrap {α : Type} : Prog α → Prog α
  | .ret a => .ret a
  | .fail _ => .fail .panic
  | .send d m k => .send d m k.unwrap
  | .recv s k => .recv s (fun m => (k m).unwrap)

/-- The same for stateful protocol code. -/
def Proto.unwrap {σ α : Type} (p : Proto σ α) : Proto σ α := fun s => (p s).unwrap

/-- A pseudo-random generator: `ChaCha12Rng` as used in `aby3/random/prf.rs:1-66` and
`swift3/random/prf.rs:1-67`. Nothing is assumed about its outputs: every theorem quantifies over all
generators, so in particular it holds for ChaCha12 under every seed.
`gen K` is `rng.gen::<RingElement<T>>()` for a type of `K` bits; `genSeed` is `rng.gen::<[u8; 32]>()`;
`genRange n` is `rng.gen_range(0..n)`. -/
structure Prg where
  S : Type
  ofSeed : Bytes → S
  gen : (K : Nat) → S → BitVec K × S
  genSeed : S → Bytes × S
  genRange : (n : Nat) → S → Nat × S
  /-- `gen_range(lo..hi)` is below its bound; a seed is an array of 32 bytes. -/
  genRange_lt : ∀ n s, 0 < n → (genRange n s).1 < n
  genSeed_length : ∀ s, (genSeed s).1.length = 32

/-- `[T]::chunks(n)` for `n ≠ 0`: consecutive pieces of `n` elements, the last one possibly shorter. -/
def chunksOf {α : Type} (n : Nat) (l : List α) : List (List α) :=
  if h : n = 0 ∨ l = [] then [] else l.take n :: chunksOf n (l.drop n)
termination_by l.length
decreasing_by
  push Not at h
  have : 0 < l.length := List.length_pos_iff.2 h.2
  simp only [List.length_drop]; omega

/-- `[T]::chunks(n)`: panics for `n = 0`. -/
def chunksE {α : Type} (n : Nat) (l : List α) : Except Err (List (List α)) :=
  if n = 0 then .error .panic else .ok (chunksOf n l)

/-- `v[i]` with the bounds check. -/
def idx {α : Type} (l : List α) (i : Nat) : Except Err α :=
  match l[i]? with
  | some a => .ok a
  | none => .error .panic

end Verif
