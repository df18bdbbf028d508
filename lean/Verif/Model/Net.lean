import Mathlib.Logic.Function.Basic
import Mathlib.Logic.Relation
import Mathlib.Data.Fintype.Basic
import Mathlib.Tactic.FinCases

/-!
# Party programs and the three-party network

Models the way `async` protocol code runs over `NetworkTrait`
(`iris-mpc/src/traits/network_trait.rs`, `iris-mpc/src/traits/test_network.rs`,
`iris-mpc/src/aby3/network.rs`).
-/

namespace Verif

/-- A byte on the wire. -/
abbrev Byte := BitVec 8

/-- `bytes::Bytes` / `bytes::BytesMut`: a message. -/
abbrev Bytes := List Byte

/-- A party, `PartyID` in `iris-mpc/src/aby3/id.rs:1-10`. -/
abbrev Party := Fin 3

/-- `PartyID::next_id`, `iris-mpc/src/aby3/id.rs:14-20`. -/
def Party.next : Party → Party
  | 0 => 1
  | 1 => 2
  | 2 => 0

/-- `PartyID::prev_id`, `iris-mpc/src/aby3/id.rs:23-29`. -/
def Party.prev : Party → Party
  | 0 => 2
  | 1 => 0
  | 2 => 1

/-- The error enum of `iris-mpc/src/error.rs:5-63`. Payload strings are dropped; `panic` stands for
an unwinding panic (`unwrap`, `expect`, `todo!`, index out of bounds, division by zero). -/
inductive Err
  | conversion | maskHW | invalidSize | invalidCodeSize | invalidMessageSize
  | invalidCommitment (id : Nat) | jmpVerify | verify | dzkpVerify | notEnoughTriples
  | config | noInverse | serialization | io | idError (id : Nat) | numParty (n : Nat)
  | value | other | panic
  deriving DecidableEq, Repr

/-- One party's protocol code, as the tree of its network interactions.
An `async fn … -> Result<α, Error>` body is a `Prog α`: `ret` is `Ok`, `fail` is the early return of an
`Err` (through `?`) or a panic, `send`/`recv` are the awaited network calls. -/
inductive Prog (α : Type) : Type
  | ret (a : α) : Prog α
  | fail (e : Err) : Prog α
  | send (dst : Party) (m : Bytes) (k : Prog α) : Prog α
  | recv (src : Party) (k : Bytes → Prog α) : Prog α

namespace Prog

/-- Sequencing of `async` code with the `?` operator: an error ends the whole function. -/
def bind {α β : Type} : Prog α → (α → Prog β) → Prog β
  | .ret a, f => f a
  | .fail e, _ => .fail e
  | .send d m k, f => .send d m (bind k f)
  | .recv s k, f => .recv s (fun m => bind (k m) f)

instance : Monad Prog where
  pure := .ret
  bind := bind

@[simp] theorem pure_eq {α : Type} (a : α) : (pure a : Prog α) = .ret a := rfl
@[simp] theorem ret_bind {α β : Type} (a : α) (f : α → Prog β) : (Prog.ret a >>= f) = f a := rfl
@[simp] theorem fail_bind {α β : Type} (e : Err) (f : α → Prog β) :
    (Prog.fail e >>= f) = Prog.fail e := rfl
@[simp] theorem send_bind {α β : Type} (d m) (k : Prog α) (f : α → Prog β) :
    (Prog.send d m k >>= f) = Prog.send d m (k >>= f) := rfl
@[simp] theorem recv_bind {α β : Type} (s) (k : Bytes → Prog α) (f : α → Prog β) :
    (Prog.recv s k >>= f) = Prog.recv s (fun m => k m >>= f) := rfl

theorem bind_ret' {α : Type} (p : Prog α) : p >>= Prog.ret = p := by
  induction p with
  | ret a => rfl
  | fail e => rfl
  | send d m k ih => simp [ih]
  | recv s k ih => simp [ih]

theorem bind_assoc' {α β γ : Type} (p : Prog α) (f : α → Prog β) (g : β → Prog γ) :
    p >>= f >>= g = p >>= fun a => f a >>= g := by
  induction p with
  | ret a => rfl
  | fail e => rfl
  | send d m k ih => simp [ih]
  | recv s k ih => simp [ih]

instance : LawfulMonad Prog :=
  LawfulMonad.mk' Prog
    (id_map := fun p => bind_ret' p)
    (pure_bind := fun _ _ => rfl)
    (bind_assoc := fun p f g => bind_assoc' p f g)

/-- `Result<α, Error>` used with `?` inside `async` code. -/
def ofExcept {α : Type} : Except Err α → Prog α
  | .ok a => .ret a
  | .error e => .fail e

@[simp] theorem ofExcept_ok {α : Type} (a : α) : ofExcept (.ok a) = Prog.ret a := rfl
@[simp] theorem ofExcept_error {α : Type} (e : Err) :
    (ofExcept (.error e) : Prog α) = Prog.fail e := rfl

end Prog

/-- A global state of the three-party system: what each party still has to do and, for every ordered
pair (source, destination), the FIFO channel of messages in flight. The six channels with distinct ends
are those of `TestNetwork3p` (`test_network.rs:10-23`); the QUIC streams of `mpc-net` have the same
ordered, reliable behaviour. -/
@[ext] structure Config (α : Type) where
  prog : Party → Prog α
  chan : Party → Party → List Bytes

/-- Replace the contents of the channel from `s` to `d`. -/
def setChan (ch : Party → Party → List Bytes) (s d : Party) (v : List Bytes) :
    Party → Party → List Bytes :=
  fun s' d' => if s' = s ∧ d' = d then v else ch s' d'

/-- One step of party `i`: a send appends to the tail of the channel and never blocks
(`test_network.rs:121-139`, unbounded channel), a receive takes the head and blocks while the channel is
empty (`test_network.rs:141-165`). -/
inductive Step {α : Type} (i : Party) : Config α → Config α → Prop
  | send {c : Config α} {d : Party} {m : Bytes} {k : Prog α} (h : c.prog i = .send d m k) :
      Step i c ⟨Function.update c.prog i k, setChan c.chan i d (c.chan i d ++ [m])⟩
  | recv {c : Config α} {s : Party} {m : Bytes} {k : Bytes → Prog α} {rest : List Bytes}
      (h : c.prog i = .recv s k) (hc : c.chan s i = m :: rest) :
      Step i c ⟨Function.update c.prog i (k m), setChan c.chan s i rest⟩

/-- A scheduler picks any party that can move. -/
def Step1 {α : Type} (c c' : Config α) : Prop := ∃ i, Step i c c'

/-- Executions of exactly `n` steps. -/
inductive StepsN {α : Type} : Nat → Config α → Config α → Prop
  | zero (c : Config α) : StepsN 0 c c
  | succ {n : Nat} {c c' c'' : Config α} (h : Step1 c c') (t : StepsN n c' c'') : StepsN (n + 1) c c''

/-- The start: all channels empty. -/
def Config.init {α : Type} (p : Party → Prog α) : Config α := ⟨p, fun _ _ => []⟩

/-- No party can move. -/
def Config.Stuck {α : Type} (c : Config α) : Prop := ∀ c', ¬ Step1 c c'

/-- Specification of "under every schedule the run of the programs `p` ends, and it ends in a state
satisfying `Q`": executions are bounded in length, and every reachable state in which nobody can move
satisfies `Q`. -/
def EndsIn {α : Type} (p : Party → Prog α) (Q : Config α → Prop) : Prop :=
  (∃ N, ∀ n c, StepsN n (Config.init p) c → n ≤ N) ∧
  ∀ n c, StepsN n (Config.init p) c → c.Stuck → Q c

/-- Specification of "under every schedule every party `i` returns `Ok (r i)` and all sent messages have
been consumed" (in particular there is no deadlock, no error and no panic). -/
def AllSchedules {α : Type} (p : Party → Prog α) (r : Party → α) : Prop :=
  EndsIn p (fun c => (∀ i, c.prog i = .ret (r i)) ∧ ∀ s d, c.chan s d = [])

/-! ## Channels of limited capacity

A managed channel of `mpc-net` has a queue of 8 write jobs; `send` waits while it is full, and the task behind the queue
waits while the buffers of the QUIC stream are full (`channel.rs:140, 164-176, 184-198`). So in the program that runs over
`mpc-net` a channel holds a limited number of messages (at least 8, more if the messages are short) and a send to a full
channel blocks. -/

/-- One step of party `i` when the channel from `s` to `d` has room for `cap s d` messages. -/
inductive BStep {α : Type} (cap : Party → Party → Nat) (i : Party) : Config α → Config α → Prop
  | send {c : Config α} {d : Party} {m : Bytes} {k : Prog α} (h : c.prog i = .send d m k) (room : (c.chan i d).length < cap i d) :
      BStep cap i c ⟨Function.update c.prog i k, setChan c.chan i d (c.chan i d ++ [m])⟩
  | recv {c : Config α} {s : Party} {m : Bytes} {k : Bytes → Prog α} {rest : List Bytes}
      (h : c.prog i = .recv s k) (hc : c.chan s i = m :: rest) :
      BStep cap i c ⟨Function.update c.prog i (k m), setChan c.chan s i rest⟩

/-- Executions of exactly `n` steps with limited channels. -/
inductive BStepsN {α : Type} (cap : Party → Party → Nat) : Nat → Config α → Config α → Prop
  | zero (c : Config α) : BStepsN cap 0 c c
  | succ {n : Nat} {c c' c'' : Config α} (i : Party) (h : BStep cap i c c') (t : BStepsN cap n c' c'') : BStepsN cap (n + 1) c c''

/-- As `AllSchedules`, with limited channels: executions are bounded in length, and whenever no party can move, because it
has finished, waits for a message or waits for room in a channel, all of them have returned and all channels are empty. -/
def AllSchedulesWithin {α : Type} (cap : Party → Party → Nat) (p : Party → Prog α) (r : Party → α) : Prop :=
  (∃ N, ∀ n c, BStepsN cap n (Config.init p) c → n ≤ N) ∧
  ∀ n c, BStepsN cap n (Config.init p) c → (∀ i c', ¬ BStep cap i c c') →
    (∀ i, c.prog i = .ret (r i)) ∧ ∀ s d, c.chan s d = []

/-! ## The network API used by the protocols -/

/-- `NetworkTrait::send`, `test_network.rs:121-139` (`aby3/network.rs:59-74`): the id must be the next or
previous party. -/
def netSend (me : Party) (id : Nat) (m : Bytes) : Prog Unit :=
  if id = me.next.val then .send me.next m (.ret ())
  else if id = me.prev.val then .send me.prev m (.ret ())
  else .fail .io

/-- `NetworkTrait::receive`, `test_network.rs:141-165` (`aby3/network.rs:92-111`). -/
def netRecv (me : Party) (id : Nat) : Prog Bytes :=
  if id = me.prev.val then .recv me.prev .ret
  else if id = me.next.val then .recv me.next .ret
  else .fail .io

/-- `send_next_id`, `test_network.rs:192-201`. -/
def sendNext (me : Party) (m : Bytes) : Prog Unit := .send me.next m (.ret ())

/-- `send_prev_id`, `test_network.rs:203-212`. -/
def sendPrev (me : Party) (m : Bytes) : Prog Unit := .send me.prev m (.ret ())

/-- `receive_prev_id`, `test_network.rs:214-225`. -/
def recvPrev (me : Party) : Prog Bytes := .recv me.prev .ret

/-- `receive_next_id`, `test_network.rs:227-238`. -/
def recvNext (me : Party) : Prog Bytes := .recv me.next .ret

/-- The sending loop of `broadcast`, `test_network.rs:169-173`. -/
def bcastSend (me : Party) (m : Bytes) : List Nat → Prog Unit
  | [] => .ret ()
  | id :: ids => do
      if id ≠ me.val then netSend me id m
      bcastSend me m ids

/-- The receiving loop of `broadcast`, `test_network.rs:174-180`. -/
def bcastRecv (me : Party) (m : Bytes) : List Nat → Prog (List Bytes)
  | [] => .ret []
  | id :: ids => do
      let x ← if id = me.val then pure m else netRecv me id
      let xs ← bcastRecv me m ids
      pure (x :: xs)

/-- `NetworkTrait::broadcast`, `test_network.rs:167-182` (`aby3/network.rs:141-156`). -/
def broadcast (me : Party) (m : Bytes) : Prog (List Bytes) := do
  bcastSend me m [0, 1, 2]
  bcastRecv me m [0, 1, 2]

/-- `utils::send_and_receive`, `aby3/utils.rs:53-60`: send to the next party, receive from the previous
one. -/
def sendAndReceive (me : Party) (m : Bytes) : Prog Bytes := do
  sendNext me m
  recvPrev me

end Verif
