import Verif.Model.Net
import Mathlib.Data.ENat.Basic

/-! # Crashes, loss of connections, and the end of a program

`Aby3Network` over `mpc-net` (`iris-mpc/src/aby3/network.rs:59-156`, `mpc-net/src/lib.rs:216-225`,
`mpc-net/src/channel.rs:140-230`) when parties may stop and connections may break. -/

namespace Verif

open Function

/-- What may go wrong: nothing, and connections end only when both parties have stopped (`orderly`); nothing, but a party that
stops closes its connections at once, as `finish` does (`abrupt`); crashes and loss of connections at any point (`faulty`). -/
inductive Mode | orderly | abrupt | faulty
  deriving DecidableEq

/-- The state of the system: as `Config`, with the parties that have crashed and the directions of connections that are closed. -/
@[ext] structure FConfig (α : Type) where
  prog : Party → Prog α
  chan : Party → Party → List Bytes
  down : Party → Bool
  closed : Party → Party → Bool

/-- The start: nobody has crashed, all connections are open and empty. -/
def FConfig.init {α : Type} (p : Party → Prog α) : FConfig α := ⟨p, fun _ _ => [], fun _ => false, fun _ _ => false⟩

/-- The party runs no protocol code any more: it has crashed, or its code has returned `Ok` or `Err`. -/
def FConfig.Stopped {α : Type} (c : FConfig α) (i : Party) : Prop :=
  c.down i = true ∨ (∃ a, c.prog i = .ret a) ∨ ∃ e, c.prog i = .fail e

/-- Replace the status of the connection from `s` to `d`. -/
def setClosed (cl : Party → Party → Bool) (s d : Party) : Party → Party → Bool :=
  fun s' d' => if s' = s ∧ d' = d then true else cl s' d'

/-- One step, where the channel from `s` to `d` has room for `cap s d` messages (`⊤`: unlimited).
* `send`: as in `BStep`.
* `sendClosed`: the write job fails, and the status is dropped (`network.rs:61-63, 76-90`): the program continues.
* `recv`: a message that has arrived is delivered.
* `recvClosed`: at the end of a closed stream the read job reports an error (`channel.rs:146-150`), which `receive` passes on
  (`network.rs:103-110`) and `?` makes the result of the program.
* `close`: one direction of a connection ends because an end has stopped: `MpcNetworkHandler::shutdown` (`lib.rs:216-225`, called
  by `finish`) and dropping the handler close connections, and that of a crashed process ends by its idle time-out. Messages
  in flight may be lost; the first `keep` of them arrive. If `orderly`, only when both ends have stopped.
* `lost`, `crash`: a connection breaks, a party stops, at any moment (`faulty` only). -/
inductive FStep {α : Type} (cap : Party → Party → ℕ∞) (mode : Mode) : FConfig α → FConfig α → Prop
  | send {c : FConfig α} {i d : Party} {m : Bytes} {k : Prog α} (up : c.down i = false) (h : c.prog i = .send d m k)
      (op : c.closed i d = false) (room : ((c.chan i d).length : ℕ∞) < cap i d) :
      FStep cap mode c ⟨update c.prog i k, setChan c.chan i d (c.chan i d ++ [m]), c.down, c.closed⟩
  | sendClosed {c : FConfig α} {i d : Party} {m : Bytes} {k : Prog α} (up : c.down i = false) (h : c.prog i = .send d m k)
      (cl : c.closed i d = true) : FStep cap mode c ⟨update c.prog i k, c.chan, c.down, c.closed⟩
  | recv {c : FConfig α} {i s : Party} {m : Bytes} {k : Bytes → Prog α} {rest : List Bytes} (up : c.down i = false)
      (h : c.prog i = .recv s k) (hc : c.chan s i = m :: rest) :
      FStep cap mode c ⟨update c.prog i (k m), setChan c.chan s i rest, c.down, c.closed⟩
  | recvClosed {c : FConfig α} {i s : Party} {k : Bytes → Prog α} (up : c.down i = false) (h : c.prog i = .recv s k)
      (hc : c.chan s i = []) (cl : c.closed s i = true) :
      FStep cap mode c ⟨update c.prog i (.fail .io), c.chan, c.down, c.closed⟩
  | close {c : FConfig α} {s d : Party} (keep : Nat) (op : c.closed s d = false) (h : c.Stopped s ∨ c.Stopped d)
      (ho : mode = .orderly → c.Stopped s ∧ c.Stopped d) :
      FStep cap mode c ⟨c.prog, setChan c.chan s d ((c.chan s d).take keep), c.down, setClosed c.closed s d⟩
  | lost {c : FConfig α} {s d : Party} (keep : Nat) (op : c.closed s d = false) (hm : mode = .faulty) :
      FStep cap mode c ⟨c.prog, setChan c.chan s d ((c.chan s d).take keep), c.down, setClosed c.closed s d⟩
  | crash {c : FConfig α} {i : Party} (up : c.down i = false) (hm : mode = .faulty) :
      FStep cap mode c ⟨c.prog, c.chan, update c.down i true, c.closed⟩

/-- Executions of exactly `n` steps. -/
inductive FStepsN {α : Type} (cap : Party → Party → ℕ∞) (mode : Mode) : Nat → FConfig α → FConfig α → Prop
  | zero (c : FConfig α) : FStepsN cap mode 0 c c
  | succ {n : Nat} {c c' c'' : FConfig α} (t : FStepsN cap mode n c c') (h : FStep cap mode c' c'') :
      FStepsN cap mode (n + 1) c c''

/-- Nothing more happens by itself: no party can move, and the connections of the parties that have stopped are closed. -/
def FConfig.Quiet {α : Type} (cap : Party → Party → ℕ∞) (c : FConfig α) : Prop := ∀ c', ¬ FStep cap .abrupt c c'

end Verif
