import Verif.Model.Net
import Mathlib.Data.List.Dedup
import Mathlib.Data.List.Perm.Basic

/-!
# `mpc-net`: configuration check and connection establishment

Models `mpc-net/src/config.rs` and the `establish` / `get_custom_channels` handshakes of
`mpc-net/src/lib.rs`, as a transition system of any number of parties.

Assumed, not modelled: TLS, certificates and file reading (they succeed), address resolution
(connecting to the address listed for id `q` reaches party `q`), timeouts (60 s idle timeout), and
connection loss. QUIC is modelled as: a client's connection attempt completes once the server's endpoint
is bound; the server may see completed connections in any order; streams are reliable.
-/

namespace Verif

/-- `NetworkConfig`, `mpc-net/src/config.rs:14-19`, with a party entry (`:5-12`) reduced to its id. -/
structure NetConfig where
  parties : List Nat
  myId : Nat

/-- `Vec::dedup` (std): drops elements equal to their predecessor. -/
def vecDedup : List Nat → List Nat
  | [] => []
  | [a] => [a]
  | a :: b :: l => if a = b then vecDedup (b :: l) else a :: vecDedup (b :: l)

/-- `NetworkConfig::check_config`, `mpc-net/src/config.rs:22-43`. `sort_unstable` on `usize` is the sorted
permutation. -/
def checkConfig (c : NetConfig) : Except Err Unit :=
  match c.parties.find? (fun id => id == c.myId) with
  | none => .error .other
  | some _ =>
    let ids := vecDedup (c.parties.mergeSort (fun a b => decide (a ≤ b)))
    if ids.length ≠ c.parties.length then .error .other else .ok ()

/-- A QUIC connection. `serial` distinguishes connections between the same two parties (each client
connection has its own OS-picked port, `mpc-net/src/lib.rs:39`). -/
structure Conn where
  client : Nat
  server : Nat
  serial : Nat
  deriving DecidableEq

/-- Where a party is in `establish` followed by `get_custom_channels`. -/
inductive Pc
  /-- not started -/
  | start
  /-- server endpoint bound; at the head of the `for party in config.parties` loop, `lib.rs:89` -/
  | link (todo : List Nat)
  /-- connected to `q` as client, id not written yet, `lib.rs:105` -/
  | announce (q : Nat) (c : Conn) (todo : List Nat)
  /-- accepted `c` as server, id not read yet, `lib.rs:128` -/
  | awaitId (c : Conn) (todo : List Nat)
  /-- at the head of the loop of `get_custom_channels`, `lib.rs:198` -/
  | chans (todo : List Nat)
  /-- wrote our id on a fresh bidirectional stream to `q`, waiting for its id, `lib.rs:203` -/
  | awaitEcho (q : Nat) (todo : List Nat)
  /-- both calls returned `Ok` -/
  | done
  /-- returned an error or panicked -/
  | failed

/-- Global state. `conns p` is party `p`'s `connections: BTreeMap<usize, Connection>`
(`lib.rs:30`), `channels p` the map returned by `get_custom_channels`; `pending` are the connections not
yet accepted by their server; `announced`, `hello`, `echo` are the ids written on the uni stream and on the
two directions of the bidirectional stream of a connection. -/
structure EState where
  pc : Nat → Pc
  serial : Nat
  pending : List Conn
  announced : Conn → Option Nat
  conns : Nat → List (Nat × Conn)
  hello : Conn → Option Nat
  echo : Conn → Option Nat
  channels : Nat → List (Nat × Conn)

/-- Nothing has happened. -/
def EState.init : EState :=
  ⟨fun _ => .start, 0, [], fun _ => none, fun _ => [], fun _ => none, fun _ => none, fun _ => []⟩

/-- Move party `p` to `x`. -/
def EState.goto (s : EState) (p : Nat) (x : Pc) : EState := { s with pc := Function.update s.pc p x }

/-- The keys of a map. -/
def mapKeys (m : List (Nat × Conn)) : List Nat := m.map Prod.fst

/-- `assert!(map.insert(k, c).is_none())` on `connections`, then go on with the loop
(`lib.rs:116`, `lib.rs:130-135`): panics when the key is present. -/
def EState.register (s : EState) (p k : Nat) (c : Conn) (todo : List Nat) : EState :=
  if k ∈ mapKeys (s.conns p) then s.goto p .failed
  else { s with conns := Function.update s.conns p (s.conns p ++ [(k, c)]) }.goto p (.link todo)

/-- `assert!(channels.insert(id, conn).is_none())`, then go on with the loop (`lib.rs:206`, `lib.rs:214`). -/
def EState.addChannel (s : EState) (p k : Nat) (c : Conn) (todo : List Nat) : EState :=
  if k ∈ mapKeys (s.channels p) then s.goto p .failed
  else { s with channels := Function.update s.channels p (s.channels p ++ [(k, c)]) }.goto p (.chans todo)

/-- `usize as u32`, `lib.rs:202`. -/
def asU32 (n : Nat) : Nat := n % 2 ^ 32

/-- Iteration order of a `BTreeMap`: ascending keys. -/
def sortedKeys (m : List (Nat × Conn)) : List Nat := (mapKeys m).mergeSort (fun a b => decide (a ≤ b))

/-- One step of party `p`. `cfg p` is the configuration party `p` was started with. -/
inductive EStep (cfg : Nat → NetConfig) (p : Nat) (s : EState) : EState → Prop
  /-- `lib.rs:37-85`: check the configuration and bind the server endpoint. -/
  | start (h : s.pc p = .start) (hc : checkConfig (cfg p) = .ok ()) :
      EStep cfg p s (s.goto p (.link (cfg p).parties))
  /-- `lib.rs:37`: the `?` on a bad configuration. -/
  | badConfig {e : Err} (h : s.pc p = .start) (hc : checkConfig (cfg p) = .error e) :
      EStep cfg p s (s.goto p .failed)
  /-- `lib.rs:90-93`: skip self. -/
  | skip {q : Nat} {todo : List Nat} (h : s.pc p = .link (q :: todo)) (hq : q = (cfg p).myId) :
      EStep cfg p s (s.goto p (.link todo))
  /-- `lib.rs:94-104`: connect as a client; needs the peer's endpoint to be bound. -/
  | connect {q : Nat} {todo : List Nat} (h : s.pc p = .link (q :: todo)) (hq : q < (cfg p).myId)
      (hb : s.pc q ≠ .start) :
      EStep cfg p s
        ({ s with serial := s.serial + 1, pending := s.pending ++ [Conn.mk p q s.serial] }.goto p
          (.announce q ⟨p, q, s.serial⟩ todo))
  /-- `lib.rs:105-117`: write our id as `u32` and enter the connection into the map. -/
  | announce {q : Nat} {c : Conn} {todo : List Nat} (h : s.pc p = .announce q c todo)
      (hid : (cfg p).myId < 2 ^ 32) :
      EStep cfg p s
        ({ s with announced := Function.update s.announced c (some (cfg p).myId) }.register p q c todo)
  /-- `lib.rs:106`: `u32::try_from(config.my_id).expect(..)` panics. -/
  | idTooLarge {q : Nat} {c : Conn} {todo : List Nat} (h : s.pc p = .announce q c todo)
      (hid : 2 ^ 32 ≤ (cfg p).myId) :
      EStep cfg p s (s.goto p .failed)
  /-- `lib.rs:118-121`: accept any one connection that has arrived for us. -/
  | accept {q : Nat} {todo : List Nat} {c : Conn} {pre post : List Conn}
      (h : s.pc p = .link (q :: todo)) (hq : (cfg p).myId < q)
      (hc : s.pending = pre ++ c :: post) (hs : c.server = p) :
      EStep cfg p s ({ s with pending := pre ++ post }.goto p (.awaitId c todo))
  /-- `lib.rs:128-135`: read the id the client wrote and enter the connection under it. -/
  | readId {c : Conn} {todo : List Nat} {k : Nat} (h : s.pc p = .awaitId c todo)
      (hk : s.announced c = some k) : EStep cfg p s (s.register p k c todo)
  /-- `lib.rs:144-150`, then the caller's `get_byte_channels`, `lib.rs:197`:
  `connections.len() - 1` overflows when there is no connection. -/
  | enter (h : s.pc p = .link []) :
      EStep cfg p s (s.goto p
        (if (s.conns p).length = 0 then .failed else .chans (sortedKeys (s.conns p))))
  /-- `lib.rs:199-202`: as client open a bidirectional stream and write our id. -/
  | openBi {q : Nat} {todo : List Nat} {c : Conn} (h : s.pc p = .chans (q :: todo))
      (hq : q < (cfg p).myId) (hc : (q, c) ∈ s.conns p) :
      EStep cfg p s ({ s with hello := Function.update s.hello c (some (asU32 (cfg p).myId)) }.goto p
        (.awaitEcho q todo))
  /-- `lib.rs:203-206`: read the server's id, compare, store the channel. -/
  | readEcho {q x : Nat} {todo : List Nat} {c : Conn} (h : s.pc p = .awaitEcho q todo)
      (hc : (q, c) ∈ s.conns p) (hx : s.echo c = some x) :
      EStep cfg p s (if x = asU32 q then s.addChannel p q c todo else s.goto p .failed)
  /-- `lib.rs:209-214`: as server accept the stream, read and compare the client's id, answer with ours. -/
  | acceptBi {q x : Nat} {todo : List Nat} {c : Conn} (h : s.pc p = .chans (q :: todo))
      (hq : ¬ q < (cfg p).myId) (hc : (q, c) ∈ s.conns p) (hx : s.hello c = some x) :
      EStep cfg p s
        (if x = asU32 q then
          { s with echo := Function.update s.echo c (some (asU32 (cfg p).myId)) }.addChannel p q c todo
        else s.goto p .failed)
  /-- `lib.rs:217`. -/
  | finish (h : s.pc p = .chans []) : EStep cfg p s (s.goto p .done)

/-- `n` steps of the parties in `ps`, scheduled arbitrarily. -/
inductive ESteps (cfg : Nat → NetConfig) (ps : List Nat) : Nat → EState → EState → Prop
  | zero (s : EState) : ESteps cfg ps 0 s s
  | succ {n : Nat} {s t u : EState} {p : Nat} (h : ESteps cfg ps n s t) (hp : p ∈ ps)
      (hs : EStep cfg p t u) : ESteps cfg ps (n + 1) s u

/-- No party of `ps` can move. -/
def EState.Stuck (cfg : Nat → NetConfig) (ps : List Nat) (s : EState) : Prop :=
  ∀ p ∈ ps, ∀ t, ¬ EStep cfg p s t

/-- The checks of `Aby3Network::new` before the network is touched, `iris-mpc/src/aby3/network.rs:19-23`
with `PartyID::try_from`, `iris-mpc/src/aby3/id.rs:32-43`. -/
def aby3NetPrecheck (c : NetConfig) : Except Err Party :=
  match c.myId with
  | 0 => if c.parties.length ≠ 3 then .error (.numParty c.parties.length) else .ok 0
  | 1 => if c.parties.length ≠ 3 then .error (.numParty c.parties.length) else .ok 1
  | 2 => if c.parties.length ≠ 3 then .error (.numParty c.parties.length) else .ok 2
  | i => .error (.idError i)

/-- `HashMap::remove` on a map of channels: the entry and the rest. -/
def removeKey (m : List (Nat × Conn)) (k : Nat) : Option (Conn × List (Nat × Conn)) :=
  match m.find? (fun e => e.1 == k) with
  | none => none
  | some e => some (e.2, m.filter (fun e => e.1 != k))

/-- `Aby3Network::new`, `iris-mpc/src/aby3/network.rs:28-35`: the channel used with the next party and the
one used with the previous party. -/
def aby3NetChannels (id : Party) (channels : List (Nat × Conn)) : Except Err (Conn × Conn) :=
  match removeKey channels id.next.val with
  | none => .error .config
  | some (send, rest) =>
    match removeKey rest id.prev.val with
    | none => .error .config
    | some (recv, _) => .ok (send, recv)

end Verif
