import Verif.Model.Net

/-!
# The in-process test network

Models `iris-mpc/src/traits/test_network.rs` at the level of its six unbounded channels and the
struct fields that hold their ends. Parties keep their `PartyTestNetwork` alive for the whole history, so no
end of a channel is ever dropped and `send`/`recv` never report a closed channel.
-/

namespace Verif

/-- The six channels of `TestNetwork3p::new`, `test_network.rs:32-55`; both ends of a channel carry its
name. -/
inductive NamedChan
  | p1_p2 | p1_p3 | p2_p3 | p2_p1 | p3_p1 | p3_p2
  deriving DecidableEq

/-- The channel ends of a `PartyTestNetwork`, `test_network.rs:89-96`. -/
structure TestEnds where
  id : Party
  sendPrev : NamedChan
  recvPrev : NamedChan
  sendNext : NamedChan
  recvNext : NamedChan

/-- `TestNetwork3p::get_party_networks`, `test_network.rs:57-86`. -/
def partyNetworks : Party → TestEnds
  | 0 => ⟨0, .p1_p3, .p3_p1, .p1_p2, .p2_p1⟩
  | 1 => ⟨1, .p2_p1, .p1_p2, .p2_p3, .p3_p2⟩
  | 2 => ⟨2, .p3_p2, .p2_p3, .p3_p1, .p1_p3⟩

/-- `stats: [usize; 4]`, `test_network.rs:95`: bytes sent to prev and next, received from prev and next. -/
structure NetStats where
  sentPrev : Nat
  sentNext : Nat
  recvPrev : Nat
  recvNext : Nat

/-- Contents of the channels and every party's counters. -/
structure TestNet where
  chan : NamedChan → List Bytes
  stats : Party → NetStats

/-- A fresh network. -/
def TestNet.init : TestNet := ⟨fun _ => [], fun _ => ⟨0, 0, 0, 0⟩⟩

/-- A call of the network API by a party. -/
inductive NetCall
  | send (id : Nat) (m : Bytes)
  | sendNext (m : Bytes)
  | sendPrev (m : Bytes)
  | receive (id : Nat)
  | receiveNext
  | receivePrev

/-- What a call returned. -/
inductive NetRet
  | unit
  | msg (m : Bytes)
  | invalidId

/-- `self.send_next.send(data)`, with the counter, `test_network.rs:123-127`, `test_network.rs:192-201`. -/
def TestNet.doSendNext (t : TestNet) (i : Party) (m : Bytes) : TestNet :=
  let c := (partyNetworks i).sendNext
  { chan := Function.update t.chan c (t.chan c ++ [m])
    stats := Function.update t.stats i { t.stats i with sentNext := (t.stats i).sentNext + m.length } }

/-- `self.send_prev.send(data)`, with the counter, `test_network.rs:128-132`, `test_network.rs:203-212`. -/
def TestNet.doSendPrev (t : TestNet) (i : Party) (m : Bytes) : TestNet :=
  let c := (partyNetworks i).sendPrev
  { chan := Function.update t.chan c (t.chan c ++ [m])
    stats := Function.update t.stats i { t.stats i with sentPrev := (t.stats i).sentPrev + m.length } }

/-- `self.recv_next.recv().await`, with the counter; `none` while the channel is empty (the call blocks),
`test_network.rs:151-158`, `test_network.rs:227-238`. -/
def TestNet.doRecvNext (t : TestNet) (i : Party) : Option (TestNet × Bytes) :=
  let c := (partyNetworks i).recvNext
  match t.chan c with
  | [] => none
  | m :: rest => some (
      { chan := Function.update t.chan c rest
        stats := Function.update t.stats i { t.stats i with recvNext := (t.stats i).recvNext + m.length } }, m)

/-- `self.recv_prev.recv().await`, with the counter, `test_network.rs:143-150`, `test_network.rs:214-225`. -/
def TestNet.doRecvPrev (t : TestNet) (i : Party) : Option (TestNet × Bytes) :=
  let c := (partyNetworks i).recvPrev
  match t.chan c with
  | [] => none
  | m :: rest => some (
      { chan := Function.update t.chan c rest
        stats := Function.update t.stats i { t.stats i with recvPrev := (t.stats i).recvPrev + m.length } }, m)

/-- One API call of party `i`: `none` if it has to wait. `test_network.rs:121-165`,
`test_network.rs:192-238`. -/
def TestNet.call (t : TestNet) (i : Party) : NetCall → Option (TestNet × NetRet)
  | .send id m =>
    if id = (partyNetworks i).id.next.val then some (t.doSendNext i m, .unit)
    else if id = (partyNetworks i).id.prev.val then some (t.doSendPrev i m, .unit)
    else some (t, .invalidId)
  | .sendNext m => some (t.doSendNext i m, .unit)
  | .sendPrev m => some (t.doSendPrev i m, .unit)
  | .receive id =>
    if id = (partyNetworks i).id.prev.val then (t.doRecvPrev i).map (fun r => (r.1, .msg r.2))
    else if id = (partyNetworks i).id.next.val then (t.doRecvNext i).map (fun r => (r.1, .msg r.2))
    else some (t, .invalidId)
  | .receiveNext => (t.doRecvNext i).map (fun r => (r.1, .msg r.2))
  | .receivePrev => (t.doRecvPrev i).map (fun r => (r.1, .msg r.2))

/-- A history: the calls made by the parties, in some interleaving, with what they returned. -/
inductive TestNet.Run : List (Party × NetCall × NetRet) → TestNet → Prop
  | nil : TestNet.Run [] TestNet.init
  | snoc {h : List (Party × NetCall × NetRet)} {t t' : TestNet} {i : Party} {c : NetCall} {r : NetRet}
      (hr : TestNet.Run h t) (hc : t.call i c = some (t', r)) : TestNet.Run (h ++ [(i, c, r)]) t'

end Verif
