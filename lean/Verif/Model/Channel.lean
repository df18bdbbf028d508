import Verif.Model.Net

/-!
# `mpc-net` channels: framing codec and the actors behind `ChannelHandle`

Models `mpc-net/src/channel.rs`, `mpc-net/src/codecs.rs` and the parts of `tokio-util` 0.7.10 they are
built from (`LengthDelimitedCodec` with its default settings, `FramedRead`, `FramedWrite`). One direction of
a channel is modelled, from the write actor of one side to the read actor of the other; the two
directions of a `Channel` share nothing (`channel.rs:33-36`).

Assumed, not modelled: the QUIC stream is a reliable ordered byte stream; connections are not lost.
-/

namespace Verif

/-- `std::io::ErrorKind`s that occur. -/
inductive IoErr
  | brokenPipe | invalidInput | invalidData | other
  deriving DecidableEq

/-- Default `max_frame_length` of `LengthDelimitedCodec::new()` (`mpc-net/src/lib.rs:176`,
`codecs.rs:25`): 8 MiB. -/
def maxFrame : Nat := 8 * 1024 * 1024

/-- The length field: four bytes, big endian. -/
def be32 (n : Nat) : Bytes :=
  [BitVec.ofNat 8 (n / 2 ^ 24), BitVec.ofNat 8 (n / 2 ^ 16), BitVec.ofNat 8 (n / 2 ^ 8), BitVec.ofNat 8 n]

/-- Reading a big endian number. -/
def fromBe (l : Bytes) : Nat := l.foldl (fun acc b => acc * 256 + b.toNat) 0

/-- A frame on the wire. -/
def frame (m : Bytes) : Bytes := be32 m.length ++ m

/-- `LengthDelimitedCodec::encode` (tokio-util): the bytes appended to the output buffer, or
`InvalidInput` for a message above the limit, in which case the buffer is left alone. -/
def ldEncode (m : Bytes) : Except IoErr Bytes :=
  if m.length > maxFrame then .error .invalidInput else .ok (frame m)

/-- `DecodeState` of `LengthDelimitedCodec` (tokio-util): waiting for a length field, or for `n` bytes of
data. -/
inductive DecState
  | head
  | data (n : Nat)
  deriving DecidableEq

/-- The second half of `LengthDelimitedCodec::decode` (tokio-util, `decode_data`). -/
def ldDecodeData (n : Nat) (src : Bytes) : Option Bytes × DecState × Bytes :=
  if src.length < n then (none, .data n, src) else (some (src.take n), .head, src.drop n)

/-- `LengthDelimitedCodec::decode` (tokio-util): a frame if the buffer holds one, the new decoder state
and the rest of the buffer; `InvalidData` if the length field exceeds the limit. -/
def ldDecode : DecState → Bytes → Except IoErr (Option Bytes × DecState × Bytes)
  | .head, src =>
    if src.length < 4 then .ok (none, .head, src)
    else
      let n := fromBe (src.take 4)
      if n > maxFrame then .error .invalidData else .ok (ldDecodeData n (src.drop 4))
  | .data n, src => .ok (ldDecodeData n src)

/-- All frames that can be decoded from the buffer: `FramedRead` polled until it has to read more. The
fuel is the caller's bound on the number of frames. -/
def drainFrames : Nat → DecState → Bytes → Except IoErr (List Bytes × DecState × Bytes)
  | 0, st, src => .ok ([], st, src)
  | fuel + 1, st, src => do
    let r ← ldDecode st src
    match r with
    | (none, st, src) => .ok ([], st, src)
    | (some m, st, src) => do
      let (ms, st, src) ← drainFrames fuel st src
      .ok (m :: ms, st, src)

/-- Feeding a byte stream to the decoder chunk by chunk, as `FramedRead` does. -/
def feedChunks : DecState → Bytes → List Bytes → Except IoErr (List Bytes × DecState × Bytes)
  | st, buf, [] => .ok ([], st, buf)
  | st, buf, c :: cs => do
    let (ms, st, buf) ← drainFrames ((buf ++ c).length + 2) st (buf ++ c)
    let (ms', st, buf) ← feedChunks st buf cs
    .ok (ms ++ ms', st, buf)

/-! ## `BincodeCodec` -/

/-- What `serde`/`bincode` provide for a message type: `bincode::serialize_into` and
`bincode::deserialize_from` (which returns the value and what it did not read). -/
structure BincodeT (M : Type) where
  ser : M → Bytes
  de : Bytes → Except IoErr (M × Bytes)

/-- `BincodeCodec::encode`, `mpc-net/src/codecs.rs:37-48`. -/
def bincodeEncode {M : Type} (B : BincodeT M) (m : M) : Except IoErr Bytes := ldEncode (B.ser m)

/-- `BincodeCodec::decode`, `mpc-net/src/codecs.rs:59-74`; trailing bytes of the frame are ignored. -/
def bincodeDecode {M : Type} (B : BincodeT M) (st : DecState) (src : Bytes) :
    Except IoErr (Option M × DecState × Bytes) := do
  let r ← ldDecode st src
  match r with
  | (none, st, src) => .ok (none, st, src)
  | (some buf, st, src) => do
    let (m, _) ← B.de buf
    .ok (some m, st, src)

/-! ## The actors -/

/-- State of `FramedRead` (tokio-util, `ReadFrame` and the codec). -/
structure FrState where
  eof : Bool
  readable : Bool
  errored : Bool
  dec : DecState
  buf : Bytes

/-- One direction between two `ChannelHandle`s. Jobs are numbered in the order of submission.
`sends` and `rcount` record what has been submitted, `wres`/`rres` what the actors put into the jobs'
`oneshot`s (whether or not somebody still listens, `channel.rs:160-165`, `channel.rs:173-178`). -/
structure Link where
  sends : List Bytes
  wq : List (Nat × Bytes)
  wcur : Option Nat
  out : Bytes
  wres : Nat → Option (Except IoErr Unit)
  wdropped : Bool
  closed : Bool
  wire : Bytes
  rcount : Nat
  rq : List Nat
  rcur : Option Nat
  fr : FrState
  rres : Nat → Option (Except IoErr Bytes)

/-- A fresh channel, `ChannelHandle::manage`, `channel.rs:139-186`. -/
def Link.init : Link :=
  ⟨[], [], none, [], fun _ => none, false, false, [], 0, [], none, ⟨false, false, false, .head, []⟩,
    fun _ => none⟩

/-- Capacity of the job queues, `channel.rs:147-148`. -/
def jobCap : Nat := 8

/-- Answer the current read job, `channel.rs:160`. -/
def Link.reply (s : Link) (k : Nat) (fr : FrState) (r : Except IoErr Bytes) : Link :=
  { s with rcur := none, fr := fr, rres := Function.update s.rres k (some r) }

/-- Steps taken by the users of the handles. -/
inductive UserStep (s : Link) : Link → Prop
  /-- `ChannelHandle::send`, `channel.rs:188-203` (and `blocking_send`): waits for room in the queue. -/
  | send (m : Bytes) (hq : s.wq.length < jobCap) (hd : s.wdropped = false) :
      UserStep s { s with sends := s.sends ++ [m], wq := s.wq ++ [(s.sends.length, m)] }
  /-- `ChannelHandle::recv`, `channel.rs:205-220` (and `blocking_recv`): waits for room in the queue. -/
  | recv (hq : s.rq.length < jobCap) :
      UserStep s { s with rcount := s.rcount + 1, rq := s.rq ++ [s.rcount] }
  /-- The sending side drops its handle. -/
  | drop : UserStep s { s with wdropped := true }

/-- Steps taken by the actors and the transport. `W` is the flow-control window of the stream. -/
inductive ActorStep (W : Nat) (s : Link) : Link → Prop
  /-- `channel.rs:169-170`: take a write job and encode it (`FramedWrite::start_send`). -/
  | take {k : Nat} {m b : Bytes} {rest : List (Nat × Bytes)} (hc : s.wcur = none)
      (hq : s.wq = (k, m) :: rest) (he : ldEncode m = .ok b) :
      ActorStep W s { s with wq := rest, wcur := some k, out := s.out ++ b }
  /-- `channel.rs:170-173`: encoding fails, the job is answered with the error. -/
  | takeErr {k : Nat} {m : Bytes} {e : IoErr} {rest : List (Nat × Bytes)} (hc : s.wcur = none)
      (hq : s.wq = (k, m) :: rest) (he : ldEncode m = .error e) :
      ActorStep W s { s with wq := rest, wres := Function.update s.wres k (some (.error e)) }
  /-- `FramedWrite::poll_flush`: hand some bytes to the stream, as far as the window allows. -/
  | flush (n : Nat) (hn : 0 < n) (ho : n ≤ s.out.length) (hw : s.wire.length + n ≤ W) :
      ActorStep W s { s with out := s.out.drop n, wire := s.wire ++ s.out.take n }
  /-- `channel.rs:170-173`: everything flushed, answer the job. -/
  | flushed {k : Nat} (hc : s.wcur = some k) (ho : s.out = []) :
      ActorStep W s { s with wcur := none, wres := Function.update s.wres k (some (.ok ())) }
  /-- The write actor ends (its job queue is closed and empty, `channel.rs:169`) and drops the stream,
  which finishes it. -/
  | finish (hd : s.wdropped = true) (hq : s.wq = []) (hc : s.wcur = none) (hcl : s.closed = false) :
      ActorStep W s { s with closed := true }
  /-- `channel.rs:153`: take a read job. -/
  | takeRead {k : Nat} {rest : List Nat} (hc : s.rcur = none) (hq : s.rq = k :: rest) :
      ActorStep W s { s with rq := rest, rcur := some k }
  /-- `FramedRead::poll_next` after an error: the stream ends, the job gets `BrokenPipe`
  (`channel.rs:155`). -/
  | afterError {k : Nat} (hc : s.rcur = some k) (he : s.fr.errored = true) :
      ActorStep W s (s.reply k { s.fr with errored := false, readable := false } (.error .brokenPipe))
  /-- `poll_next`: a frame can be decoded from the buffer. -/
  | decoded {k : Nat} {m buf : Bytes} {dec : DecState} (hc : s.rcur = some k) (he : s.fr.errored = false)
      (hr : s.fr.readable = true) (hd : ldDecode s.fr.dec s.fr.buf = .ok (some m, dec, buf)) :
      ActorStep W s (s.reply k { s.fr with dec := dec, buf := buf } (.ok m))
  /-- `poll_next`: decoding fails. -/
  | decodeErr {k : Nat} {e : IoErr} (hc : s.rcur = some k) (he : s.fr.errored = false)
      (hr : s.fr.readable = true) (hd : ldDecode s.fr.dec s.fr.buf = .error e) :
      ActorStep W s (s.reply k { s.fr with errored := true } (.error e))
  /-- `poll_next`: no complete frame and more may come. -/
  | notYet {k : Nat} {buf : Bytes} {dec : DecState} (hc : s.rcur = some k) (he : s.fr.errored = false)
      (hr : s.fr.readable = true) (hd : ldDecode s.fr.dec s.fr.buf = .ok (none, dec, buf))
      (hf : s.fr.eof = false) :
      ActorStep W s { s with fr := { s.fr with dec := dec, buf := buf, readable := false } }
  /-- `poll_next` at the end of the stream with an empty buffer (`decode_eof`): `None`, so the job gets
  `BrokenPipe` (`channel.rs:155`). -/
  | atEnd {k : Nat} {dec : DecState} (hc : s.rcur = some k) (he : s.fr.errored = false)
      (hr : s.fr.readable = true) (hd : ldDecode s.fr.dec s.fr.buf = .ok (none, dec, []))
      (hf : s.fr.eof = true) :
      ActorStep W s (s.reply k { s.fr with dec := dec, buf := [], readable := false } (.error .brokenPipe))
  /-- `poll_next` at the end of the stream with bytes left (`decode_eof`): an error. -/
  | cutOff {k : Nat} {buf : Bytes} {dec : DecState} (hc : s.rcur = some k) (he : s.fr.errored = false)
      (hr : s.fr.readable = true) (hd : ldDecode s.fr.dec s.fr.buf = .ok (none, dec, buf)) (hb : buf ≠ [])
      (hf : s.fr.eof = true) :
      ActorStep W s (s.reply k { s.fr with dec := dec, buf := buf, errored := true } (.error .other))
  /-- `poll_next`: read some of the bytes that have arrived. -/
  | read {k : Nat} (n : Nat) (hc : s.rcur = some k) (he : s.fr.errored = false)
      (hr : s.fr.readable = false) (hn : 0 < n) (hw : n ≤ s.wire.length) :
      ActorStep W s { s with
        wire := s.wire.drop n,
        fr := { s.fr with buf := s.fr.buf ++ s.wire.take n, eof := false, readable := true } }
  /-- `poll_next`: the read returns zero bytes for the first time. -/
  | readEof {k : Nat} (hc : s.rcur = some k) (he : s.fr.errored = false) (hr : s.fr.readable = false)
      (hw : s.wire = []) (hcl : s.closed = true) (hf : s.fr.eof = false) :
      ActorStep W s { s with fr := { s.fr with eof := true, readable := true } }
  /-- `poll_next`: the read returns zero bytes again: `None`, so `BrokenPipe`. -/
  | stillEof {k : Nat} (hc : s.rcur = some k) (he : s.fr.errored = false) (hr : s.fr.readable = false)
      (hw : s.wire = []) (hcl : s.closed = true) (hf : s.fr.eof = true) :
      ActorStep W s (s.reply k s.fr (.error .brokenPipe))

/-- Reachable states: any interleaving of user, actor and transport steps. -/
inductive Link.Reach (W : Nat) : Link → Prop
  | init : Link.Reach W Link.init
  | user {s t : Link} (h : Link.Reach W s) (hs : UserStep s t) : Link.Reach W t
  | actor {s t : Link} (h : Link.Reach W s) (hs : ActorStep W s t) : Link.Reach W t

/-- `n` consecutive steps of actors and transport. -/
inductive ActorSteps (W : Nat) : Nat → Link → Link → Prop
  | zero (s : Link) : ActorSteps W 0 s s
  | succ {n : Nat} {s t u : Link} (h : ActorSteps W n s t) (hs : ActorStep W t u) : ActorSteps W (n + 1) s u

end Verif
