import Verif.Model.Channel
import Verif.Model.Bincode

/-! # The custom codec and the example programs of `mpc-net`; closing a channel

`mpc-net/examples/three_party*.rs` and `Channel::close` of `mpc-net/src/channel.rs`. Not modelled: reading the configuration,
establishing the connections (`Verif.Model.MpcNet`) and the statistics printed at the end. -/

namespace Verif

/-! ## The codec of `three_party_custom_channels.rs` -/

/-- `Message`, `three_party_custom_channels.rs:82-86`: a buffer of 1024 or of 512 bytes. -/
inductive PingMsg
  | ping (buf : Bytes) (h : buf.length = 1024)
  | pong (buf : Bytes) (h : buf.length = 512)
  deriving DecidableEq

/-- `Message::id`, `three_party_custom_channels.rs:88-95`. -/
def PingMsg.id : PingMsg → BitVec 8
  | .ping .. => 0
  | .pong .. => 1

/-- `MessageCodec::encode`, `three_party_custom_channels.rs:106-117`: what is appended to the output buffer. -/
def pingEncode : PingMsg → Bytes
  | .ping buf h => (PingMsg.ping buf h).id :: buf
  | .pong buf h => (PingMsg.pong buf h).id :: buf

/-- `MessageCodec::decode`, `three_party_custom_channels.rs:125-156`: a message if the buffer holds one, and the rest of the
buffer. -/
def pingDecode (src : Bytes) : Except IoErr (Option PingMsg × Bytes) :=
  match src with
  | [] => .ok (none, [])
  | id :: data =>
    if id = 0 then
      if h : (id :: data).length < 1025 then .ok (none, id :: data)
      else .ok (some (.ping (data.take 1024) (by rw [List.length_take]; simp at h; omega)), data.drop 1024)
    else if id = 1 then
      if h : (id :: data).length < 512 + 1 then .ok (none, id :: data)
      else .ok (some (.pong (data.take 512) (by rw [List.length_take]; simp at h; omega)), data.drop 512)
    else .error .invalidData

/-- `FramedRead` polled until it has to read more (tokio-util). The fuel is the caller's bound on the number of messages. -/
def pingDrain : Nat → Bytes → Except IoErr (List PingMsg × Bytes)
  | 0, src => .ok ([], src)
  | fuel + 1, src => do
    let r ← pingDecode src
    match r with
    | (none, src) => .ok ([], src)
    | (some m, src) => do
      let (ms, src) ← pingDrain fuel src
      .ok (m :: ms, src)

/-- Feeding a byte stream to the decoder chunk by chunk, as `FramedRead` does. -/
def pingFeed : Bytes → List Bytes → Except IoErr (List PingMsg × Bytes)
  | buf, [] => .ok ([], buf)
  | buf, c :: cs => do
    let (ms, buf) ← pingDrain ((buf ++ c).length + 1) (buf ++ c)
    let (ms', buf) ← pingFeed buf cs
    .ok (ms ++ ms', buf)

/-! ## The programs

A message of a channel is delivered whole (C50 for the byte and bincode channels, C71 for the codec above). `ord` is the order
in which `HashMap::iter_mut` visits the channels, any order of the two other parties. An `Err` of `send` ends `main`; a
failed `assert!` panics. -/

/-- `for (&i, channel) in channels.iter_mut() { channel.send(msg i).await?; }`. -/
def sendAll (msg : Party → Bytes) : List Party → Prog Unit
  | [] => .ret ()
  | i :: is => .send i (msg i) (sendAll msg is)

/-- `for (&_, channel) in channels.iter_mut() { let buf = channel.next().await; check }`. -/
def recvAll (check : Bytes → Except Err Unit) : List Party → Prog Unit
  | [] => .ret ()
  | i :: is => .recv i fun b => do
      Prog.ofExcept (check b)
      recvAll check is

/-- `assert!(b.iter().all(|&x| x == args.party as u8))`. -/
def assertAll (me : Party) (b : Bytes) : Except Err Unit :=
  if b.all (fun x => x = BitVec.ofNat 8 me.val) then .ok () else .error .panic

/-- The check of `three_party.rs:51-54` and `three_party_managed.rs:55-58`; printing `b[0]` panics on an empty message. -/
def byteCheck (me : Party) (b : Bytes) : Except Err Unit :=
  match b with
  | [] => .error .panic
  | _ :: _ => assertAll me b

/-- `main` of `three_party.rs:27-60` and of `three_party_managed.rs:27-64`. -/
def byteMain (me : Party) (ord : List Party) : Prog Unit := do
  sendAll (fun i => List.replicate 1024 (BitVec.ofNat 8 i.val)) ord
  recvAll (byteCheck me) ord

/-- `if let Some(Ok(Message::Ping(b))) = buf { assert!(…) } else { panic!(…) }`, `three_party_custom_channels.rs:56-60`. -/
def pingCheck (me : Party) (b : Bytes) : Except Err Unit :=
  match pingDecode b with
  | .ok (some (.ping buf _), _) => assertAll me buf
  | _ => .error .panic

/-- The same for `Pong`, `three_party_custom_channels.rs:70-74`. -/
def pongCheck (me : Party) (b : Bytes) : Except Err Unit :=
  match pingDecode b with
  | .ok (some (.pong buf _), _) => assertAll me buf
  | _ => .error .panic

/-- `main` of `three_party_custom_channels.rs:29-78`. -/
def customMain (me : Party) (ord : List Party) : Prog Unit := do
  sendAll (fun i => pingEncode (.ping (List.replicate 1024 (BitVec.ofNat 8 i.val)) (List.length_replicate ..))) ord
  recvAll (pingCheck me) ord
  sendAll (fun i => pingEncode (.pong (List.replicate 512 (BitVec.ofNat 8 i.val)) (List.length_replicate ..))) ord
  recvAll (pongCheck me) ord

/-- `Message`, `three_party_bincode_channels.rs:80-83`. -/
inductive SerdeMsg
  | ping (buf : Bytes)
  | pong (buf : Bytes)
  deriving DecidableEq

/-- The `serde` derive of `Message` (`three_party_bincode_channels.rs:78-83`) through `bincode`: the number of the variant as a
`u32`, then its field; another number is an error. -/
instance : Bincode SerdeMsg where
  enc
    | .ping b => Bincode.enc (0 : BitVec 32) ++ Bincode.enc b
    | .pong b => Bincode.enc (1 : BitVec 32) ++ Bincode.enc b
  dec bs := do
    let (v, bs) ← Bincode.dec (α := BitVec 32) bs
    if v = 0 then
      let (b, bs) ← Bincode.dec (α := Bytes) bs
      pure (.ping b, bs)
    else if v = 1 then
      let (b, bs) ← Bincode.dec (α := Bytes) bs
      pure (.pong b, bs)
    else none

/-- `if let Some(Ok(Message::Ping(b))) = buf { … } else { panic!(…) }`, `three_party_bincode_channels.rs:53-57`. -/
def serdePingCheck (me : Party) (b : Bytes) : Except Err Unit :=
  match Bincode.dec (α := SerdeMsg) b with
  | some (.ping buf, _) => assertAll me buf
  | _ => .error .panic

/-- The same for `Pong`, `three_party_bincode_channels.rs:67-71`. -/
def serdePongCheck (me : Party) (b : Bytes) : Except Err Unit :=
  match Bincode.dec (α := SerdeMsg) b with
  | some (.pong buf, _) => assertAll me buf
  | _ => .error .panic

/-- `main` of `three_party_bincode_channels.rs:28-76`. -/
def bincodeMain (me : Party) (ord : List Party) : Prog Unit := do
  sendAll (fun i => Bincode.enc (SerdeMsg.ping (List.replicate 1024 (BitVec.ofNat 8 i.val)))) ord
  recvAll (serdePingCheck me) ord
  sendAll (fun i => Bincode.enc (SerdeMsg.pong (List.replicate 512 (BitVec.ofNat 8 i.val)))) ord
  recvAll (serdePongCheck me) ord

/-! ## `Channel::close` -/

/-- The result of `Channel::close` (`channel.rs:43-71`) from what `read_conn.next()` yields: `None` (the read job of the
actor model reports it as `BrokenPipe`) is success; a message is an error; an error is passed on. The code before it, `flush`
and `close` of the write half, is the write actor emptying its queue and finishing the stream. -/
def closeResult : Except IoErr Bytes → Except IoErr Unit
  | .ok _ => .error .other
  | .error .brokenPipe => .ok ()
  | .error e => .error e

end Verif
