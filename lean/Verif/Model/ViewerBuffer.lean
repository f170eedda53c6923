import Verif.Model.Session

/-!
# The connection to a viewer

What `TraceSession` hands to `response_` is sent on the server's thread with `WebSocket::send` (scalopus_catapult/src/catapult_backend.cpp:153-165), which puts a frame into the buffer of the connection. The size of
the buffer is limited with `setClientBufferSize` (scalopus_catapult/src/catapult_server.cpp:66, :87-90; 128 MiB by default, scalopus_catapult/include/scalopus_catapult/catapult_server.h:103). seasocks is not part
of the sources. From its documentation: a frame whose bytes would fill the buffer closes the connection, and what is in the buffer then is not sent any more; otherwise the kernel takes bytes from the buffer as the
viewer reads. Frames are those of RFC 6455 for a text from a server: without mask, without compression, in one piece.
-/

namespace Scalopus.ViewerBuffer

abbrev Bytes := List UInt8

/-- The bytes of a number, most significant first, in `k` bytes: the lengths in the header of a frame (part of `send`, catapult_backend.cpp:161). -/
def big : Nat → Nat → Bytes
  | 0, _ => []
  | k + 1, n => big k (n / 256) ++ [UInt8.ofNat (n % 256)]

/-- The header of a frame with a text of `n` bytes (part of `send`, catapult_backend.cpp:161). -/
def header (n : Nat) : Bytes :=
  0x81 :: (if n < 126 then [UInt8.ofNat n] else if n < 65536 then 126 :: big 2 n else 127 :: big 8 n)

/-- The frame of a text (part of `send`, catapult_backend.cpp:161). -/
def frame (p : Bytes) : Bytes := header p.length ++ p

/-- A connection to a viewer. -/
structure Conn where
  /-- `setClientBufferSize`, catapult_server.cpp:66 -/
  cap : Nat
  /-- what is in the buffer -/
  out : Bytes := []
  /-- what the kernel has taken: the viewer gets these bytes -/
  wire : Bytes := []
  isOpen : Bool := true
  deriving DecidableEq, Repr

/-- What can happen on a connection. -/
inductive Act where
  /-- the server's thread runs `send(data)`, catapult_backend.cpp:153-165 -/
  | send (p : Bytes)
  /-- the kernel takes up to `k` bytes -/
  | drain (k : Nat)
  deriving DecidableEq, Repr

/-- One step: catapult_backend.cpp:161 with the limit of catapult_server.cpp:66. -/
def step (c : Conn) : Act → Conn
  | .send p =>
    if c.isOpen then
      if c.out.length + (frame p).length < c.cap then { c with out := c.out ++ frame p } else { c with isOpen := false }
    else c
  | .drain k => if c.isOpen then { c with wire := c.wire ++ c.out.take k, out := c.out.drop k } else c

/-- A history of a connection (catapult_backend.cpp:153-165). -/
def run (c : Conn) (acts : List Act) : Conn := acts.foldl step c

/-- The bytes of a text that `response_` is called with: `std::string` holds UTF-8 (trace_session.cpp:160, :167). -/
def utf8 (t : JsonText.Text) : Bytes := t.flatMap String.utf8EncodeChar

/-- What a session hands to the connection, in order (catapult_backend.cpp:153-165; `execute` runs the functions in the order of the calls). -/
def sends (es : List Session.Eff) : List Bytes := es.filterMap fun e => match e with | .send t => some (utf8 t) | _ => none

end Scalopus.ViewerBuffer
