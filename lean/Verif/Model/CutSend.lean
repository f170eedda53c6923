import Verif.Model.Protocol
import Verif.Model.UnixClient

/-!
# Messages of which only a part is sent

`::send` gives the number of bytes it took, and this can be less than asked for although the connection is fine: a signal handler ran while it waited for room. `protocol::send` then returns false
(scalopus_transport/src/protocol.cpp:155-198), and the connection is used for the next message as if nothing had happened: `request` only lets the caller know (transport_unix.cpp:149-156), the worker
ignores the result for answers, broadcasts and unsolicited messages (297-298, 328-329, 361-362).
-/

namespace Scalopus.CutSend

open Protocol

/-- A message that is to be sent, and how much the kernel takes in each of the calls of `::send`, see `Protocol.sendLoop`. -/
structure Attempt where
  msg : Msg
  accepted : List (Option Nat) := []

/-- Sending messages one after the other on a connection, transport_unix.cpp:120-150, 300-301, 327-329, 362-363: what each call of `protocol::send` returns, and all bytes that get into the stream. For
    requests, false means that the caller gets a `communication_error` (140-141), and true that it waits for an answer (147-149). -/
def attempts (fd : Nat) : List Attempt → List Bool × Bytes
  | [] => ([], [])
  | a :: l =>
    let (b, bs) := send fd a.msg a.accepted
    let (r, rest) := attempts fd l
    (b :: r, bs ++ rest)

end Scalopus.CutSend
