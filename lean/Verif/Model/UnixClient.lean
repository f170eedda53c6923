import Verif.Model.Protocol

/-!
# What the client's worker does with an incoming message (transport_unix.cpp:260-302)
-/

namespace Scalopus.UnixClient

open Protocol

/-- Key of an outstanding request (`ongoing_requests_`, transport_unix.h:109): endpoint name and request id. -/
abbrev Key := Bytes × Nat

/-- What happened while handling one readable event. -/
structure Outcome where
  /-- the connection was found to be lost (lines 264-269) -/
  lost : Bool
  /-- the request that was fulfilled and the value put into its future (lines 275-283) -/
  fulfilled : Option (Key × Bytes)
  /-- otherwise, the message is handed to the endpoint of this name as unsolicited data (lines 284-301) -/
  unsolicited : Option (Bytes × Bytes)
  deriving Repr, DecidableEq

/-- transport_unix.cpp:261-302. `pending` are the keys of the outstanding requests. The code does not return after a
    failed `receive`: it continues with whatever `incoming` holds. Simplification: all futures of `pending` are alive and
    the handing over of unsolicited data is only recorded. -/
def onReadable (pending : List Key) (e : Env) : Res Outcome :=
  (receive e).bind fun (ok, m, _) =>
    if (m.endpoint, m.requestId) ∈ pending then
      .ok { lost := !ok, fulfilled := some ((m.endpoint, m.requestId), m.data), unsolicited := none }
    else
      .ok { lost := !ok, fulfilled := none, unsolicited := some (m.endpoint, m.data) }

end Scalopus.UnixClient
