import Verif.Model.Protocol

/-!
# Specification vocabulary for the wire protocol
-/

namespace Scalopus.Spec.Wire

open Protocol

/-- The sizes asked for, one `read` call after the other, when a field of `len` bytes is read in blocks of at most 4096
    and every call gets all it asks for. -/
def blocks (len : Nat) : List Nat :=
  if _h : len ≤ 4096 then [len] else 4096 :: blocks (len - 4096)
termination_by len
decreasing_by omega

/-- The sizes asked for while reading a message with the given name and data lengths. -/
def messageReads (nameLen dataLen : Nat) : List Nat :=
  blocks 8 ++ blocks 2 ++ blocks nameLen ++ blocks 4 ++ blocks dataLen

/-- Each `read` call succeeds and has at least as many bytes available as it asks for. -/
def NoShortRead : (avail : List (Option Nat)) → (asked : List Nat) → Prop
  | [], _ => True
  | _, [] => True
  | none :: _, _ :: _ => False
  | some n :: as, w :: ws => w ≤ max n 1 ∧ NoShortRead as ws

/-- The fields fit into their wire representation. -/
def Fits (m : Msg) : Prop :=
  m.requestId < 2 ^ 64 ∧ m.endpoint.length < 2 ^ 16 ∧ m.data.length < 2 ^ 32

instance (m : Msg) : Decidable (Fits m) := inferInstanceAs (Decidable (_ ∧ _ ∧ _))

end Scalopus.Spec.Wire
