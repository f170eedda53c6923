import Verif.Model.Session
import Verif.Spec.JsonText

/-!
# Specification of a viewer's session
-/

namespace Scalopus.Session

open JsonText

/-- A data message as the viewer reads it. -/
def dataMessage (events : List J) : J := .obj [(lit "method", .str (lit "Tracing.dataCollected")), (lit "params", .obj [(lit "value", .arr events)])]

/-- A member of an object; null if there is none. -/
def member (m : List (Str × J)) (key : String) : J := ((m.find? fun x => x.1 == lit key).map fun x => x.2).getD .null

/-- The method of a command. -/
def HasMethod (m : List (Str × J)) (name : String) : Prop := member m "method" = .str (lit name)

end Scalopus.Session
