import Verif.Model.LttngStream

/-!
# Lines of a text
-/

namespace Scalopus.LttngStream.Spec

open Ctf (Text)

/-- A complete line: it ends with its only newline. -/
def IsLine (l : Text) : Prop := ∃ body : Text, l = body ++ ['\n'] ∧ '\n' ∉ body

/-- A line the parser's array can hold, without zero bytes. -/
def Fits (l : Text) : Prop := IsLine l ∧ l.length ≤ 1023 ∧ Char.ofNat 0 ∉ l

end Scalopus.LttngStream.Spec
