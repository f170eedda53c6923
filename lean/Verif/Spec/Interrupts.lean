import Verif.Model.PyInterrupt

/-!
# What a program that is interrupted should leave behind
-/

namespace Scalopus.Interrupts
open Scalopus.PyInterrupt

/-- The sections that are open after some events, the innermost first, if `st` are open before; `none` if an exit is not that of the innermost section. -/
def nest : List Nat → List Event → Option (List Nat)
  | st, [] => some st
  | st, .mark _ :: es => nest st es
  | st, .entry id :: es => nest (id :: st) es
  | t :: st, .exit id :: es => if t = id then nest st es else none
  | [], .exit _ :: _ => none

/-- Every section that is entered is left, in order. -/
def Closed (l : List Event) : Prop := nest [] l = some []

/-- A handler raised where a section or a switch has been entered and not been left: after the call in `__enter__`, or before that in `__exit__`. -/
def Harmful (h : Hit) : Prop := h.place = .entered ∨ h.place = .leaving

instance (h : Hit) : Decidable (Harmful h) := by unfold Harmful; infer_instance

/-- The program has no switchers. -/
def NoSwitch : Stmt → Prop
  | .seq a b => NoSwitch a ∧ NoSwitch b
  | .trace _ b => NoSwitch b
  | .off _ => False
  | .attempt b h => NoSwitch b ∧ NoSwitch h
  | _ => True

/-- No switcher is used inside of another. -/
def Flat : Stmt → Prop
  | .seq a b => Flat a ∧ Flat b
  | .trace _ b => Flat b
  | .off b => NoSwitch b
  | .attempt b h => Flat b ∧ Flat h
  | _ => True

/-- The program catches no exceptions. -/
def NoCatch : Stmt → Prop
  | .seq a b => NoCatch a ∧ NoCatch b
  | .trace _ b => NoCatch b
  | .off b => NoCatch b
  | .attempt _ _ => False
  | _ => True

/-- The program raises no exceptions of its own. -/
def NoRaise : Stmt → Prop
  | .seq a b => NoRaise a ∧ NoRaise b
  | .trace _ b => NoRaise b
  | .off b => NoRaise b
  | .attempt b h => NoRaise b ∧ NoRaise h
  | .raise => False
  | _ => True

/-- What a program should record if no handler raises, and whether it ends with an exception: the switch is on or not; sections are entered and left around what is in them; what is suppressed is not recorded. -/
def plain : Stmt → Bool → List Event × Bool
  | .skip, _ => ([], false)
  | .mark id, on => (if on then [.mark id] else [], false)
  | .raise, _ => ([], true)
  | .seq a b, on => if (plain a on).2 then ((plain a on).1, true) else ((plain a on).1 ++ (plain b on).1, (plain b on).2)
  | .trace id b, on => (if on then .entry id :: (plain b on).1 ++ [.exit id] else [], (plain b on).2)
  | .off b, _ => ([], (plain b false).2)
  | .attempt b h, on => if (plain b on).2 then ((plain b on).1 ++ (plain h on).1, (plain h on).2) else ((plain b on).1, false)

/-- How many harmful handlers there were in the methods of section `id`. -/
def harmed (id : Nat) (hs : List Hit) : Nat := hs.countP fun h => decide (Harmful h ∧ h.section? = some id)

end Scalopus.Interrupts
