import Verif.Model.Base

/-!
# The helper that makes trace contexts

Models `TraceContextHelper` (scalopus_python/scalopus/tracing.py:102-130), of which `trace_section` (132) and `trace_count` (157-158) are instances. Python calls `__getattr__` only when an attribute
is not found in the object or its class.

Simplifications: `prefix` and `ctx_type` are not changed once the helper is in use (158 does it before). Making a context is one step: `TraceContext.__init__` is the subject of `Model/PyTracing`. Making
a context does not fail.
-/

namespace Scalopus.PyHelper

/-- What a helper is made of. -/
structure Helper where
  prefix' : String
  /-- The class of the contexts: `TraceContext`, `CountEvent`, ... -/
  kind : String
  /-- The attributes of the class itself: `__init__`, `__getattr__`, `__call__` and what it has from `object`. -/
  classAttrs : List String

/-- What reading an attribute gives. -/
inductive Val where
  /-- Context number `i`. -/
  | ctx (i : Nat)
  | text (s : String)
  | cls (kind : String)
  | method
  deriving Repr, DecidableEq

structure Ctx where
  name : String
  kind : String
  deriving Repr, DecidableEq

/-- What a thread is doing in `__getattr__` (114-122). -/
inductive Pc where
  | idle
  /-- The attribute was not found, about to make the context (120). -/
  | making (name : String)
  /-- About to store it (121). -/
  | storing (name : String) (i : Nat)
  deriving Repr, DecidableEq

structure State where
  thr : Nat → Pc := fun _ => .idle
  /-- All contexts that were made. -/
  ctxs : List Ctx := []
  /-- The contexts in the object's dictionary. -/
  attrs : List (String × Nat) := []
  /-- What was asked for and given, newest first. -/
  log : List (String × Val) := []

inductive Act where
  /-- `helper.name` or `helper(name)` (124-130) by a thread. -/
  | get (t : Nat) (name : String)
  | make (t : Nat)
  | store (t : Nat)
  deriving Repr, DecidableEq

def Act.thread : Act → Nat
  | .get t _ => t
  | .make t => t
  | .store t => t

def State.set (s : State) (t : Nat) (p : Pc) : State := { s with thr := fun u => if u = t then p else s.thr u }

/-- The normal lookup of an attribute: the object, then the class (111-112 store `ctx_type` and `prefix`). -/
def lookup (h : Helper) (s : State) (name : String) : Option Val :=
  if name = "ctx_type" then some (.cls h.kind)
  else if name = "prefix" then some (.text h.prefix')
  else match s.attrs.lookup name with
    | some i => some (.ctx i)
    | none => if name ∈ h.classAttrs then some .method else none

def step (h : Helper) (s : State) : Act → Option State
  | .get t name =>
    if s.thr t = .idle then
      match lookup h s name with
      | some v => some { s with log := (name, v) :: s.log }
      | none => some (s.set t (.making name))
    else none
  | .make t => match s.thr t with
    | .making name => some { s.set t (.storing name s.ctxs.length) with ctxs := s.ctxs ++ [⟨h.prefix' ++ name, h.kind⟩] }
    | _ => none
  | .store t => match s.thr t with
    | .storing name i => some { s.set t .idle with attrs := (name, i) :: s.attrs.filter (fun x => x.1 ≠ name), log := (name, .ctx i) :: s.log }
    | _ => none

def run (h : Helper) (s : State) : List Act → Option State
  | [] => some s
  | a :: l => (step h s a).bind fun s' => run h s' l

end Scalopus.PyHelper
