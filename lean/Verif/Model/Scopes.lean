import Verif.Model.TraceState

/-!
# Programs with traced scopes and scoped switches

A thread runs a program built from the macros of scalopus_tracing/include/scalopus_tracing/trace_macro.h. The objects that the macros
make are destroyed at the end of their block, in reverse order, also when an exception passes (C++ language rule). Other threads run at the same
time: `Env` steps occur before and after every step of the thread.

Models `TraceRAII` (scalopus_tracing/src/scope_trace_raii.cpp:35-43), `TraceConfigurationRAII`
(scalopus_tracing/src/trace_configuration_raii.cpp:35-59) and their use in internal/trace_macro.h:57-81.
Control flow is abstracted: branches and loops are nondeterministic, so every real program is covered. Explicit `TRACE_SCOPE_START` and
`TRACE_SCOPE_END` pairs are written as `scope` when they are properly nested (trace_macro.h:56-59); nothing enforces that.
-/

namespace Scalopus.Scopes

open TraceState

/-- Programs of one thread. -/
inductive Prog where
  /-- anything that does not trace -/
  | skip
  | seq (p q : Prog)
  /-- a branch on anything -/
  | choice (p q : Prog)
  /-- a loop with any number of rounds -/
  | loop (p : Prog)
  /-- `{ TRACE_SCOPE_RAII(..); body }` with this id, internal/trace_macro.h:57-62 -/
  | scope (id : Nat) (body : Prog)
  /-- `{ TRACING_CONFIG_THREAD_STATE_RAII(b); body }`, or with PROCESS, internal/trace_macro.h:77-81 -/
  | switch (isProcess : Bool) (b : Bool) (body : Prog)
  /-- `TRACE_MARK_EVENT_...`, internal/trace_macro.h:83-88 -/
  | mark (id : Nat) (level : Level)
  /-- `TRACE_COUNT_...`, internal/trace_macro.h:90-95 -/
  | count (id : Nat) (value : Int)
  | throw
  | tryCatch (p handler : Prog)
  deriving Repr

/-- Steps of the other threads, restricted to those that `env` allows. -/
inductive Env (env : State → Act → Prop) : State → State → Prop where
  | refl (s : State) : Env env s s
  | step {s s1 s2 : State} (x : Act) : env s x → step s x = .ok s1 → Env env s1 s2 → Env env s s2

/-- One call of a tracepoint by thread `t`, native_tracepoint.cpp:62-138. -/
inductive Call (env : State → Act → Prop) (t : Nat) (be : Backend) (p : Point) : State → State → Prop where
  | mk {s s1 s2 s3 s4 s5 s6 s7 : State} : Env env s s1 → step s1 (.reach t be p) = .ok s2 → Env env s2 s3 →
      step s3 (.loadProcess t) = .ok s4 → Env env s4 s5 → step s5 (.loadThread t) = .ok s6 → Env env s6 s7 → Call env t be p s s7

/-- `Exec env t be s p s' e`: thread `t` can run `p` from `s` to `s'`, where it ends with an exception iff `e`. -/
inductive Exec (env : State → Act → Prop) (t : Nat) (be : Backend) : State → Prog → State → Bool → Prop where
  | skip {s s' : State} : Env env s s' → Exec env t be s .skip s' false
  | seq {s s1 s2 : State} {p q : Prog} {e : Bool} : Exec env t be s p s1 false → Exec env t be s1 q s2 e → Exec env t be s (.seq p q) s2 e
  | seqThrow {s s1 : State} {p q : Prog} : Exec env t be s p s1 true → Exec env t be s (.seq p q) s1 true
  | left {s s1 : State} {p q : Prog} {e : Bool} : Exec env t be s p s1 e → Exec env t be s (.choice p q) s1 e
  | right {s s1 : State} {p q : Prog} {e : Bool} : Exec env t be s q s1 e → Exec env t be s (.choice p q) s1 e
  | done {s s' : State} {p : Prog} : Env env s s' → Exec env t be s (.loop p) s' false
  | again {s s1 s2 : State} {p : Prog} {e : Bool} : Exec env t be s p s1 false → Exec env t be s1 (.loop p) s2 e →
      Exec env t be s (.loop p) s2 e
  | loopThrow {s s1 : State} {p : Prog} : Exec env t be s p s1 true → Exec env t be s (.loop p) s1 true
  /-- constructor and destructor of `TraceRAII`, scope_trace_raii.cpp:35-43 -/
  | scope {s s1 s2 s3 : State} {id : Nat} {body : Prog} {e : Bool} : Call env t be (.entry id) s s1 → Exec env t be s1 body s2 e →
      Call env t be (.exit id) s2 s3 → Exec env t be s (.scope id body) s3 e
  /-- constructor and destructor of `TraceConfigurationRAII` with `is_process = false`, trace_configuration_raii.cpp:42-44, :55-57: `old` is what
      the first call returned -/
  | threadSwitch {s s0 s1 s2 s3 s4 : State} {b old : Bool} {body : Prog} {e : Bool} : Env env s s0 → step s0 (.setThread t b) = .ok s1 →
      s1.log = s0.log ++ [.threadWas t old] → Exec env t be s1 body s2 e → Env env s2 s3 → step s3 (.setThread t old) = .ok s4 →
      Exec env t be s (.switch false b body) s4 e
  /-- the same with `is_process = true`, trace_configuration_raii.cpp:38-40, :51-53 -/
  | processSwitch {s s0 s1 s2 s3 s4 : State} {b old : Bool} {body : Prog} {e : Bool} : Env env s s0 → step s0 (.setProcess b) = .ok s1 →
      s1.log = s0.log ++ [.processWas old] → Exec env t be s1 body s2 e → Env env s2 s3 → step s3 (.setProcess old) = .ok s4 →
      Exec env t be s (.switch true b body) s4 e
  | mark {s s' : State} {id : Nat} {l : Level} : Call env t be (.mark id l) s s' → Exec env t be s (.mark id l) s' false
  | count {s s' : State} {id : Nat} {v : Int} : Call env t be (.count id v) s s' → Exec env t be s (.count id v) s' false
  | throw {s : State} : Exec env t be s .throw s true
  | tryOk {s s1 : State} {p h : Prog} : Exec env t be s p s1 false → Exec env t be s (.tryCatch p h) s1 false
  | tryCatch {s s1 s2 : State} {p h : Prog} {e : Bool} : Exec env t be s p s1 true → Exec env t be s1 h s2 e →
      Exec env t be s (.tryCatch p h) s2 e

/-- A step of another thread. -/
def Other (t : Nat) : Act → Prop
  | .getThread t' | .setThread t' _ | .reach t' _ _ | .loadProcess t' | .loadThread t' | .exit t' => t' ≠ t
  | _ => True

/-- A step that stores into the switch of thread `t` through a thread map. -/
def Hits (t : Nat) (s : State) (x : Act) : Prop :=
  ∃ h tid b m c y, x = .remoteStore h tid b ∧ s.snaps[h]? = some m ∧ m.lookup tid = some c ∧ s.cells[c]? = some y ∧ y.owner = t

/-- A step that sets the process switch. -/
def SetsProcess (x : Act) : Prop := ∃ b, x = .setProcess b ∨ x = .storeProcess b

end Scalopus.Scopes
