/-!
# Recording intervals of native trace sources

Models the state of `NativeTraceSource` (scalopus_tracing/src/native/native_trace_source.cpp:37-89, 209-213) and how `NativeTraceProvider::incoming`
(native_trace_provider.cpp:44-50, 64-91) hands arriving data to the sources. Each access to an atomic flag or to data under a mutex is one step; the steps of all threads
interleave freely. Any number of receiving threads may be in `incoming` at once (there is one per connected transport). Each source is controlled by one thread at a time.

Ghost state that the code does not have: arrivals are numbered, recorded data carries the number of its arrival, and `log` lists what can be observed from outside.
-/

namespace Scalopus.Recording

/-- What is observed from outside. -/
inductive Obs (δ : Type) where
  /-- `startInterval()` of a source begins. -/
  | starting (i : Nat)
  /-- `startInterval()` of a source returns. -/
  | started (i : Nat)
  /-- `stopInterval()`, one step. -/
  | stopping (i : Nat)
  /-- `finishInterval()` begins. -/
  | finishing (i : Nat)
  /-- `finishInterval()` has taken this data (with the numbers of the arrivals), which it converts and returns. -/
  | returned (i : Nat) (data : List (Nat × δ))
  /-- `finishInterval()` ends with an exception. -/
  | failed (i : Nat)
  /-- `incoming(data)` is called; the number of this arrival. -/
  | called (n : Nat) (d : δ)
  /-- `incoming` returns. -/
  | completed (n : Nat)
  deriving DecidableEq

/-- Where the controlling thread of a source is. -/
inductive Ctl where
  | idle
  /-- in `startInterval`, after line 48 -/
  | start1
  /-- in `startInterval`, after line 52 -/
  | start2
  /-- in `finishInterval`, after line 74 -/
  | fin1
  deriving DecidableEq

/-- `in_interval_` and `recorded_data_`, native_trace_source.h:75-78. -/
structure Src (δ : Type) where
  on : Bool := false
  data : List (Nat × δ) := []
  ctl : Ctl := .idle

/-- A call of `incoming`, native_trace_provider.cpp:64-91. -/
inductive Arrival (δ : Type) where
  | none
  /-- before the lock in line 68 -/
  | called (d : δ)
  /-- in the loop in lines 71-77: the sources still to be asked, and those found to record -/
  | checking (d : δ) (todo chosen : List Nat)
  /-- in the loop in lines 87-90: the sources that still have to get the data -/
  | adding (d : δ) (todo : List Nat)
  | done

structure State (δ : Type) where
  /-- `sources_`: sources 0, …, count - 1 were made; the provider never removes any. -/
  count : Nat := 0
  src : Nat → Src δ := fun _ => {}
  arr : Nat → Arrival δ := fun _ => .none
  log : List (Obs δ) := []

/-- The steps. -/
inductive Act (δ : Type) where
  | make
  | start (i : Nat) | clear (i : Nat) | on (i : Nat)
  | stop (i : Nat)
  | finish (i : Nat) | swap (i : Nat) | fail (i : Nat)
  | call (n : Nat) (d : δ) | lock (n : Nat) | check (n i : Nat) | unlock (n : Nat) | add (n i : Nat) | ret (n : Nat)

variable {δ : Type}

def State.setSrc (s : State δ) (i : Nat) (x : Src δ) (o : List (Obs δ)) : State δ :=
  { s with src := fun j => if j = i then x else s.src j, log := s.log ++ o }

def State.setArr (s : State δ) (n : Nat) (x : Arrival δ) (o : List (Obs δ)) : State δ :=
  { s with arr := fun m => if m = n then x else s.arr m, log := s.log ++ o }

/-- One step; `none`: the step is not possible now. -/
def step (s : State δ) : Act δ → Option (State δ)
  /- `makeSource`, native_trace_provider.cpp:44-50 -/
  | .make => some { s with count := s.count + 1 }
  /- `startInterval`, native_trace_source.cpp:46-54: line 48, lines 49-52, line 53 -/
  | .start i => if i < s.count ∧ (s.src i).ctl = .idle then some (s.setSrc i { s.src i with on := false, ctl := .start1 } [.starting i]) else none
  | .clear i => if (s.src i).ctl = .start1 then some (s.setSrc i { s.src i with data := [], ctl := .start2 } []) else none
  | .on i => if (s.src i).ctl = .start2 then some (s.setSrc i { s.src i with on := true, ctl := .idle } [.started i]) else none
  /- `stopInterval`, native_trace_source.cpp:56-59 -/
  | .stop i => if i < s.count ∧ (s.src i).ctl = .idle then some (s.setSrc i { s.src i with on := false } [.stopping i]) else none
  /- `finishInterval`, native_trace_source.cpp:70-207: line 74, lines 84-88 (the rest works on the data taken: `Model/NativeSource`), an exception from line 80 -/
  | .finish i => if i < s.count ∧ (s.src i).ctl = .idle then some (s.setSrc i { s.src i with on := false, ctl := .fin1 } [.finishing i]) else none
  | .swap i => if (s.src i).ctl = .fin1 then some (s.setSrc i { s.src i with data := [], ctl := .idle } [.returned i (s.src i).data]) else none
  | .fail i => if (s.src i).ctl = .fin1 then some (s.setSrc i { s.src i with ctl := .idle } [.failed i]) else none
  /- `incoming`, native_trace_provider.cpp:64-91 -/
  | .call n d => match s.arr n with
    | .none => some (s.setArr n (.called d) [.called n d])
    | _ => none
  | .lock n => match s.arr n with
    | .called d => some (s.setArr n (.checking d (List.range s.count) []) [])
    | _ => none
  /- line 73; the order of the set is that of pointers, so any order is allowed -/
  | .check n i => match s.arr n with
    | .checking d todo chosen =>
      if i ∈ todo then some (s.setArr n (.checking d (todo.erase i) (if (s.src i).on then chosen ++ [i] else chosen)) []) else none
    | _ => none
  | .unlock n => match s.arr n with
    | .checking d [] chosen => some (s.setArr n (.adding d chosen) [])
    | _ => none
  /- `addData`, native_trace_source.cpp:209-213 -/
  | .add n i => match s.arr n with
    | .adding d todo =>
      if i ∈ todo then some ((s.setArr n (.adding d (todo.erase i)) []).setSrc i { s.src i with data := (s.src i).data ++ [(n, d)] } []) else none
    | _ => none
  | .ret n => match s.arr n with
    | .adding _ [] => some (s.setArr n .done [.completed n])
    | _ => none

/-- Every history. -/
inductive Reachable : State δ → Prop
  | init : Reachable {}
  | step {s s' : State δ} {a : Act δ} : Reachable s → step s a = some s' → Reachable s'

end Scalopus.Recording
