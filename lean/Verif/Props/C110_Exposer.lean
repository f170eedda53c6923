import Verif.Model.Exposer
import Verif.Props.C42_Manager
import Verif.Props.C81_PyTool

/-!
# C110: the commands of the tool work with every process that uses `DefaultExposer`

`l` are the processes that the tool finds, in any order. `Exposed p`: `p` made a `DefaultExposer`, and possibly added endpoints of its own.
-/

namespace Scalopus.C110

open Exposer C81

/-- The process made a `DefaultExposer`, and added the endpoints `more`. -/
def Exposed (p : Process) (more : List String) : Prop := p = exposed p.pid p.name p.threads p.trace more

/-- What the operating system and the library guarantee of a process, see `C81.Ok`. -/
structure Sane (p : Process) : Prop where
  pid : -2 ^ 31 ≤ p.pid ∧ p.pid < 2 ^ 31
  threads : (p.threads.map (·.1)).Nodup
  tids : ∀ x ∈ p.threads, x.1 < 2 ^ 64
  trace : ∃ acts, TraceState.run {} acts = .ok p.trace ∧ ∀ tid, .start tid ∈ acts → tid < 2 ^ 64

/-- The process answers the tool's questions in time. -/
def Prompt (e : PyTool.Env) : Prop := e.infoLate = false ∧ e.supportedLate = false ∧ e.setLate = false

/-- The switch for tracing of the process is `b`. -/
def SwitchIs (t : TraceState.State) (b : Bool) : Prop := t.process = b

/-- **C110** in full: `discover` lists every process with a `DefaultExposer`, and `trace_configure` sets the switch of each one that is named on the command line. -/
def AllCommands : Prop := ∀ (l : List (Process × PyTool.Env)), (∀ x ∈ l, Sane x.1 ∧ Exposed x.1 [] ∧ Prompt x.2) → (l.map (·.1.pid)).Nodup →
  ((discover l).2 = .ok () ∧ ((discover l).1.map (·.pid)).Perm (l.map (·.1.pid))) ∧
  ∀ (a : PyTool.Args) (b : Bool), a.state = some b → ∀ (i : Nat) x p', l[i]? = some x → x.1.pid ∈ a.ids → (traceConfigure a l).procs[i]? = some p' → SwitchIs p'.trace b

theorem manager_reachable (c : Command) : Manager.Reachable (manager c) := by
  unfold manager
  generalize registers c = ns
  have : ∀ (ns : List String) (s : Manager.State), Manager.Reachable s → Manager.Reachable (ns.foldl (fun s n => Manager.addFactory n 1 s) s) := by
    intro ns
    induction ns with
    | nil => intro s h; exact h
    | cons n ns ih => intro s h; exact ih _ (.addFactory h)
  exact this ns {} .init

theorem manager_factories (c : Command) (n : String) : ((manager c).factories.lookup n).isSome ↔ n ∈ registers c ∨ n = "introspect" := by
  have : ∀ (ns : List String) (s : Manager.State), ((ns.foldl (fun s n => Manager.addFactory n 1 s) s).factories.lookup n).isSome ↔ n ∈ ns ∨ (s.factories.lookup n).isSome := by
    intro ns
    induction ns with
    | nil => intro s; simp
    | cons m ns ih =>
      intro s
      rw [List.foldl_cons, ih, C43.addFactory_exact]
      by_cases h : n = m
      · simp [h]
      · simp [h]
  rw [manager, this]
  by_cases h : n = "introspect"
  · simp [h]
  · have : (n == "introspect") = false := by simpa using h
    simp [h, List.lookup, this]

theorem manager_empty (c : Command) : (manager c).transports = [] := by cases c <;> rfl

theorem dest_answer (i : Nat) (p : Process) : Endpoints.supported true (dest i p).answer = .ok (if "introspect" ∈ p.serves ∧ p.slow = false then p.serves else []) := by
  unfold dest
  split
  · exact C82.supported_ok _
  · rfl

theorem discovery_ok (c : Command) (l : List Process) : ∃ s, discovery c l = (s, .ok ()) := by
  refine ⟨(discovery c l).1, Prod.ext rfl ?_⟩
  refine C44.good_poll_ends_partial (manager_reachable c) _ ⟨?_, ?_, fun _ _ => ⟨_, rfl⟩⟩
  · intro d hd
    obtain ⟨i, h, rfl⟩ := List.mem_mapIdx.1 hd
    exact ⟨true, rfl⟩
  · intro d hd
    obtain ⟨i, h, rfl⟩ := List.mem_mapIdx.1 hd
    exact ⟨_, dest_answer _ _⟩

theorem mem_lookup {α β : Type} [DecidableEq α] {l : List (α × β)} (hn : (l.map (·.1)).Nodup) {x : α × β} (h : x ∈ l) : l.lookup x.1 = some x.2 := by
  induction l with
  | nil => cases h
  | cons y l ih =>
    obtain ⟨k, v⟩ := y
    rw [List.map_cons, List.nodup_cons] at hn
    rcases List.mem_cons.1 h with rfl | h
    · simp [List.lookup]
    · have : (x.1 == k) = false := by
        rw [beq_eq_false_iff_ne]
        intro e
        exact hn.1 (List.mem_map.2 ⟨x, h, e⟩)
      rw [List.lookup, this]
      exact ih hn.2 h

/-- A process that was not discovered has no endpoints. -/
theorem has_unknown (s : Manager.State) (i : Nat) (n : String) (h : s.transports.lookup i = none) : has s i n = false := by
  simp [has, h]

/-- A command gets an endpoint of a process if and only if the process serves it and tells its endpoints in time, and the command wants it (or it is the one for introspection). -/
theorem has_iff (c : Command) (l : List Process) (i : Nat) (p : Process) (hi : l[i]? = some p) (n : String) :
    has (discovery c l).1 i n = true ↔ n ∈ p.serves ∧ "introspect" ∈ p.serves ∧ p.slow = false ∧ (n ∈ registers c ∨ n = "introspect") := by
  obtain ⟨s, hs⟩ := discovery_ok c l
  rw [hs]
  have hr := manager_reachable c
  have hr' : Manager.Reachable s := .manage hr hs (Or.inl ⟨(), rfl⟩)
  obtain ⟨hlt, hget⟩ := List.getElem?_eq_some_iff.1 hi
  have hmem : dest i p ∈ l.mapIdx dest := List.mem_mapIdx.2 ⟨i, hlt, by rw [hget]⟩
  have hd := C42.discovered_connected hr _ hs (dest i p) hmem rfl
  obtain ⟨⟨h, t⟩, hx, hh⟩ := List.mem_map.1 hd
  have hh : h = i := hh
  subst hh
  have hnew : (h, t) ∉ (manager c).transports := by rw [manager_empty]; simp
  obtain ⟨d, hdm, hdh, names, hnames, table, htab, hex, _⟩ := C43.endpoints_exact hr _ hs (h, t) hx hnew
  obtain ⟨j, hj, rfl⟩ := List.mem_mapIdx.1 hdm
  have hji : j = h := hdh
  subst hji
  have hp : l[j] = p := hget
  rw [hp, dest_answer] at hnames
  have hnames := Res.ok.inj hnames
  have hlook := mem_lookup (C42.one_per_server hr').1 hx
  simp only [has, hlook, htab, Option.getD_some]
  rw [Option.isSome_iff_exists]
  simp only [hex]
  have hf := manager_factories c n
  rw [Option.isSome_iff_exists] at hf
  constructor
  · rintro ⟨ep, h1, f, h2, _⟩
    rw [← hnames] at h1
    split at h1
    · rename_i hc
      exact ⟨h1, hc.1, hc.2, hf.1 ⟨f, h2⟩⟩
    · cases h1
  · rintro ⟨h1, h2, h3, h4⟩
    obtain ⟨f, hf⟩ := hf.2 h4
    exact ⟨0, by rw [← hnames, if_pos ⟨h2, h3⟩]; exact h1, f, hf, rfl⟩

theorem seen_all (l : List (Process × PyTool.Env)) (h : ∀ x ∈ l, Sane x.1 ∧ (∃ more, Exposed x.1 more) ∧ Prompt x.2) :
    ∀ x ∈ seenAll .discover l, Ok x.1 ∧ x.1.hasInfo = true ∧ x.1.hasIntrospect = true ∧ x.2.infoLate = false ∧ x.2.supportedLate = false := by
  intro x hx
  obtain ⟨i, hlt, rfl⟩ := List.mem_mapIdx.1 hx
  obtain ⟨hs, ⟨more, he⟩, hp⟩ := h _ (List.getElem_mem hlt)
  have hi : (l.map (·.1))[i]? = some l[i].1 := by rw [List.getElem?_map, List.getElem?_eq_getElem hlt]; rfl
  have hserve : ∀ n ∈ defaults, n ∈ l[i].1.serves := by
    intro n hn
    rw [he]
    exact List.mem_append_left _ hn
  have hslow : l[i].1.slow = false := by rw [he]; rfl
  refine ⟨⟨hs.pid, hs.threads, hs.tids, hs.trace⟩, ?_, ?_, hp.1, hp.2.1⟩
  · exact (has_iff .discover _ i _ hi _).2 ⟨hserve _ (by simp [defaults]), hserve _ (by simp [defaults]), hslow, .inl (by simp [registers])⟩
  · exact (has_iff .discover _ i _ hi _).2 ⟨hserve _ (by simp [defaults]), hserve _ (by simp [defaults]), hslow, .inr rfl⟩

/-- **C110, partial.** `discover` lists every process with a `DefaultExposer`, with its name, threads and endpoints, if all processes have one, answer in time, and have different pids. Together with
    `not_switched` this leaves `trace_configure`, which does not work. -/
theorem listed_partial (l : List (Process × PyTool.Env)) (h : ∀ x ∈ l, Sane x.1 ∧ (∃ more, Exposed x.1 more) ∧ Prompt x.2) (hd : (l.map (·.1.pid)).Nodup) :
    (discover l).2 = .ok () ∧ (discover l).1.Perm (l.map fun x => ⟨x.1.pid, x.1.name, x.1.serves, x.1.threads⟩) := by
  have hall := seen_all l h
  have hpids : (seenAll .discover l).map (·.1.pid) = l.map (·.1.pid) := by
    apply List.ext_getElem <;> simp [seenAll, seen]
  obtain ⟨h1, h2, _⟩ := C82.all_listed_partial (seenAll .discover l) hall (by rw [hpids]; exact hd)
  refine ⟨h1, h2.trans (List.Perm.of_eq ?_)⟩
  apply List.ext_getElem <;> simp [seenAll, seen, C82.entry]

/-- **C110 fails:** `DefaultExposer` does not add the endpoint for switching. A process that has not added it itself is never switched, whatever the command line says and whatever else runs: it is as before. -/
theorem not_switched (a : PyTool.Args) (l : List (Process × PyTool.Env)) (i : Nat) (p : Process) (e : PyTool.Env) (hi : l[i]? = some (p, e)) (more : List String) (hp : Exposed p more)
    (hm : "trace_configurator" ∉ more) : ∃ p', (traceConfigure a l).procs[i]? = some p' ∧ p'.trace = p.trace := by
  have hnot : has (discovery .traceConfigure (l.map (·.1))).1 i "trace_configurator" = false := by
    rw [Bool.eq_false_iff]
    intro hc
    have := ((has_iff .traceConfigure _ i p (by rw [List.getElem?_map, hi]; rfl) _).1 hc).1
    rw [hp] at this
    rcases List.mem_append.1 this with h | h
    · simp [defaults] at h
    · exact hm (List.mem_filter.1 h).1
  have key : ∀ (m : List (PyTool.Proc × PyTool.Env)) (j : Nat) (q : PyTool.Proc) (f : PyTool.Env), m[j]? = some (q, f) → q.hasConfig = false → (PyTool.configureAll a m).procs[j]? = some q := by
    intro m
    induction m with
    | nil => intro j q f h; simp at h
    | cons y m ih =>
      obtain ⟨r, g⟩ := y
      intro j q f h hq
      simp only [PyTool.configureAll]
      have rest : ∀ j : Nat, ((r, g) :: m)[j]? = some (q, f) → (r :: m.map (·.1))[j]? = some q := by
        intro j hj
        have : (((r, g) :: m).map (·.1))[j]? = some q := by rw [List.getElem?_map, hj]; rfl
        exact this
      cases j with
      | zero =>
        simp only [List.getElem?_cons_zero, Option.some.injEq, Prod.mk.injEq] at h
        obtain ⟨rfl, rfl⟩ := h
        simp [PyTool.configureOne, hq]
      | succ j =>
        cases hc : PyTool.configureOne a r g with
        | ok z => exact ih j q f (by simpa using h) hq
        | throws w => exact rest _ h
        | ub => exact rest _ h
        | terminate => exact rest _ h
  refine ⟨seen (discovery .traceConfigure (l.map (·.1))).1 i p, ?_, rfl⟩
  exact key _ i _ e (by simp [seenAll, List.getElem?_mapIdx, hi]) hnot

/-- A program that adds the endpoint itself is switched as the command line says, if all processes that serve it have a `DefaultExposer` and answer in time (for the threads see C81). -/
theorem switched_if_added (a : PyTool.Args) (l : List (Process × PyTool.Env)) (h : ∀ x ∈ l, Sane x.1 ∧ (∃ more, Exposed x.1 more) ∧ Prompt x.2) (i : Nat) (p : Process) (e : PyTool.Env)
    (hi : l[i]? = some (p, e)) (hm : "trace_configurator" ∈ p.serves) :
    ∃ q p', q.trace = p.trace ∧ q.threads = p.threads ∧ q.pid = p.pid ∧ (traceConfigure a l).procs[i]? = some p' ∧ Switched a q p' (Reached q) := by
  have hall : ∀ x ∈ seenAll .traceConfigure l, Ok x.1 ∧ x.1.hasInfo = true ∧ x.2.infoLate = false ∧ x.2.setLate = false := by
    intro x hx
    obtain ⟨j, hlt, rfl⟩ := List.mem_mapIdx.1 hx
    obtain ⟨hs, ⟨more, he⟩, hp⟩ := h _ (List.getElem_mem hlt)
    have hj : (l.map (·.1))[j]? = some l[j].1 := by rw [List.getElem?_map, List.getElem?_eq_getElem hlt]; rfl
    have hserve : ∀ n ∈ defaults, n ∈ l[j].1.serves := by
      intro n hn
      rw [he]
      exact List.mem_append_left _ hn
    refine ⟨⟨hs.pid, hs.threads, hs.tids, hs.trace⟩, ?_, hp.1, hp.2.2⟩
    exact (has_iff _ _ j _ hj _).2 ⟨hserve _ (by simp [defaults]), hserve _ (by simp [defaults]), by rw [he]; rfl, .inl (by simp [registers])⟩
  obtain ⟨_, ⟨more, hex⟩, _⟩ := h _ (List.mem_of_getElem? hi)
  replace hex : Exposed p more := hex
  have hc : has (discovery .traceConfigure (l.map (·.1))).1 i "trace_configurator" = true :=
    (has_iff _ _ i p (by rw [List.getElem?_map, hi]; rfl) _).2 ⟨hm, by rw [hex]; exact List.mem_append_left _ (by simp [defaults]), by rw [hex]; rfl, .inl (by simp [registers])⟩
  have hf := as_asked_partial a (seenAll .traceConfigure l) (fun x hx => (hall x hx).1) (fun x hx _ => ⟨(hall x hx).2.1, (hall x hx).2.2.1, .inl (hall x hx).2.2.2⟩)
  have hget : (seenAll .traceConfigure l)[i]? = some (seen (discovery .traceConfigure (l.map (·.1))).1 i p, e) := by simp [seenAll, List.getElem?_mapIdx, hi]
  obtain ⟨hlt, hval⟩ := List.getElem?_eq_some_iff.1 hget
  have hlt' : i < (traceConfigure a l).procs.length := by rw [← show _ = (traceConfigure a l).procs.length from hf.length_eq]; exact hlt
  refine ⟨seen (discovery .traceConfigure (l.map (·.1))).1 i p, (traceConfigure a l).procs[i], rfl, rfl, rfl, List.getElem?_eq_getElem hlt', ?_⟩
  have := (List.forall₂_iff_get.1 hf).2 i hlt hlt'
  simp only [List.get_eq_getElem, hval] at this
  exact this.1 hc

/-- The processes with a `DefaultExposer` give what the commands that record need: the recordings get their events, the names of their tracepoints and of their threads. -/
theorem recorded (c : Command) (hc : c = .record ∨ c = .catapultServer) (l : List Process) (i : Nat) (p : Process) (hi : l[i]? = some p) (more : List String) (hp : Exposed p more) :
    ∀ n ∈ defaults, has (discovery c l).1 i n = true := by
  intro n hn
  have hserve : ∀ n ∈ defaults, n ∈ p.serves := by
    intro n hn
    rw [hp]
    exact List.mem_append_left _ hn
  refine (has_iff c l i p hi n).2 ⟨hserve n hn, hserve _ (by simp [defaults]), by rw [hp]; rfl, ?_⟩
  simp only [defaults, List.mem_cons, List.not_mem_nil, or_false] at hn
  rcases hc with rfl | rfl <;> rcases hn with rfl | rfl | rfl | rfl <;> simp [registers]

/-- A process with two `DefaultExposer`s under different names: `discover` ends with an exception. -/
theorem two_exposers_fail : ∃ p q : Process, Exposed p [] ∧ Exposed q [] ∧ p.pid = q.pid ∧ p.threads = q.threads ∧ discover [(p, {}), (q, {})] = ([], .throws "TypeError") :=
  ⟨exposed 7 "a" [(7, "main")] {} [], exposed 7 "b" [(7, "main")] {} [], rfl, rfl, rfl, rfl, by decide +kernel⟩

/-- So it is for every process with two such exposers, whatever other programs run: nothing is listed at all. -/
theorem two_exposers_always (l : List (Process × PyTool.Env)) (h : ∀ x ∈ l, Sane x.1 ∧ (∃ more, Exposed x.1 more) ∧ Prompt x.2) (i k : Nat) (x y : Process × PyTool.Env) (hi : l[i]? = some x)
    (hk : l[k]? = some y) (hp : x.1.pid = y.1.pid) (hne : x.1.name ≠ y.1.name) : discover l = ([], .throws "TypeError") := by
  have key : ∀ (i : Nat) x, l[i]? = some x → (seen (discovery .discover (l.map (·.1))).1 i x.1, x.2) ∈ seenAll .discover l := by
    intro i x hi
    obtain ⟨hlt, rfl⟩ := List.getElem?_eq_some_iff.mp hi
    exact List.mem_mapIdx.2 ⟨i, hlt, rfl⟩
  refine C82.equal_pids_hide_all _ (seen_all l h) _ _ (key i x hi) (key k y hk) hp ?_
  intro e
  exact hne (congrArg (·.name) e)

theorem sane_exposed (more : List String) : Sane (exposed 7 "main.py" [(8, "worker")] {} more) :=
  ⟨by simp [exposed], by simp [exposed], by simp [exposed], [], rfl, by simp⟩

theorem not_AllCommands : ¬ AllCommands := by
  intro h
  have h1 := h [(exposed 7 "main.py" [(8, "worker")] {} [], {})] (by
    intro x hx
    simp only [List.mem_singleton] at hx
    subst hx
    exact ⟨sane_exposed [], rfl, rfl, rfl, rfl⟩) (by simp)
  obtain ⟨p', e1, e2⟩ := not_switched { state := some false, ids := [7] } [(exposed 7 "main.py" [(8, "worker")] {} [], {})] 0 _ _ rfl [] rfl (by simp)
  have := h1.2 { state := some false, ids := [7] } false rfl 0 _ p' rfl (by simp [exposed]) e1
  rw [SwitchIs, e2] at this
  cases this

/-- Two programs, one of which added the endpoint for switching: it is switched off, the other one is not, and both are listed. -/
example : ∃ p q, (traceConfigure { state := some false, ids := [7, 9] } [(exposed 7 "a" [] {} ["trace_configurator"], {}), (exposed 9 "b" [] {} [], {})]).procs = [p, q] ∧
    p.trace.process = false ∧ q.trace.process = true ∧ (discover [(exposed 9 "b" [] {} [], {}), (exposed 7 "a" [] {} ["trace_configurator"], {})]).1.map (·.pid) = [7, 9] :=
  ⟨_, _, rfl, by decide +kernel, by decide +kernel, by decide +kernel⟩

end Scalopus.C110
