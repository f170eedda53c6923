import Verif.Model.PyTool
import Verif.Props.C25_Configurator
import Verif.Props.C47_Endpoints
import Mathlib.Data.List.Forall2
import Mathlib.Data.List.Nodup
import Mathlib.Data.List.Perm.Basic

/-!
# C81: `trace_configure` sets exactly the switches that were asked for; C82: `discover` lists every process
-/

namespace Scalopus.C81

open PyTool Configurator TraceState

/-- What the operating system and the library guarantee of a process: a 32 bit pid, different thread ids of 64 bits, and a state of the switches that came about by some history. -/
structure Ok (p : Proc) : Prop where
  pid : -2 ^ 31 ≤ p.pid ∧ p.pid < 2 ^ 31
  threads : (p.threads.map (·.1)).Nodup
  tids : ∀ x ∈ p.threads, x.1 < 2 ^ 64
  trace : ∃ acts, TraceState.run {} acts = .ok p.trace ∧ ∀ tid, .start tid ∈ acts → tid < 2 ^ 64

/-- The value of the process switch that the command line asks for, if it was `old`. -/
def wantedProcess (a : Args) (pid : Int) (old : Bool) : Bool := if pid ∈ a.ids then a.state == some true else a.unmatched.getD old

/-- The switch of a thread is `on` afterwards: those with an id on the command line have the new value, all others are as before. `all` says which threads can be reached. -/
def wantedThread (a : Args) (reach : Spec.Thread → Prop) [DecidablePred reach] (th : Spec.Thread) : Spec.Thread :=
  { th with on := if reach th ∧ (th.tid : Int) ∈ a.ids then a.state == some true else th.on }

/-- From `p` to `p'`, the switches changed as the command line asks for, for the threads in `reach`. -/
def Switched (a : Args) (p p' : Proc) (reach : Spec.Thread → Prop) [DecidablePred reach] : Prop :=
  ∃ acts acts', TraceState.run {} acts = .ok p.trace ∧ TraceState.run {} acts' = .ok p'.trace ∧
    (Spec.run {} acts').process = wantedProcess a p.pid (Spec.run {} acts).process ∧
    (Spec.run {} acts').threads = (Spec.run {} acts).threads.map (wantedThread a reach)

/-- **C81** in full: whatever processes there are, and however quickly they answer the query for information, every process that serves the configurator and gets the command has exactly the switches
    changed that the command line asks for; threads that have ended do not matter. -/
def AsAsked : Prop := ∀ (a : Args) (l : List (Proc × Env)), (∀ x ∈ l, Ok x.1) →
  ∀ (i : Nat) p e p', l[i]? = some (p, e) → (traceConfigure a l).procs[i]? = some p' → p.hasConfig = true → (e.setLate = false ∨ e.setHandled = true) →
    Switched a p p' (fun th => th.ended = false)

/-- The threads that the tool reaches: they exist, have reached a tracepoint, and have a name. -/
def Reached (p : Proc) (th : Spec.Thread) : Prop := th.ended = false ∧ th.used = true ∧ ∃ n, (th.tid, n) ∈ p.threads

instance (p : Proc) : DecidablePred (Reached p) := fun th =>
  decidable_of_iff (th.ended = false ∧ th.used = true ∧ (p.threads.any fun x => x.1 = th.tid) = true) (by
    simp only [Reached, List.any_eq_true, decide_eq_true_eq, Prod.exists]
    constructor
    · rintro ⟨h1, h2, t, n, h3, rfl⟩; exact ⟨h1, h2, n, h3⟩
    · rintro ⟨h1, h2, n, h3⟩; exact ⟨h1, h2, _, n, h3, rfl⟩)

/-- What an entry of the listing has to say about a process. -/
def Describes (x : Entry) (p' : Proc) : Prop :=
  x.pid = p'.pid ∧ x.info = { name := p'.name, threads := p'.threads, pid := p'.pid } ∧ x.state.success = true ∧ ∃ acts', TraceState.run {} acts' = .ok p'.trace ∧ C25.Tells x.state (Spec.run {} acts')

/-- The process can be configured by the tool. -/
def Good (p : Proc) (e : Env) : Prop := p.hasInfo = true ∧ e.infoLate = false ∧ e.setLate = false

theorem askInfo_ok {p : Proc} {e : Env} (h : Ok p) (he : e.infoLate = false) : askInfo p e = .ok { name := p.name, threads := p.threads, pid := p.pid } := by
  obtain ⟨reply, h1, h2⟩ := C47.info_exact p.pid e.junk p.name p.threads h.pid h.threads h.tids
  simp only [askInfo, h1, he, inWorker, Res.bind_ok, h2, Bool.false_eq_true, if_false]

open Classical in
theorem newState_lookup (a : Args) (i : Endpoints.ProcessInfo) (tid : Nat) :
    ((newState a i).threads.lookup tid) = if (tid : Int) ∈ a.ids ∧ ∃ n, (tid, n) ∈ i.threads then some (a.state == some true) else none := by
  simp only [newState]
  generalize i.threads = l
  induction l with
  | nil => simp
  | cons x l ih =>
    obtain ⟨k, n⟩ := x
    by_cases hk : (k : Int) ∈ a.ids
    · rw [List.filter_cons_of_pos (by simpa using hk), List.map_cons, List.lookup_cons]
      by_cases e : tid = k
      · subst e
        simp only [BEq.rfl, hk, List.mem_cons, Prod.mk.injEq, true_and]
        rw [if_pos ⟨n, Or.inl rfl⟩]
        cases a.state with
        | none => rfl
        | some b => cases b <;> rfl
      · have : (tid == k) = false := by simpa using e
        rw [this]
        simp only [ih, List.mem_cons, Prod.mk.injEq, e, false_and, false_or]
    · rw [List.filter_cons_of_neg (by simpa using hk), ih]
      by_cases e : tid = k
      · subst e
        simp only [hk, false_and, if_false]
      · simp only [List.mem_cons, Prod.mk.injEq, e, false_and, false_or]

theorem newState_threads (a : Args) (i : Endpoints.ProcessInfo) (hn : (i.threads.map (·.1)).Nodup) (hb : ∀ x ∈ i.threads, x.1 < 2 ^ 64) :
    ((newState a i).threads.map (·.1)).Nodup ∧ ∀ x ∈ (newState a i).threads, x.1 < 2 ^ 64 := by
  have e : (newState a i).threads.map (·.1) = (i.threads.filter fun t => (t.1 : Int) ∈ a.ids).map (·.1) := by simp [newState, List.map_map, Function.comp_def]
  refine ⟨?_, ?_⟩
  · rw [e]
    exact hn.sublist (List.filter_sublist.map _)
  · intro x hx
    simp only [newState, List.mem_map, List.mem_filter] at hx
    obtain ⟨y, ⟨hy, _⟩, rfl⟩ := hx
    exact hb y hy

theorem started (acts : List Act) : ∀ (s : Spec.State), ∀ th ∈ (Spec.run s acts).threads, (∃ x ∈ s.threads, x.tid = th.tid) ∨ .start th.tid ∈ acts := by
  induction acts with
  | nil => intro s th hth; exact .inl ⟨th, hth, rfl⟩
  | cons x acts ih =>
    intro s th hth
    rcases ih _ th hth with ⟨y, hy, e⟩ | hm
    · have hmod : ∀ (t : Nat) (f : Spec.Thread → Spec.Thread), (∀ z, (f z).tid = z.tid) → y ∈ s.threads.modify t f → ∃ x ∈ s.threads, x.tid = th.tid := by
        intro t f hf hy
        obtain ⟨i, hi⟩ := List.getElem?_of_mem hy
        rw [List.getElem?_modify] at hi
        cases hz : s.threads[i]? with
        | none => rw [hz] at hi; simp at hi
        | some z =>
          rw [hz] at hi
          refine ⟨z, List.mem_of_getElem? hz, ?_⟩
          have hi' : (if t = i then f z else z) = y := by
            by_cases ht : t = i
            · simpa [ht] using hi
            · simpa [ht] using hi
          rw [← e, ← hi']
          split
          · exact (hf z).symm
          · rfl
      cases x with
      | start tid =>
        simp only [Spec.step] at hy
        split at hy
        · exact .inl ⟨y, hy, e⟩
        · replace hy : y ∈ s.threads ++ [{ tid := tid }] := hy
          simp only [List.mem_append, List.mem_singleton] at hy
          rcases hy with hy | rfl
          · exact .inl ⟨y, hy, e⟩
          · right; rw [← e]; simp
      | _ =>
        left
        simp only [Spec.step, Spec.State.upd, Spec.State.out] at hy
        repeat' (first | exact ⟨y, hy, e⟩ | (refine hmod _ _ ?_ hy; intro _; rfl) | split at hy)
    · exact .inr (by simp [hm])

/-- One process. -/
theorem one (a : Args) (p : Proc) (e : Env) (h : Ok p) (hc : p.hasConfig = true) (hi : p.hasInfo = true) (he : e.infoLate = false) :
    ∃ t reply, handle p.trace (some (setRequest (newState a { name := p.name, threads := p.threads, pid := p.pid }))) = .ok (t, .obj [("state", toJson reply)]) ∧
      Switched a p { p with trace := t } (Reached p) ∧ (∃ acts', TraceState.run {} acts' = .ok t ∧ C25.Tells reply (Spec.run {} acts')) ∧ reply.setProcess = false ∧ (reply.threads.map (·.1)).Nodup ∧ ∀ x ∈ reply.threads, x.1 < 2 ^ 64 := by
  obtain ⟨acts, ha, hb⟩ := h.trace
  obtain ⟨h1, h2⟩ := newState_threads a { name := p.name, threads := p.threads, pid := p.pid } h.threads h.tids
  obtain ⟨s', xs, a', reply, e1, e2, e3, e4, e5, _, e7, e8⟩ := C25.set_exact acts p.trace ha _ h1 h2
  subst e3
  refine ⟨s', reply, e1, ⟨acts, acts ++ xs, ha, e2, ?_, ?_⟩, ⟨_, e2, e8⟩, e7, e8.2.1, ?_⟩
  rotate_left 2
  · rintro ⟨tid, b⟩ hx
    obtain ⟨th, hth, rfl, _⟩ := (e8.2.2 tid b).mp hx
    rw [e5, List.mem_map] at hth
    obtain ⟨y, hy, rfl⟩ := hth
    rcases started acts {} y hy with ⟨x, hx, _⟩ | hs
    · exact absurd hx (by simp)
    · exact hb _ hs
  · rw [e4]
    simp only [newState, wantedProcess]
    by_cases hp : p.pid ∈ a.ids
    · simp only [hp, true_or, decide_true, if_true]
      cases a.state with
      | none => rfl
      | some b => cases b <;> rfl
    · simp only [hp, false_or, if_false]
      cases a.unmatched with
      | none => rfl
      | some b => cases b <;> rfl
  · rw [e5]
    apply List.map_congr_left
    intro th _
    simp only [C25.applied, wantedThread, Spec.Thread.mk.injEq, true_and, and_true]
    rw [newState_lookup]
    by_cases hr : Reached p th
    · obtain ⟨r1, r2, r3⟩ := hr
      have hr : Reached p th := ⟨r1, r2, r3⟩
      rw [if_pos ⟨r2, r1⟩]
      by_cases hid : (th.tid : Int) ∈ a.ids
      · rw [if_pos ⟨hid, r3⟩, if_pos ⟨hr, hid⟩]; rfl
      · rw [if_neg (fun x => hid x.1), if_neg (fun x => hid x.2)]; rfl
    · rw [if_neg (c := Reached p th ∧ _) (fun x => hr x.1)]
      by_cases hu : th.used = true ∧ th.ended = false
      · rw [if_pos hu, if_neg (fun x => hr ⟨hu.2, hu.1, x.2⟩)]; rfl
      · rw [if_neg hu]

/-- The entry of one process. -/
theorem configureOne_ok (a : Args) (p : Proc) (e : Env) (h : Ok p) (hc : p.hasConfig = true) (hi : p.hasInfo = true) (he : e.infoLate = false) :
    ∃ t reply, Switched a p { p with trace := t } (Reached p) ∧ (∃ acts', TraceState.run {} acts' = .ok t ∧ C25.Tells reply (Spec.run {} acts')) ∧
      (e.setLate = false → configureOne a p e = .ok ({ p with trace := t }, some ⟨p.pid, { name := p.name, threads := p.threads, pid := p.pid }, { reply with success := true }⟩)) ∧
      (e.setLate = true → configureOne a p e = .ok ({ p with trace := if e.setHandled then t else p.trace }, none)) := by
  obtain ⟨t, reply, e1, e2, e3, _, e6, e7⟩ := one a p e h hc hi he
  refine ⟨t, reply, e2, e3, ?_, ?_⟩
  · intro hs
    unfold configureOne
    rw [if_neg (by simp [hc]), if_neg (by simp [hi]), askInfo_ok h he]
    simp only [Res.bind_ok, e1, inWorker, hs, Bool.false_eq_true, if_false, (C25.client_result reply e6 e7).1, if_true]
    rfl
  · intro hs
    unfold configureOne
    rw [if_neg (by simp [hc]), if_neg (by simp [hi]), askInfo_ok h he]
    simp only [Res.bind_ok, e1, inWorker, hs, if_true, clientResult, Bool.false_eq_true, if_false]
    rfl

/-- **C81, partial.** If every process that serves the configurator also serves process information, answers that query in time, and gets the command, then exactly those processes are switched that
    were asked for, and of their threads those that have a name and have reached a tracepoint. The other processes are as before. Missing: threads without a name (`unnamed_thread_ignored`), processes
    without process information (`missing_info_stops`), late answers (`late_answer_switches_off`). -/
theorem as_asked_partial (a : Args) (l : List (Proc × Env)) (hl : ∀ x ∈ l, Ok x.1)
    (hg : ∀ x ∈ l, x.1.hasConfig = true → x.1.hasInfo = true ∧ x.2.infoLate = false ∧ (x.2.setLate = false ∨ x.2.setHandled = true)) :
    List.Forall₂ (fun x p' => (x.1.hasConfig = true → Switched a x.1 p' (Reached x.1)) ∧ (x.1.hasConfig = false → p' = x.1)) l (traceConfigure a l).procs := by
  show List.Forall₂ _ l (configureAll a l).procs
  induction l with
  | nil => exact .nil
  | cons x l ih =>
    obtain ⟨p, e⟩ := x
    have ih := ih (fun x hx => hl x (by simp [hx])) (fun x hx => hg x (by simp [hx]))
    have hp : Ok p := hl (p, e) (by simp)
    cases hc : p.hasConfig with
    | false =>
      have h1 : configureOne a p e = .ok (p, none) := by simp [configureOne, hc]
      simp only [configureAll, h1]
      exact .cons ⟨fun h => by simp only [hc] at h; exact absurd h (by simp), fun _ => rfl⟩ ih
    | true =>
      obtain ⟨g1, g2, g3⟩ := hg (p, e) (by simp) hc
      obtain ⟨t, reply, e2, _, e3, e4⟩ := configureOne_ok a p e hp hc g1 g2
      have key : ∃ x, configureOne a p e = .ok ({ p with trace := t }, x) := by
        cases hs : e.setLate with
        | false => exact ⟨_, e3 hs⟩
        | true =>
          have hh : e.setHandled = true := by
            rcases g3 with h | h
            · exact absurd h (by simp [hs])
            · exact h
          exact ⟨_, by rw [e4 hs, if_pos hh]⟩
      obtain ⟨x, key⟩ := key
      simp only [configureAll, key]
      exact .cons ⟨fun _ => e2, fun h => by simp only [hc] at h; exact absurd h (by simp)⟩ ih

theorem insertBy_perm {α : Type} (f : α → Int) (x : α) : ∀ l : List α, (insertBy f x l).Perm (x :: l) := by
  intro l
  induction l with
  | nil => exact List.Perm.refl _
  | cons y l ih =>
    simp only [insertBy]
    split
    · exact List.Perm.refl _
    · exact (ih.cons y).trans (List.Perm.swap x y l)

theorem sortBy_perm {α : Type} (f : α → Int) : ∀ l : List α, (sortBy f l).Perm l := by
  intro l
  induction l with
  | nil => exact List.Perm.refl _
  | cons x l ih => exact (insertBy_perm f x _).trans (ih.cons x)

theorem insertBy_sorted {α : Type} (f : α → Int) (x : α) : ∀ l : List α, l.Pairwise (fun a b => f a ≤ f b) → (insertBy f x l).Pairwise (fun a b => f a ≤ f b) := by
  intro l
  induction l with
  | nil => intro _; simp [insertBy]
  | cons y l ih =>
    intro h
    simp only [insertBy]
    split
    · rename_i hxy
      refine List.pairwise_cons.mpr ⟨?_, h⟩
      intro z hz
      rcases List.mem_cons.mp hz with rfl | hz
      · exact hxy
      · exact Int.le_trans hxy ((List.pairwise_cons.mp h).1 z hz)
    · rename_i hxy
      refine List.pairwise_cons.mpr ⟨?_, ih (List.pairwise_cons.mp h).2⟩
      intro z hz
      rcases List.mem_cons.mp ((insertBy_perm f x l).mem_iff.mp hz) with rfl | hz
      · omega
      · exact (List.pairwise_cons.mp h).1 z hz

theorem sortBy_sorted {α : Type} (f : α → Int) : ∀ l : List α, (sortBy f l).Pairwise (fun a b => f a ≤ f b) := by
  intro l
  induction l with
  | nil => exact .nil
  | cons x l ih => exact insertBy_sorted f x _ ih

/-- Entries with different pids are sorted. -/
theorem sortEntries_ok {α : Type} [DecidableEq α] (f : α → Int) (l : List α) (h : (l.map f).Nodup) :
    ∃ l', sortEntries f l = .ok l' ∧ l'.Perm l ∧ l'.Pairwise (fun a b => f a < f b) := by
  refine ⟨sortBy f l, ?_, sortBy_perm f l, ?_⟩
  · unfold sortEntries
    rw [if_pos]
    simp only [List.all_eq_true, decide_eq_true_eq, Bool.or_eq_true]
    intro x hx y hy
    by_cases hf : f x = f y
    · exact Or.inr (List.inj_on_of_nodup_map h hx hy hf)
    · exact Or.inl hf
  · have h1 := sortBy_sorted f l
    have h2 : ((sortBy f l).map f).Nodup := ((sortBy_perm f l).map f).nodup_iff.mpr h
    rw [List.Nodup, List.pairwise_map] at h2
    exact (h1.and h2).imp fun ⟨a, b⟩ => by omega

/-- What the loop collects if all answers come in time. -/
theorem configureAll_entries (a : Args) (l : List (Proc × Env)) (hl : ∀ x ∈ l, Ok x.1) (hg : ∀ x ∈ l, x.1.hasConfig = true → Good x.1 x.2) :
    ∃ es, (configureAll a l).result = .ok es ∧ List.Forall₂ Describes es ((configureAll a l).procs.filter (·.hasConfig)) ∧
      es.map (·.pid) = (l.filter fun x => x.1.hasConfig).map (·.1.pid) := by
  induction l with
  | nil => exact ⟨[], rfl, .nil, rfl⟩
  | cons x l ih =>
    obtain ⟨p, e⟩ := x
    obtain ⟨es, i1, i2, i3⟩ := ih (fun x hx => hl x (by simp [hx])) (fun x hx => hg x (by simp [hx]))
    cases hc : p.hasConfig with
    | false =>
      have h1 : configureOne a p e = .ok (p, none) := by simp [configureOne, hc]
      refine ⟨es, ?_, ?_, ?_⟩
      · simp [configureAll, h1, i1, Res.bind]
      · simpa [configureAll, h1, hc] using i2
      · simpa [hc] using i3
    | true =>
      obtain ⟨g1, g2, g3⟩ := hg (p, e) (by simp) hc
      obtain ⟨t, reply, _, ⟨acts', e1, e2⟩, e3, _⟩ := configureOne_ok a p e (hl (p, e) (by simp)) hc g1 g2
      have h1 := e3 g3
      refine ⟨(⟨p.pid, { name := p.name, threads := p.threads, pid := p.pid }, { reply with success := true }⟩ : Entry) :: es, ?_, ?_, ?_⟩
      · simp [configureAll, h1, i1, Res.bind]
      · simp only [configureAll, h1]
        rw [List.filter_cons_of_pos (by exact hc)]
        exact .cons ⟨rfl, rfl, rfl, acts', e1, e2⟩ i2
      · rw [List.filter_cons_of_pos (by exact hc)]
        simp [i3]

/-- **C81, partial.** If moreover all answers come in time and the pids are different, the tool ends normally and lists every process that serves the configurator once, in the order of the pids,
    with its state after the change. Missing: as for `as_asked_partial`, and equal pids (`equal_pids_fail`). -/
theorem listing_partial (a : Args) (l : List (Proc × Env)) (hl : ∀ x ∈ l, Ok x.1) (hg : ∀ x ∈ l, x.1.hasConfig = true → Good x.1 x.2)
    (hd : ((l.filter fun x => x.1.hasConfig).map (·.1.pid)).Nodup) :
    ∃ es ps, (traceConfigure a l).result = .ok es ∧ es.Pairwise (fun x y => x.pid < y.pid) ∧ ps.Perm ((traceConfigure a l).procs.filter (·.hasConfig)) ∧ List.Forall₂ Describes es ps := by
  obtain ⟨es, h1, h2, h3⟩ := configureAll_entries a l hl hg
  obtain ⟨es', s1, s2, s3⟩ := sortEntries_ok Entry.pid es (by rw [h3]; exact hd)
  obtain ⟨ps, p1, p2⟩ := List.perm_comp_forall₂ s2 h2
  refine ⟨es', ps, ?_, s3, p2, p1⟩
  simp [traceConfigure, h1, Res.bind, s1]

/-- A switch that a thread holds is the one of the specification. -/
theorem cell_on {p : Proc} {acts : List Act} (h : TraceState.run {} acts = .ok p.trace) {y : TraceState.Cell} (hc : p.trace.cells[0]? = some y) :
    ∃ th, (Spec.run {} acts).threads[y.owner]? = some th ∧ th.on = y.val := by
  obtain ⟨x, h1, h2, _⟩ := (R_run R_init acts h).cell 0 y hc
  exact ⟨x, h1, h2⟩

theorem thread_is {p : Proc} {acts : List Act} (h : TraceState.run {} acts = .ok p.trace) {i : Nat} {x : Thread} (hx : p.trace.threads[i]? = some x) {th : Spec.Thread}
    (ht : (Spec.run {} acts).threads[i]? = some th) : th.tid = x.tid ∧ th.ended = x.ended := by
  obtain ⟨h1, _, h3, _⟩ := (R_run R_init acts h).thread i x th hx ht
  exact ⟨h1.symm, h3.symm⟩

/-- A process with one thread, number 5, which has reached a tracepoint. -/
def oneThread (pid : Int) (threads : List (Nat × String)) : Proc :=
  { pid := pid, threads := threads, trace := { cells := [{ owner := 0, val := true }], map := [(5, 0)], threads := [{ tid := 5, cleanup := true }], log := [.threadIs 0 true] } }

theorem oneThread_run (pid : Int) (threads : List (Nat × String)) : TraceState.run {} [.start 5, .getThread 0] = .ok (oneThread pid threads).trace := by rfl

theorem oneThread_ok (pid : Int) (threads : List (Nat × String)) (hp : -2 ^ 31 ≤ pid ∧ pid < 2 ^ 31) (hn : (threads.map (·.1)).Nodup) (hb : ∀ x ∈ threads, x.1 < 2 ^ 64) :
    Ok (oneThread pid threads) := ⟨hp, hn, hb, _, oneThread_run pid threads, by simp⟩

/-- **C81 fails:** a thread that has no name is not switched, although its id is on the command line. -/
theorem unnamed_thread_ignored : ∃ p', (traceConfigure { state := some false, ids := [5] } [(oneThread 77 [], {})]).procs = [p'] ∧
    (traceConfigure { state := some false, ids := [5] } [(oneThread 77 [], {})]).result.isOk = true ∧
    p'.trace.cells = [{ owner := 0, val := true }] ∧ ¬ Switched { state := some false, ids := [5] } (oneThread 77 []) p' (fun th => th.ended = false) := by
  refine ⟨{ oneThread 77 [] with trace := { (oneThread 77 []).trace with snaps := [[(5, 0)]] } }, by rfl, by rfl, by rfl, ?_⟩
  rintro ⟨acts, acts', h1, h2, _, h4⟩
  obtain ⟨th', t1, t2⟩ := cell_on (p := { oneThread 77 [] with trace := { (oneThread 77 []).trace with snaps := [[(5, 0)]] } }) h2 (y := { owner := 0, val := true }) rfl
  obtain ⟨th, u1, u2⟩ := cell_on h1 (y := { owner := 0, val := true }) rfl
  obtain ⟨v1, v2⟩ := thread_is h1 (i := 0) (x := { tid := 5, cleanup := true }) rfl u1
  simp only at t1 u1
  rw [h4, List.getElem?_map, u1, Option.map_some, Option.some.injEq] at t1
  rw [← t1] at t2
  simp [wantedThread, v1, v2] at t2

theorem not_AsAsked : ¬ AsAsked := by
  intro h
  obtain ⟨p', h1, _, _, h4⟩ := unnamed_thread_ignored
  refine h4 (h _ [(oneThread 77 [], {})] ?_ 0 _ {} p' rfl (by rw [h1]; rfl) rfl (Or.inl rfl))
  intro x hx
  rw [List.mem_singleton] at hx
  subst hx
  exact oneThread_ok 77 [] (by decide) (by simp) (by simp)

/-- **C81 fails:** a process that serves the configurator without process information stops the tool; the processes after it are not switched. -/
theorem missing_info_stops (a : Args) (p : Proc) (e : Env) (l : List (Proc × Env)) (hc : p.hasConfig = true) (hi : p.hasInfo = false) :
    (traceConfigure a ((p, e) :: l)).procs = p :: l.map (·.1) ∧ (traceConfigure a ((p, e) :: l)).result = .throws "KeyError" := by
  have h1 : configureOne a p e = .throws "KeyError" := by simp [configureOne, hc, hi]
  simp [traceConfigure, configureAll, h1, Res.bind]

/-- **C81 fails:** a process that should be switched on, but answers the query for information late, is switched off, as if it were not on the command line. -/
theorem late_answer_switches_off : ∃ p', (traceConfigure { state := some true, unmatched := some false, ids := [77] } [(oneThread 77 [], { infoLate := true, junk := 0 })]).procs = [p'] ∧
    p'.trace.process = false ∧ ¬ Switched { state := some true, unmatched := some false, ids := [77] } (oneThread 77 []) p' (fun th => th.ended = false) := by
  refine ⟨{ oneThread 77 [] with trace := { (oneThread 77 []).trace with process := false, snaps := [[(5, 0)]] } }, by rfl, by rfl, ?_⟩
  rintro ⟨acts, acts', _, h2, h3, _⟩
  have hp := (R_run R_init acts' h2).process
  rw [h3] at hp
  simp [wantedProcess, oneThread] at hp

/-- **C81 fails:** two processes with the same pid (they can be in different containers) make the tool fail after it has switched them, unless all else about them is equal too. -/
theorem equal_pids_fail : ∃ t, (traceConfigure { state := some false, ids := [77] } [(oneThread 77 [], {}), ({ oneThread 77 [] with name := "other" }, {})]).procs =
      [{ oneThread 77 [] with trace := t }, { oneThread 77 [] with name := "other", trace := t }] ∧ t.process = false ∧
    (traceConfigure { state := some false, ids := [77] } [(oneThread 77 [], {}), ({ oneThread 77 [] with name := "other" }, {})]).result = .throws "TypeError" :=
  ⟨{ (oneThread 77 []).trace with process := false, snaps := [[(5, 0)]] }, by rfl, by rfl, by decide⟩

/-- What the tool takes the process for: one whose answer is late has an arbitrary pid, and no threads. -/
def seenAs (p : Proc) (e : Env) : Proc := if e.infoLate then { p with pid := e.junk, name := "", threads := [] } else p

theorem askInfo_late {p : Proc} {e : Env} (h : Ok p) (he : e.infoLate = true) : askInfo p e = .ok { name := "", threads := [], pid := e.junk } := by
  obtain ⟨reply, h1, h2⟩ := C47.info_exact p.pid e.junk p.name p.threads h.pid h.threads h.tids
  simp only [askInfo, h1, he, inWorker, Res.bind_ok, if_true]
  rfl

/-- **C81 fails, for all late answers:** if all processes with a configurator serve process information and get the command, each one is switched as what the tool takes it for. A process that answers late
    is switched by its arbitrary pid: if that is not on the command line, the process switch gets the value for the others, also if its own pid is on the command line; its threads are never switched. -/
theorem as_seen (a : Args) (l : List (Proc × Env)) (hl : ∀ x ∈ l, Ok x.1) (hj : ∀ x ∈ l, -2 ^ 31 ≤ x.2.junk ∧ x.2.junk < 2 ^ 31)
    (hg : ∀ x ∈ l, x.1.hasConfig = true → x.1.hasInfo = true ∧ (x.2.setLate = false ∨ x.2.setHandled = true)) :
    List.Forall₂ (fun x p' => (x.1.hasConfig = true → Switched a (seenAs x.1 x.2) p' (Reached (seenAs x.1 x.2))) ∧ (x.1.hasConfig = false → p' = x.1)) l (traceConfigure a l).procs := by
  show List.Forall₂ _ l (configureAll a l).procs
  induction l with
  | nil => exact .nil
  | cons x l ih =>
    obtain ⟨p, e⟩ := x
    have ih := ih (fun x hx => hl x (by simp [hx])) (fun x hx => hj x (by simp [hx])) (fun x hx => hg x (by simp [hx]))
    have hp : Ok p := hl (p, e) (by simp)
    cases hc : p.hasConfig with
    | false =>
      have h1 : configureOne a p e = .ok (p, none) := by simp [configureOne, hc]
      simp only [configureAll, h1]
      exact .cons ⟨fun h => by simp only [hc] at h; exact absurd h (by simp), fun _ => rfl⟩ ih
    | true =>
      obtain ⟨g1, g3⟩ := hg (p, e) (by simp) hc
      have hq : Ok (seenAs p e) := by
        unfold seenAs
        split
        · exact ⟨hj (p, e) (by simp), List.nodup_nil, by simp, hp.trace⟩
        · exact hp
      have hask : askInfo p e = .ok { name := (seenAs p e).name, threads := (seenAs p e).threads, pid := (seenAs p e).pid } := by
        cases he : e.infoLate with
        | true => rw [askInfo_late hp he]; simp [seenAs, he]
        | false => rw [askInfo_ok hp he]; simp [seenAs, he]
      have htr : (seenAs p e).trace = p.trace := by unfold seenAs; split <;> rfl
      obtain ⟨t, reply, e1, e2, _, _, e6, e7⟩ := one a (seenAs p e) {} hq (by unfold seenAs; split <;> exact hc) (by unfold seenAs; split <;> exact g1) rfl
      rw [htr] at e1
      have key : ∃ x, configureOne a p e = .ok ({ p with trace := t }, x) := by
        unfold configureOne
        rw [if_neg (by simp [hc]), if_neg (by simp [show p.hasInfo = true from g1]), hask]
        cases hs : e.setLate with
        | false =>
          simp only [Res.bind_ok, e1, inWorker, Bool.false_eq_true, if_false, (C25.client_result reply e6 e7).1, if_true]
          exact ⟨_, rfl⟩
        | true =>
          have hh : e.setHandled = true := by
            rcases g3 with h | h
            · exact absurd h (by simp [hs])
            · exact h
          simp only [Res.bind_ok, e1, inWorker, hh, if_true, clientResult, Bool.false_eq_true, if_false]
          exact ⟨_, rfl⟩
      obtain ⟨x, key⟩ := key
      simp only [configureAll, key]
      exact .cons ⟨fun _ => e2, fun h => by simp only [hc] at h; exact absurd h (by simp)⟩ ih

/-- Two entries with the same pid that are not equal cannot be sorted. -/
theorem sortEntries_fails {α : Type} [DecidableEq α] (f : α → Int) (l : List α) (x y : α) (hx : x ∈ l) (hy : y ∈ l) (hf : f x = f y) (hne : x ≠ y) : sortEntries f l = .throws "TypeError" := by
  unfold sortEntries
  rw [if_neg]
  intro h
  simp only [List.all_eq_true, decide_eq_true_eq, Bool.or_eq_true] at h
  rcases h x hx y hy with h | h
  · exact h hf
  · exact hne h

/-- **C81 fails, for all equal pids:** if two processes that serve the configurator have the same pid (they can be in different containers), and different names or threads, the tool fails after it has switched
    all processes. -/
theorem equal_pids_always (a : Args) (l : List (Proc × Env)) (hl : ∀ x ∈ l, Ok x.1) (hg : ∀ x ∈ l, x.1.hasConfig = true → Good x.1 x.2)
    (x y : Proc × Env) (hx : x ∈ l) (hy : y ∈ l) (cx : x.1.hasConfig = true) (cy : y.1.hasConfig = true) (hp : x.1.pid = y.1.pid) (hne : x.1.name ≠ y.1.name ∨ x.1.threads ≠ y.1.threads) :
    (traceConfigure a l).result = .throws "TypeError" := by
  have key : ∀ es, (configureAll a l).result = .ok es → ∀ x ∈ l, x.1.hasConfig = true → ∃ en ∈ es, en.pid = x.1.pid ∧ en.info.name = x.1.name ∧ en.info.threads = x.1.threads := by
    clear hx hy
    induction l with
    | nil => intro _ _ x hx; exact absurd hx (by simp)
    | cons z l ih =>
      obtain ⟨p, e⟩ := z
      intro es hes x hx hc
      have ih := ih (fun x hx => hl x (by simp [hx])) (fun x hx => hg x (by simp [hx]))
      obtain ⟨es', h1, _, _⟩ := configureAll_entries a l (fun x hx => hl x (by simp [hx])) (fun x hx => hg x (by simp [hx]))
      cases hpc : p.hasConfig with
      | false =>
        have h2 : configureOne a p e = .ok (p, none) := by simp [configureOne, hpc]
        simp [configureAll, h2, h1, Res.bind] at hes
        subst hes
        rcases List.mem_cons.mp hx with rfl | hx
        · simp only [hpc] at hc; exact absurd hc (by simp)
        · exact ih es' h1 x hx hc
      | true =>
        obtain ⟨g1, g2, g3⟩ := hg (p, e) (by simp) hpc
        obtain ⟨t, reply, _, _, e3, _⟩ := configureOne_ok a p e (hl (p, e) (by simp)) hpc g1 g2
        have h2 := e3 g3
        simp [configureAll, h2, h1, Res.bind] at hes
        subst hes
        rcases List.mem_cons.mp hx with rfl | hx
        · exact ⟨_, List.mem_cons_self, rfl, rfl, rfl⟩
        · obtain ⟨en, k1, k2⟩ := ih es' h1 x hx hc
          exact ⟨en, List.mem_cons_of_mem _ k1, k2⟩
  obtain ⟨es, h1, _, _⟩ := configureAll_entries a l hl hg
  obtain ⟨ex, m1, m2, m3, m4⟩ := key es h1 x hx cx
  obtain ⟨ey, n1, n2, n3, n4⟩ := key es h1 y hy cy
  simp only [traceConfigure, h1, Res.bind]
  refine sortEntries_fails Entry.pid es ex ey m1 n1 (by rw [m2, n2, hp]) ?_
  rintro rfl
  rcases hne with h | h
  · exact h (m3.symm.trans n3)
  · exact h (m4.symm.trans n4)

/-- Three processes: one named by its pid, one with a thread that is named, one without a configurator. -/
example : ∃ es p1 p2, (traceConfigure { state := some false, unmatched := some true, ids := [77, 5] }
      [(oneThread 90 [(5, "worker"), (6, "main")], {}), (oneThread 77 [], {}), ({ oneThread 3 [(5, "x")] with hasConfig := false, hasInfo := false }, {})]) =
      ⟨[p1, p2, { oneThread 3 [(5, "x")] with hasConfig := false, hasInfo := false }], .ok es⟩ ∧
    p1.trace.process = true ∧ p1.trace.cells = [{ owner := 0, val := false }] ∧ p2.trace.process = false ∧ p2.trace.cells = [{ owner := 0, val := true }] ∧ es.map (·.pid) = [77, 90] := by
  refine ⟨_, _, _, rfl, ?_⟩
  decide

end Scalopus.C81

namespace Scalopus.C82

open PyTool Configurator C81

/-- What the listing has to say about a process. -/
def entry (p : Proc) : Listed := ⟨p.pid, p.name, p.supported, p.threads⟩

/-- **C82** in full: `discover` ends normally and lists every process that it finds once. -/
def AllListed : Prop := ∀ l : List (Proc × Env), (∀ x ∈ l, Ok x.1) → (discover l).2 = .ok () ∧ (discover l).1.Perm (l.map fun x => entry x.1)

theorem supported_ok (l : List String) : Endpoints.supported true (.data (some (.obj [("endpoints", .arr (l.map .str))]))) = .ok l := by
  simp only [Endpoints.supported, Endpoints.Answer.decode, Bool.true_eq_false, if_false, Res.bind_ok, Json.index, List.lookup, BEq.rfl, Json.asArr]
  induction l with
  | nil => rfl
  | cons x l ih => simp only [List.map_cons, Json.asStr, Res.mapM, Res.bind] at ih ⊢; simp [Res.mapM, Json.asStr, Res.bind] at ih ⊢; simp [ih]

theorem one {p : Proc} {e : Env} (h : Ok p) (hi : p.hasInfo = true) (hs : p.hasIntrospect = true) (e1 : e.infoLate = false) (e2 : e.supportedLate = false) :
    discoverOne p e = .ok (p.pid, ⟨some { name := p.name, threads := p.threads, pid := p.pid }, some p.supported⟩) := by
  simp [discoverOne, hi, hs, askInfo_ok h e1, e2, supported_ok]

theorem collect_ok : ∀ l : List (Proc × Env), (∀ x ∈ l, Ok x.1 ∧ x.1.hasInfo = true ∧ x.1.hasIntrospect = true ∧ x.2.infoLate = false ∧ x.2.supportedLate = false) →
    collect l = .ok (l.map fun x => (x.1.pid, ⟨some { name := x.1.name, threads := x.1.threads, pid := x.1.pid }, some x.1.supported⟩)) := by
  intro l
  induction l with
  | nil => intro _; rfl
  | cons x l ih =>
    intro h
    obtain ⟨p, e⟩ := x
    obtain ⟨h1, h2, h3, h4, h5⟩ := h (p, e) (by simp)
    simp [collect, one h1 h2 h3 h4 h5, ih (fun x hx => h x (by simp [hx]))]

theorem printAll_ok : ∀ l : List (Int × Found), (∀ x ∈ l, ∃ y, print x = .ok y) → ∃ ys, printAll l = (ys, .ok ()) ∧ List.Forall₂ (fun x y => print x = .ok y) l ys := by
  intro l
  induction l with
  | nil => intro _; exact ⟨[], rfl, .nil⟩
  | cons x l ih =>
    intro h
    obtain ⟨y, hy⟩ := h x (by simp)
    obtain ⟨ys, h1, h2⟩ := ih fun x hx => h x (by simp [hx])
    exact ⟨y :: ys, by simp [printAll, hy, h1], .cons hy h2⟩

/-- **C82, partial.** If all processes serve process information and introspection, answer in time and have different pids, then `discover` lists every one of them once, with its name, endpoints and
    threads, in the order of the pids. Missing: see `missing_info_hides_all`. -/
theorem all_listed_partial (l : List (Proc × Env)) (h : ∀ x ∈ l, Ok x.1 ∧ x.1.hasInfo = true ∧ x.1.hasIntrospect = true ∧ x.2.infoLate = false ∧ x.2.supportedLate = false)
    (hd : (l.map (·.1.pid)).Nodup) : (discover l).2 = .ok () ∧ (discover l).1.Perm (l.map fun x => entry x.1) ∧ (discover l).1.Pairwise fun x y => x.pid < y.pid := by
  let g : Proc × Env → Int × Found := fun x => (x.1.pid, ⟨some { name := x.1.name, threads := x.1.threads, pid := x.1.pid }, some x.1.supported⟩)
  obtain ⟨l', s1, s2, s3⟩ := sortEntries_ok (fun x : Int × Found => x.1) (l.map g) (by simpa [List.map_map, Function.comp_def, g] using hd)
  have hall : ∀ x ∈ l', ∃ p : Proc, x = g (p, {}) := by
    intro x hx
    obtain ⟨y, _, rfl⟩ := List.mem_map.mp (s2.mem_iff.mp hx)
    exact ⟨y.1, rfl⟩
  obtain ⟨ys, p1, p2⟩ := printAll_ok l' (fun x hx => by obtain ⟨p, rfl⟩ := hall x hx; exact ⟨entry p, rfl⟩)
  have hdis : discover l = (ys, .ok ()) := by
    simp only [discover, collect_ok l h, Res.bind]
    rw [show (l.map fun x => ((x.1.pid, ⟨some { name := x.1.name, threads := x.1.threads, pid := x.1.pid }, some x.1.supported⟩) : Int × Found)) = l.map g from rfl, s1]
    exact p1
  rw [hdis]
  refine ⟨rfl, ?_, ?_⟩
  · have h1 : ∀ (a : List (Int × Found)) (b : List Listed), List.Forall₂ (fun x y => print x = .ok y) a b → a.map (fun x => print x) = b.map Res.ok := by
      intro a b hab
      induction hab with
      | nil => rfl
      | cons h _ ih => simp [h, ih]
    have h2 := h1 _ _ p2
    have h3 : (ys.map (Res.ok (α := Listed))).Perm ((l.map fun x => entry x.1).map Res.ok) := by
      rw [← h2]
      refine (s2.map print).trans ?_
      rw [List.map_map, List.map_map]
      exact List.Perm.refl _
    have h4 := h3.filterMap (fun r => match r with | .ok y => some y | _ => none)
    simpa [List.filterMap_map, Function.comp_def] using h4
  · have h1 : ∀ (a : List (Int × Found)) (b : List Listed), (∀ x ∈ a, ∃ p : Proc, x = g (p, {})) → List.Forall₂ (fun x y => print x = .ok y) a b → b.map (·.pid) = a.map (·.1) := by
      intro a b hg hab
      induction hab with
      | nil => rfl
      | cons h _ ih =>
        obtain ⟨p, rfl⟩ := hg _ List.mem_cons_self
        simp only [print, g, Res.ok.injEq] at h
        subst h
        simp [g, ih (fun x hx => hg x (List.mem_cons_of_mem _ hx))]
    have h2 := h1 _ _ hall p2
    have h3 : (l'.map (·.1)).Pairwise (· < ·) := List.pairwise_map.mpr s3
    rw [← h2] at h3
    exact List.pairwise_map.mp h3

/-- **C82 fails:** one process without process information (or one that was slow when it was asked for its endpoints, C44), and nothing at all is listed. -/
theorem missing_info_hides_all (l l' : List (Proc × Env)) (p : Proc) (e : Env) (h : ∀ x ∈ l, Ok x.1 ∧ x.1.hasInfo = true ∧ x.1.hasIntrospect = true ∧ x.2.infoLate = false ∧ x.2.supportedLate = false)
    (hi : p.hasInfo = false) : discover (l ++ (p, e) :: l') = ([], .throws "KeyError") := by
  have h1 : discoverOne p e = .throws "KeyError" := by
    cases hs : p.hasIntrospect with
    | false => simp [discoverOne, hi, hs]
    | true =>
      cases he : e.supportedLate with
      | false => simp [discoverOne, hi, hs, he, supported_ok]
      | true => simp [discoverOne, hi, hs, he, Endpoints.supported, Endpoints.Answer.decode]
  have h2 : collect (l ++ (p, e) :: l') = .throws "KeyError" := by
    induction l with
    | nil => simp [collect, h1]
    | cons x l ih =>
      obtain ⟨q, f⟩ := x
      obtain ⟨k1, k2, k3, k4, k5⟩ := h (q, f) (by simp)
      simp [collect, C82.one k1 k2 k3 k4 k5, ih (fun x hx => h x (by simp [hx]))]
  simp [discover, h2, Res.bind]

/-- **C82 fails, for all equal pids:** two processes with the same pid, and different names, endpoints or threads, and nothing at all is listed. -/
theorem equal_pids_hide_all (l : List (Proc × Env)) (h : ∀ x ∈ l, Ok x.1 ∧ x.1.hasInfo = true ∧ x.1.hasIntrospect = true ∧ x.2.infoLate = false ∧ x.2.supportedLate = false)
    (x y : Proc × Env) (hx : x ∈ l) (hy : y ∈ l) (hp : x.1.pid = y.1.pid) (hne : entry x.1 ≠ entry y.1) : discover l = ([], .throws "TypeError") := by
  have h1 := sortEntries_fails (fun x : Int × Found => x.1) (l.map fun x => (x.1.pid, (⟨some { name := x.1.name, threads := x.1.threads, pid := x.1.pid }, some x.1.supported⟩ : Found)))
    _ _ (List.mem_map_of_mem hx) (List.mem_map_of_mem hy) hp (by
      intro e
      simp only [Prod.mk.injEq, Found.mk.injEq, Option.some.injEq, Endpoints.ProcessInfo.mk.injEq] at e
      apply hne
      simp [entry, e.1, e.2.1.1, e.2.1.2.1, e.2.2])
  simp only [discover, collect_ok l h, Res.bind, h1]

theorem not_AllListed : ¬ AllListed := by
  intro h
  let p : Proc := { oneThread 5 [] with hasInfo := false }
  have h1 := h [(p, {})] (by
    intro x hx
    rw [List.mem_singleton] at hx
    subst hx
    have := oneThread_ok 5 [] (by decide) (by simp) (by simp)
    exact ⟨this.pid, this.threads, this.tids, this.trace⟩)
  have h2 := missing_info_hides_all [] [] p {} (by simp) rfl
  rw [List.nil_append] at h2
  rw [h2] at h1
  exact absurd h1.1 (by simp)

/-- Two processes. -/
example : discover [({ oneThread 90 [(5, "worker")] with name := "b", supported := ["introspect", "process_info"] }, {}), ({ oneThread 7 [] with name := "a", supported := ["introspect"] }, {})] =
    ([⟨7, "a", ["introspect"], []⟩, ⟨90, "b", ["introspect", "process_info"], [(5, "worker")]⟩], .ok ()) := by decide

/-! ### Exactly what is listed -/

/-- What is found out about a process: one that does not answer in time has no name, no threads and no endpoints, and its pid is whatever was in the memory. -/
def reported (x : Proc × Env) : Listed :=
  { pid := if x.2.infoLate then x.2.junk else x.1.pid
    name := if x.2.infoLate then "" else x.1.name
    supported := if x.2.supportedLate then [] else x.1.supported
    threads := if x.2.infoLate then [] else x.1.threads }

/-- What `discoverOne` keeps of a process with process information. -/
def kept (x : Proc × Env) : Int × Found :=
  ((reported x).pid, ⟨some { name := (reported x).name, threads := (reported x).threads, pid := (reported x).pid }, if x.1.hasIntrospect then some (reported x).supported else none⟩)

theorem askInfo_any {p : Proc} {e : Env} (h : Ok p) : askInfo p e = .ok { name := (reported (p, e)).name, threads := (reported (p, e)).threads, pid := (reported (p, e)).pid } := by
  cases he : e.infoLate with
  | false => rw [askInfo_ok h he]; simp [reported, he]
  | true =>
    have hw : ∃ a, inWorker (Endpoints.infoHandle p.pid p.name p.threads (some Endpoints.infoRequest)) = .ok a := ⟨_, rfl⟩
    obtain ⟨a, hw⟩ := hw
    simp [askInfo, hw, he, reported, Endpoints.processInfo, Endpoints.Answer.decode]

theorem one_any {p : Proc} {e : Env} (h : Ok p) (hi : p.hasInfo = true) : discoverOne p e = .ok (kept (p, e)) := by
  cases hs : p.hasIntrospect with
  | false => simp [discoverOne, hi, hs, askInfo_any h, kept]
  | true =>
    cases he : e.supportedLate with
    | false => simp [discoverOne, hi, hs, askInfo_any h, kept, he, supported_ok, reported]
    | true => simp [discoverOne, hi, hs, askInfo_any h, kept, he, Endpoints.supported, Endpoints.Answer.decode, reported]

theorem collect_any : ∀ l : List (Proc × Env), (∀ x ∈ l, Ok x.1 ∧ x.1.hasInfo = true) → collect l = .ok (l.map kept) := by
  intro l
  induction l with
  | nil => intro _; rfl
  | cons x l ih =>
    intro h
    obtain ⟨p, e⟩ := x
    obtain ⟨h1, h2⟩ := h (p, e) (by simp)
    simp [collect, one_any h1 h2, ih (fun x hx => h x (by simp [hx]))]

theorem printAll_any : ∀ l : List (Proc × Env),
    printAll (l.map kept) = ((l.takeWhile (·.1.hasIntrospect)).map reported, if ∀ x ∈ l, x.1.hasIntrospect = true then .ok () else .throws "KeyError") := by
  intro l
  induction l with
  | nil => rfl
  | cons x l ih =>
    cases hs : x.1.hasIntrospect with
    | false => simp [printAll, print, kept, hs]
    | true =>
      have hx : (∀ y ∈ x :: l, y.1.hasIntrospect = true) ↔ ∀ y ∈ l, y.1.hasIntrospect = true := by
        simp only [List.mem_cons, forall_eq_or_imp, hs, true_and]
      simp only [hx]
      simp [printAll, print, kept, hs, ih, reported]

/-- **C82 fails, for all such processes:** if one process has no process information, nothing is listed, whatever the others have and whoever answers in time. -/
theorem missing_info_hides (l : List (Proc × Env)) (h : ∀ x ∈ l, Ok x.1) (x : Proc × Env) (hx : x ∈ l) (hi : x.1.hasInfo = false) : discover l = ([], .throws "KeyError") := by
  have h2 : collect l = .throws "KeyError" := by
    induction l with
    | nil => cases hx
    | cons y l ih =>
      obtain ⟨p, e⟩ := y
      cases hp : p.hasInfo with
      | false =>
        have h1 : discoverOne p e = .throws "KeyError" := by
          cases hs : p.hasIntrospect with
          | false => simp [discoverOne, hp, hs]
          | true =>
            cases he : e.supportedLate with
            | false => simp [discoverOne, hp, hs, he, supported_ok]
            | true => simp [discoverOne, hp, hs, he, Endpoints.supported, Endpoints.Answer.decode]
        simp [collect, h1]
      | true =>
        rcases List.mem_cons.mp hx with rfl | hx
        · rw [hp] at hi; cases hi
        · simp [collect, one_any (h (p, e) (by simp)) hp, ih (fun x hx => h x (by simp [hx])) hx]
  simp [discover, h2, Res.bind]

/-- **C82, exactly what is listed.** For all processes that have process information, whoever answers in time: if the pids that are found out differ, the processes are listed in the order of these pids, each as it is
    found out, up to the first that has no introspection; if there is one, the command ends with an exception there. -/
theorem listed_exactly (l : List (Proc × Env)) (h : ∀ x ∈ l, Ok x.1 ∧ x.1.hasInfo = true) (hd : (l.map fun x => (reported x).pid).Nodup) :
    ∃ l' : List (Proc × Env), l'.Perm l ∧ l'.Pairwise (fun x y => (reported x).pid < (reported y).pid) ∧
      discover l = ((l'.takeWhile (·.1.hasIntrospect)).map reported, if ∀ x ∈ l, x.1.hasIntrospect = true then .ok () else .throws "KeyError") := by
  obtain ⟨k, s1, s2, s3⟩ := sortEntries_ok (fun x : Int × Found => x.1) (l.map kept) (by simpa [List.map_map, Function.comp_def, kept] using hd)
  obtain ⟨l', rfl, hp⟩ : ∃ l' : List (Proc × Env), k = l'.map kept ∧ l'.Perm l := by
    have key : ∀ (a b : List (Int × Found)), a.Perm b → ∀ c : List (Proc × Env), b = c.map kept → ∃ c' : List (Proc × Env), a = c'.map kept ∧ c'.Perm c := by
      intro a b hab
      induction hab with
      | nil => intro c hc; exact ⟨[], by simp, by cases c <;> simp at hc ⊢⟩
      | cons x _ ih =>
        intro c hc
        cases c with
        | nil => cases hc
        | cons y c =>
          simp only [List.map_cons, List.cons.injEq] at hc
          obtain ⟨c', h1, h2⟩ := ih c hc.2
          exact ⟨y :: c', by simp [hc.1, h1], h2.cons y⟩
      | swap x y m =>
        intro c hc
        match c, hc with
        | a :: b :: c, hc =>
          simp only [List.map_cons, List.cons.injEq] at hc
          exact ⟨b :: a :: c, by simp [hc.1, hc.2.1, hc.2.2], .swap _ _ _⟩
      | trans _ _ ih1 ih2 =>
        intro c hc
        obtain ⟨c', h1, h2⟩ := ih2 c hc
        obtain ⟨c'', h3, h4⟩ := ih1 c' h1
        exact ⟨c'', h3, h4.trans h2⟩
    exact key _ _ s2 l rfl
  refine ⟨l', hp, ?_, ?_⟩
  · rw [List.pairwise_map] at s3
    exact s3
  · have hall : (∀ x ∈ l', x.1.hasIntrospect = true) ↔ ∀ x ∈ l, x.1.hasIntrospect = true := ⟨fun h x hx => h x (hp.mem_iff.mpr hx), fun h x hx => h x (hp.mem_iff.mp hx)⟩
    simp only [discover, collect_any l h, Res.bind, s1, printAll_any, hall]

/-- **C82, exactly.** If the processes answer in time and have different pids, the command lists all of them if and only if every one has process information and introspection. -/
theorem all_listed_iff (l : List (Proc × Env)) (h : ∀ x ∈ l, Ok x.1 ∧ x.2.infoLate = false ∧ x.2.supportedLate = false) (hd : (l.map (·.1.pid)).Nodup) :
    ((discover l).2 = .ok () ∧ (discover l).1.Perm (l.map fun x => entry x.1)) ↔ ∀ x ∈ l, x.1.hasInfo = true ∧ x.1.hasIntrospect = true := by
  constructor
  · intro ⟨h1, _⟩
    have hi : ∀ x ∈ l, x.1.hasInfo = true := fun x hx => by
      cases hc : x.1.hasInfo with
      | true => rfl
      | false => rw [missing_info_hides l (fun x hx => (h x hx).1) x hx hc] at h1; cases h1
    have hr : ∀ x ∈ l, (reported x).pid = x.1.pid := fun x hx => by simp [reported, (h x hx).2.1]
    obtain ⟨l', _, _, e⟩ := listed_exactly l (fun x hx => ⟨(h x hx).1, hi x hx⟩) (by rw [List.map_congr_left hr]; exact hd)
    rw [e] at h1
    by_cases hs : ∀ x ∈ l, x.1.hasIntrospect = true
    · exact fun x hx => ⟨hi x hx, hs x hx⟩
    · rw [if_neg hs] at h1; cases h1
  · intro hs
    have := all_listed_partial l (fun x hx => ⟨(h x hx).1, (hs x hx).1, (hs x hx).2, (h x hx).2.1, (h x hx).2.2⟩) hd
    exact ⟨this.1, this.2.1⟩

/-- Three processes, the second of which has no introspection, and the first does not answer in time when it is asked for its name. -/
example : discover [({ oneThread 90 [] with name := "b" }, {}), ({ oneThread 40 [] with name := "x", hasIntrospect := false }, {}), ({ oneThread 7 [] with name := "a", supported := ["introspect"] }, { infoLate := true, junk := 3 })] =
    ([⟨3, "", ["introspect"], []⟩], .throws "KeyError") := by decide

end Scalopus.C82
