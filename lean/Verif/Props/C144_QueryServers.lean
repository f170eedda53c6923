import Verif.Model.QueryServers
import Verif.Props.C139_RecorderHistory

/-!
# C144: query_servers prints what every server tells

If every server that is found can be connected and answers in time, query_servers prints an array with one entry for each, with what its endpoints tell. But one that cannot be connected, or one name that is not UTF-8, and
nothing is printed about any of them; and the process id of one that is late has no value.
-/

namespace Scalopus.C144
open Scalopus.QueryServers
open JsonText

/-! ## Specification -/

/-- What a server has to tell. -/
structure Truth where
  endpoints : List Text
  name : Text
  pid : Int
  threads : List (Nat × Text)
  process : Bool
  switches : List (Nat × Bool)
  names : List (Int × List (Nat × Text))

/-- It can be connected and answers each query in time. -/
structure Answers (d : Dest) (t : Truth) : Prop where
  connects : d.connects = true
  supported : d.supported = .ok t.endpoints
  introspect : ∀ i, d.introspect i = .ok (t.endpoints.map some)
  info : ∀ i, d.info i = .ok { name := some t.name, threads := t.threads.map fun x => (x.1, some x.2), pid := some t.pid }
  config : ∀ i, d.config i = .ok { process := t.process, threads := t.switches, success := true }
  mapping : ∀ i, d.mapping i = .ok (t.names.map fun x => (x.1, x.2.map fun y => (y.1, some y.2)))

def text (s : String) : Str := some s.toList

def number (i : Int) : J := .num (toString i).toList

/-- What should be printed for each of the endpoints, in the order of their names. -/
def parts (t : Truth) : List (String × J) :=
  [("introspect", .arr (t.endpoints.map fun n => .str (some n))),
    ("process_info", .obj [(text "name", .str (some t.name)), (text "pid", number t.pid), (text "threads", .arr (t.threads.map fun x => .arr [number x.1, .str (some x.2)]))]),
    ("scope_tracing", .arr (t.names.map fun p => .arr [number p.1, .arr (p.2.map fun x => .arr [number x.1, .str (some x.2)])])),
    ("trace_configurator", .obj [(text "cmd_success", .bool true), (text "process_state", .bool t.process), (text "thread_state", .arr (t.switches.map fun x => .arr [number x.1, .bool x.2]))])]

/-- The parts of the endpoints that the server has. -/
def has (t : Truth) : List (Str × J) := ((parts t).filter fun p => p.1.toList ∈ t.endpoints).map fun p => (text p.1, p.2)

/-- The entry of a server. -/
def entry (t : Truth) : J := if has t = [] then .null else .obj (has t)

/-- The full claim: one entry for each server that answers, whatever the others do. -/
def AllPrinted : Prop := ∀ (l : List (Dest × Option Truth)), (∀ x ∈ l, ∀ t, x.2 = some t → Answers x.1 t) → (∀ x ∈ l, x.2 = none → x.1.connects = false) →
  main (l.map (·.1)) = .ok (.arr (l.filterMap fun x => x.2.map entry))

/-! ## Proofs -/

/-- What has been assigned after the endpoints `l`. -/
def assigned (t : Truth) (l : List Text) : ServerInfo :=
  { introspect := if "introspect".toList ∈ l then some (.arr (t.endpoints.map fun n => .str (some n))) else none
    processInfo := if "process_info".toList ∈ l then some (.obj [(text "name", .str (some t.name)), (text "pid", number t.pid), (text "threads", .arr (t.threads.map fun x => .arr [number x.1, .str (some x.2)]))]) else none
    scopeTracing := if "scope_tracing".toList ∈ l then some (.arr (t.names.map fun p => .arr [number p.1, .arr (p.2.map fun x => .arr [number x.1, .str (some x.2)])])) else none
    traceConfigurator := if "trace_configurator".toList ∈ l then some (.obj [(text "cmd_success", .bool true), (text "process_state", .bool t.process), (text "thread_state", .arr (t.switches.map fun x => .arr [number x.1, .bool x.2]))]) else none }

theorem mem_same (k : Text) (l : List Text) : k ∈ l ++ [k] := by simp
theorem mem_other {n k : Text} (h : n ≠ k) (l : List Text) : (k ∈ l ++ [n]) = (k ∈ l) := by simp [Ne.symm h]

theorem endpoint_assigned {d : Dest} {t : Truth} (h : Answers d t) (i : Nat) (n : Text) (done : List Text) : endpoint d i n (assigned t done) = .ok (assigned t (done ++ [n])) := by
  unfold endpoint assigned
  have ip : "introspect".toList ≠ "process_info".toList := by decide
  have is : "introspect".toList ≠ "scope_tracing".toList := by decide
  have ic : "introspect".toList ≠ "trace_configurator".toList := by decide
  have ps : "process_info".toList ≠ "scope_tracing".toList := by decide
  have pc : "process_info".toList ≠ "trace_configurator".toList := by decide
  have sc : "scope_tracing".toList ≠ "trace_configurator".toList := by decide
  generalize "introspect".toList = kI at *
  generalize "process_info".toList = kP at *
  generalize "scope_tracing".toList = kS at *
  generalize "trace_configurator".toList = kC at *
  split
  · next e =>
    subst e
    rw [h.introspect]
    simp only [Ans.get, Res.bind, if_pos (mem_same n done), mem_other ip, mem_other is, mem_other ic, List.map_map]
    rfl
  · next h1 =>
    split
    · next e =>
      subst e
      rw [h.info]
      simp only [Ans.get, Res.bind, if_pos (mem_same n done), mem_other h1, mem_other ps, mem_other pc, infoJ, pairs, List.map_map]
      rfl
    · next h2 =>
      split
      · next e =>
        subst e
        rw [h.config]
        simp only [Ans.get, Res.bind, if_pos (mem_same n done), mem_other h1, mem_other h2, mem_other (Ne.symm sc), configJ, pairs]
        rfl
      · next h3 =>
        split
        · next e =>
          subst e
          rw [h.mapping]
          simp only [Ans.get, Res.bind, if_pos (mem_same n done), mem_other h1, mem_other h2, mem_other h3, mappingJ, pairs, List.map_map]
          congr 3
          congr 2
          funext x
          simp only [Function.comp_apply, List.map_map]
          rfl
        · next h4 => simp only [mem_other h1, mem_other h2, mem_other h3, mem_other h4]

theorem endpoints_assigned {d : Dest} {t : Truth} (h : Answers d t) (l : List Text) : ∀ (i : Nat) (done : List Text), endpoints d i (assigned t done) l = .ok (assigned t (done ++ l)) := by
  induction l with
  | nil => intro i done; simp [endpoints]
  | cons n l ih =>
    intro i done
    simp only [endpoints, endpoint_assigned h, Res.bind, ih]
    simp

theorem assigned_entry (t : Truth) : (assigned t t.endpoints).toJ = entry t := by
  unfold entry has parts ServerInfo.toJ assigned
  by_cases h1 : "introspect".toList ∈ t.endpoints <;> by_cases h2 : "process_info".toList ∈ t.endpoints <;> by_cases h3 : "scope_tracing".toList ∈ t.endpoints <;>
    by_cases h4 : "trace_configurator".toList ∈ t.endpoints <;> simp only [h1, h2, h3, h4, if_true, if_false, List.filter, decide_true, decide_false] <;> simp [text]

theorem server_entry {d : Dest} {t : Truth} (h : Answers d t) : server d = .ok (entry t) := by
  unfold server
  rw [if_pos h.connects, h.supported]
  have := endpoints_assigned h t.endpoints 0 []
  have e0 : assigned t [] = {} := by simp [assigned]
  rw [e0, List.nil_append] at this
  simp only [Ans.get, Res.bind, this, assigned_entry]

theorem servers_append (a b : List Dest) : servers (a ++ b) = (servers a).bind fun x => (servers b).bind fun y => .ok (x ++ y) := by
  induction a with
  | nil =>
    simp only [List.nil_append, servers, Res.bind]
    cases servers b <;> simp [Res.bind]
  | cons d a ih =>
    simp only [List.cons_append, servers, ih]
    cases server d <;> simp only [Res.bind]
    cases servers a <;> simp only [Res.bind]
    cases servers b <;> simp [Res.bind]

theorem servers_entries (l : List (Dest × Truth)) (h : ∀ x ∈ l, Answers x.1 x.2) : servers (l.map (·.1)) = .ok (l.map fun x => entry x.2) := by
  induction l with
  | nil => rfl
  | cons x l ih =>
    simp only [List.map_cons, servers, server_entry (h x List.mem_cons_self), Res.bind, ih fun y hy => h y (List.mem_cons_of_mem _ hy)]

theorem dumpAll_some (l : List J) (h : ∀ j ∈ l, (dump j).isSome = true) : (dumpAll l).isSome = true := by
  induction l with
  | nil => rfl
  | cons j l ih =>
    obtain ⟨t, ht⟩ := Option.isSome_iff_exists.1 (h j List.mem_cons_self)
    obtain ⟨ts, hts⟩ := Option.isSome_iff_exists.1 (ih fun x hx => h x (List.mem_cons_of_mem _ hx))
    simp [dumpAll, ht, hts]

theorem dump_arr_some (l : List J) (h : ∀ j ∈ l, (dump j).isSome = true) : (dump (.arr l)).isSome = true := by
  obtain ⟨ts, hts⟩ := Option.isSome_iff_exists.1 (dumpAll_some l h)
  simp [dump, hts]

theorem dump_obj_some (l : List (Str × J)) (h : ∀ m ∈ l, m.1.isSome = true ∧ (dump m.2).isSome = true) : (dump (.obj l)).isSome = true := by
  have : (dumpMembers l).isSome = true := by
    induction l with
    | nil => rfl
    | cons m l ih =>
      obtain ⟨k, j⟩ := m
      obtain ⟨h1, h2⟩ := h (k, j) List.mem_cons_self
      obtain ⟨t, ht⟩ := Option.isSome_iff_exists.1 h2
      obtain ⟨k, rfl⟩ := Option.isSome_iff_exists.1 h1
      obtain ⟨ts, hts⟩ := Option.isSome_iff_exists.1 (ih fun x hx => h x (List.mem_cons_of_mem _ hx))
      simp [dumpMembers, ht, hts]
  obtain ⟨ts, hts⟩ := Option.isSome_iff_exists.1 this
  simp [dump, hts]

theorem dump_parts (t : Truth) : ∀ p ∈ parts t, (dump p.2).isSome = true := by
  intro p hp
  have pair : ∀ (i : Int) (j : J), (dump j).isSome = true → (dump (.arr [number i, j])).isSome = true := by
    intro i j hj
    apply dump_arr_some
    intro k hk
    simp only [List.mem_cons, List.not_mem_nil, or_false] at hk
    rcases hk with rfl | rfl
    · simp [number, dump]
    · exact hj
  simp only [parts, List.mem_cons, List.not_mem_nil, or_false] at hp
  rcases hp with rfl | rfl | rfl | rfl
  · apply dump_arr_some
    intro j hj
    obtain ⟨n, _, rfl⟩ := List.mem_map.1 hj
    simp [dump]
  · apply dump_obj_some
    intro m hm
    simp only [List.mem_cons, List.not_mem_nil, or_false] at hm
    rcases hm with rfl | rfl | rfl
    · simp [dump, text]
    · simp [dump, number, text]
    · refine ⟨rfl, dump_arr_some _ ?_⟩
      intro j hj
      obtain ⟨x, _, rfl⟩ := List.mem_map.1 hj
      exact pair _ _ (by simp [dump])
  · apply dump_arr_some
    intro j hj
    obtain ⟨x, _, rfl⟩ := List.mem_map.1 hj
    apply pair
    apply dump_arr_some
    intro j hj
    obtain ⟨x, _, rfl⟩ := List.mem_map.1 hj
    exact pair _ _ (by simp [dump])
  · apply dump_obj_some
    intro m hm
    simp only [List.mem_cons, List.not_mem_nil, or_false] at hm
    rcases hm with rfl | rfl | rfl
    · simp [dump, text]
    · cases t.process <;> simp [dump, text]
    · refine ⟨rfl, dump_arr_some _ ?_⟩
      intro j hj
      obtain ⟨x, _, rfl⟩ := List.mem_map.1 hj
      apply pair
      cases x.2 <;> simp [dump]

theorem dump_entry (t : Truth) : (dump (entry t)).isSome = true := by
  unfold entry
  split
  · rfl
  · apply dump_obj_some
    intro m hm
    unfold has at hm
    obtain ⟨p, hp, rfl⟩ := List.mem_map.1 hm
    exact ⟨rfl, dump_parts t p (List.mem_filter.1 hp).1⟩

/-- **C144, partial.** If every server that is found, and there is one, can be connected and answers in time, then an array with the entry of each of them is printed, in the order in which they were found. -/
theorem all_printed_partial (l : List (Dest × Truth)) (hne : l ≠ []) (h : ∀ x ∈ l, Answers x.1 x.2) : main (l.map (·.1)) = .ok (.arr (l.map fun x => entry x.2)) := by
  have e := servers_entries l h
  have hd : (dump (.arr (l.map fun x => entry x.2))).isSome = true := by
    apply dump_arr_some
    intro j hj
    obtain ⟨x, _, rfl⟩ := List.mem_map.1 hj
    exact dump_entry x.2
  obtain ⟨t, ht⟩ := Option.isSome_iff_exists.1 hd
  cases l with
  | nil => exact absurd rfl hne
  | cons x l =>
    unfold main
    rw [e]
    simp only [List.map_cons] at ht ⊢
    simp only [ht]

/-- **C144 fails: no server.** What is printed is not an array. -/
theorem none_found : main [] = .ok .null := rfl

theorem main_of_throws {l : List Dest} {w : String} (h : servers l = .throws w) : main l = .terminate := by unfold main; rw [h]
theorem main_of_ub {l : List Dest} (h : servers l = .ub) : main l = .ub := by unfold main; rw [h]

/-- **C144 fails: a server that cannot be connected**, because it has ended since it was found, for example: the program ends, and nothing is printed about any server. -/
theorem unreachable_hides_all (l : List (Dest × Truth)) (h : ∀ x ∈ l, Answers x.1 x.2) (d : Dest) (hd : d.connects = false) (more : List Dest) : main (l.map (·.1) ++ d :: more) = .terminate := by
  apply main_of_throws (w := "communication_error")
  rw [servers_append, servers_entries l h]
  simp [Res.bind, servers, server, hd]

theorem endpoints_append (d : Dest) (a b : List Text) : ∀ (i : Nat) (x : ServerInfo), endpoints d i x (a ++ b) = (endpoints d i x a).bind fun x => endpoints d (i + a.length) x b := by
  induction a with
  | nil => intro i x; rfl
  | cons n a ih =>
    intro i x
    simp only [List.cons_append, endpoints, ih, List.length_cons]
    cases endpoint d i n x <;> simp only [Res.bind]
    rw [show i + 1 + a.length = i + (a.length + 1) by omega]

/-- **C144 fails: process information that is late.** The process id that is printed has no value, which is undefined. All that comes before may be in time. -/
theorem late_info_undefined (l : List (Dest × Truth)) (h : ∀ x ∈ l, Answers x.1 x.2) (d d' : Dest) (t : Truth) (a b : List Text) (ht : t.endpoints = a ++ "process_info".toList :: b) (h' : Answers d' t)
    (hd : d = { d' with info := fun i => if i = a.length then .late else d'.info i }) (ha : "process_info".toList ∉ a) (more : List Dest) : main (l.map (·.1) ++ d :: more) = .ub := by
  apply main_of_ub
  rw [servers_append, servers_entries l h]
  have e : server d = .ub := by
    have step : ∀ (a : List Text), "process_info".toList ∉ a → ∀ (i : Nat) (x : ServerInfo) (g : Nat → Ans Info), endpoints { d' with info := g } i x a = endpoints d' i x a := by
      intro a
      induction a with
      | nil => intro _ i x g; rfl
      | cons n a ih =>
        intro hn i x g
        simp only [List.mem_cons, not_or] at hn
        have e1 : endpoint { d' with info := g } i n x = endpoint d' i n x := by
          unfold endpoint
          simp only [if_neg (Ne.symm hn.1)]
        simp only [endpoints, e1]
        cases endpoint d' i n x <;> simp only [Res.bind]
        exact ih hn.2 _ _ _
    have e1 : ∀ (i : Nat) (x : ServerInfo), endpoints d i x a = endpoints d' i x a := by subst hd; intro i x; exact step a ha _ _ _
    have e2 : d.connects = true := by subst hd; exact h'.connects
    have e3 : d.supported = .ok (a ++ "process_info".toList :: b) := by subst hd; rw [← ht]; exact h'.supported
    have e4 : d.info a.length = .late := by subst hd; simp
    have e0 : assigned t [] = {} := by simp [assigned]
    have e5 := endpoints_assigned h' a 0 []
    rw [e0] at e5
    have e6 : ∀ x, endpoints d (0 + a.length) x ("process_info".toList :: b) = .ub := by
      intro x
      have n1 : ¬ ("process_info".toList = "introspect".toList) := by decide
      simp only [endpoints, endpoint, if_neg n1, if_true, Nat.zero_add, e4, Ans.get, Res.bind, infoJ]
    unfold server
    rw [if_pos e2, e3]
    show ((endpoints d 0 {} (a ++ "process_info".toList :: b)).bind fun x => .ok x.toJ) = .ub
    rw [endpoints_append, e1, e5]
    show ((endpoints d (0 + a.length) _ ("process_info".toList :: b)).bind fun x => .ok x.toJ) = .ub
    rw [e6]
    rfl
  simp [Res.bind, servers, e]

/-- A server that is late to list its endpoints has an entry without anything. -/
theorem late_list_is_null (d : Dest) (hc : d.connects = true) (hl : d.supported = .late) : main [d] = .ok (.arr [.null]) := by
  unfold main
  simp only [servers, server, hc, if_true, hl, Ans.get, Res.bind, endpoints]
  rfl

/-- **C144 fails: a name that is not UTF-8**, of a process, of a thread or of a tracepoint, for example: the program ends, and nothing is printed about any server. -/
theorem bad_text_hides_all (l : List Dest) (js : List J) (hs : servers l = .ok js) (j : J) (hj : j ∈ js) (hb : C139.Bad j) : main l = .terminate := by
  have hd : dump (.arr js) = none := C139.dump_bad (.arr hj hb)
  unfold main
  rw [hs]
  cases js with
  | nil => cases hj
  | cons a js => simp only [hd]

/-- A query that throws, because the answer is not what is expected: the same. -/
theorem throw_hides_all (l : List (Dest × Truth)) (h : ∀ x ∈ l, Answers x.1 x.2) (d : Dest) (w : String) (hc : d.connects = true) (hs : d.supported = .throws w) (more : List Dest) :
    main (l.map (·.1) ++ d :: more) = .terminate := by
  apply main_of_throws (w := w)
  rw [servers_append, servers_entries l h]
  simp [Res.bind, servers, server, hc, hs, Ans.get]

/-- A server, and what it tells. -/
def truth1 : Truth := { endpoints := ["introspect".toList, "other".toList, "process_info".toList], name := ['a'], pid := 7, threads := [(3, ['m'])], process := true, switches := [], names := [] }

def answering (t : Truth) : Dest :=
  { connects := true, supported := .ok t.endpoints, introspect := fun _ => .ok (t.endpoints.map some),
    info := fun _ => .ok { name := some t.name, threads := t.threads.map fun x => (x.1, some x.2), pid := some t.pid },
    config := fun _ => .ok { process := t.process, threads := t.switches, success := true },
    mapping := fun _ => .ok (t.names.map fun x => (x.1, x.2.map fun y => (y.1, some y.2))) }

theorem answering_answers (t : Truth) : Answers (answering t) t := ⟨rfl, rfl, fun _ => rfl, fun _ => rfl, fun _ => rfl, fun _ => rfl⟩

/-- **C144 does not hold.** -/
theorem not_AllPrinted : ¬ AllPrinted := by
  intro h
  have h1 := h [({ answering truth1 with connects := false }, none)] (by intro x hx t ht; rw [List.mem_singleton] at hx; subst hx; cases ht) (by intro x hx _; rw [List.mem_singleton] at hx; subst hx; rfl)
  have h2 := unreachable_hides_all [] (by intro x hx; cases hx) { answering truth1 with connects := false } rfl []
  simp only [List.map_nil, List.nil_append] at h2
  simp only [List.map_cons, List.map_nil] at h1
  rw [h2] at h1
  cases h1

/-- The hypotheses are met; the entry of a server that has an endpoint of another name, too. -/
example : main [answering truth1] = .ok (.arr [.obj [(text "introspect", .arr [.str (text "introspect"), .str (text "other"), .str (text "process_info")]),
    (text "process_info", .obj [(text "name", .str (text "a")), (text "pid", .num ['7']), (text "threads", .arr [.arr [.num ['3'], .str (text "m")]])])]]) := rfl

/-- A name that is not UTF-8. -/
example : ∃ js, servers [{ answering truth1 with info := fun _ => .ok { name := none, threads := [], pid := some 7 } }] = .ok js ∧ ∃ j ∈ js, C139.Bad j :=
  ⟨_, rfl, _, .head _, .value (.tail _ (.head _)) (.value (.head _) .str)⟩

end Scalopus.C144
