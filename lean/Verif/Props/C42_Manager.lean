import Verif.Proofs.Manager
import Verif.Model.Lifecycle
import Verif.Props.C16_Registry
import Mathlib.Data.List.Perm.Subperm

/-!
# C42, C43, C44: the endpoint manager

In the statements, `s.transports` lists the servers (by the hash of the destination) with the transport to them, and `s.tables` is the result of `endpoints()`.
-/

namespace Scalopus.C42

open Manager
open Endpoints (Answer supported)

/-- **C42, in every state** (also after a call of `manage` that threw): at most one transport per server, and an endpoint table for exactly the transports, each once. -/
theorem one_per_server {s : State} (h : Reachable s) : (s.transports.map (·.1)).Nodup ∧ (s.tables.map (·.1)).Perm (s.transports.map (·.2)) :=
  let i := inv_reachable h
  ⟨i.hashes, (List.perm_ext_iff_of_nodup i.keys i.values).mpr i.same⟩

/-- **C42, after a poll:** every transport was there and found connected, or is a new one to a discovered server that accepted the connection. -/
theorem transports_live {s s' : State} (h : Reachable s) (p : Poll) (e : manage p s = (s', .ok ())) :
    ∀ x ∈ s'.transports, (x ∈ s.transports ∧ p.connected x.2 = true) ∨ (s.next ≤ x.2 ∧ ∃ d ∈ p.found, d.hash = x.1 ∧ d.conn = .ok (some true)) := by
  obtain ⟨s1, i1, _, e2, _, e4, _, e6⟩ := manage_spec p s s' _ (inv_reachable h) e
  intro x hx
  rcases (connectAll_spec _ _ _ _ _ i1 e6).2.2.1 rfl x hx with hx | ⟨h1, d, hd, h2, h3, _⟩
  · rw [e4] at hx
    exact Or.inl (List.mem_filter.mp hx)
  · exact Or.inr ⟨by omega, d, hd, h2.symm, h3⟩

/-- **C42:** a transport that was found disconnected is gone after the poll, whatever the poll's outcome. -/
theorem dead_transports_removed {s s' : State} (h : Reachable s) (p : Poll) (r : Res Unit) (e : manage p s = (s', r)) (x : Nat × Nat) (hx : x ∈ s.transports)
    (hc : p.connected x.2 = false) : x.2 ∉ s'.transports.map (·.2) ∧ x.2 ∉ s'.tables.map (·.1) := by
  have hi := inv_reachable h
  obtain ⟨s1, i1, _, e2, _, e4, _, e6⟩ := manage_spec p s s' _ hi e
  obtain ⟨i', g, _⟩ := connectAll_spec _ _ _ _ _ i1 e6
  have key : x.2 ∉ s'.transports.map (·.2) := by
    intro hm
    obtain ⟨y, hy, hy'⟩ := List.mem_map.mp hm
    obtain ⟨l, hl, hl'⟩ := g.transports
    rw [hl, e4] at hy
    rcases List.mem_append.mp hy with hy | hy
    · have := hl' y hy
      have := hi.bound x.2 (List.mem_map.mpr ⟨x, hx, rfl⟩)
      omega
    · obtain ⟨hy1, hy2⟩ := List.mem_filter.mp hy
      rw [hy', hc] at hy2
      cases hy2
  exact ⟨key, fun hm => key ((i'.same _).mp hm)⟩

/-- **C42:** a connection that was found alive is kept, with its endpoints, whatever the poll's outcome. -/
theorem live_transports_kept {s s' : State} (h : Reachable s) (p : Poll) (r : Res Unit) (e : manage p s = (s', r)) (x : Nat × Nat) (hx : x ∈ s.transports)
    (hc : p.connected x.2 = true) : x ∈ s'.transports ∧ s'.tables.lookup x.2 = s.tables.lookup x.2 := by
  have hi := inv_reachable h
  obtain ⟨s1, i1, _, e2, _, e4, e5, e6⟩ := manage_spec p s s' _ hi e
  obtain ⟨i', g, _⟩ := connectAll_spec _ _ _ _ _ i1 e6
  have h1 : x ∈ s1.transports := by rw [e4]; exact List.mem_filter.mpr ⟨hx, hc⟩
  have h2 : x.2 ∈ s1.transports.map (·.2) := List.mem_map.mpr ⟨x, h1, rfl⟩
  obtain ⟨l, hl, _⟩ := g.transports
  exact ⟨by rw [hl]; exact List.mem_append_right _ h1, by rw [g.tables _ (i1.bound _ h2), e5 _ h2]⟩

/-- **C42:** after a poll there is a transport to every discovered server that accepted the connection. -/
theorem discovered_connected {s s' : State} (h : Reachable s) (p : Poll) (e : manage p s = (s', .ok ())) :
    ∀ d ∈ p.found, d.conn = .ok (some true) → d.hash ∈ s'.transports.map (·.1) := by
  obtain ⟨s1, i1, _, _, _, _, _, e6⟩ := manage_spec p s s' _ (inv_reachable h) e
  exact (connectAll_spec _ _ _ _ _ i1 e6).2.2.2 rfl

/-- A history with two servers, one of which dies and comes back. -/
def d1 : Dest := ⟨11, .ok (some true), .data (some (.obj [("endpoints", .arr [.str "introspect", .str "other"])]))⟩
def d2 : Dest := ⟨22, .ok (some true), .late⟩
def p1 : Poll := ⟨fun _ => true, [d1, d2], fun f t => .ok (some (10 * t + f))⟩
def p2 : Poll := ⟨fun t => t ≠ 0, [d1, d2], fun f t => .ok (some (10 * t + f))⟩

example : Reachable (manage p1 {}).1 ∧ (manage p1 {}).2 = .ok () ∧ (manage p1 {}).1.transports = [(22, 1), (11, 0)] ∧
    (manage p1 {}).1.tables = [(1, []), (0, [("introspect", 0)])] :=
  ⟨.manage .init (p := p1) rfl (Or.inl ⟨(), rfl⟩), rfl, rfl, rfl⟩

example : (manage p2 (manage p1 {}).1).2 = .ok () ∧ (manage p2 (manage p1 {}).1).1.transports = [(11, 2), (22, 1)] := ⟨rfl, rfl⟩

end Scalopus.C42

namespace Scalopus.C43

open Manager
open Endpoints (Answer supported)

/-- **C43.** A transport that a poll made leads to a discovered server; `endpoints()` has for it an endpoint under exactly those names that this server reported and for which a
    factory is registered that yields one, namely the one the factory yields; exactly these endpoints were added to the transport. -/
theorem endpoints_exact {s s' : State} (h : Reachable s) (p : Poll) (e : manage p s = (s', .ok ())) (x : Nat × Nat) (hx : x ∈ s'.transports) (hnew : x ∉ s.transports) :
    ∃ d ∈ p.found, d.hash = x.1 ∧ ∃ names, supported true d.answer = .ok names ∧ ∃ table, s'.tables.lookup x.2 = some table ∧
      (∀ n ep, table.lookup n = some ep ↔ n ∈ names ∧ ∃ f, s.factories.lookup n = some f ∧ p.call f x.2 = .ok (some ep)) ∧
      (∀ ep, (x.2, ep) ∈ s'.added ↔ ∃ n, table.lookup n = some ep) := by
  obtain ⟨s1, i1, e1, e2, e3, e4, e5, e6⟩ := manage_spec p s s' _ (inv_reachable h) e
  obtain ⟨i', g, n', _⟩ := connectAll_spec _ _ _ _ _ i1 e6
  rcases n' rfl x hx with hx1 | ⟨h1, d, hd, h2, h3, names, h4, h5, h6⟩
  · rw [e4] at hx1
    exact absurd (List.mem_filter.mp hx1).1 hnew
  · refine ⟨d, hd, h2.symm, names, h4, ?_⟩
    have hk : x.2 ∈ s'.tables.map (·.1) := (i'.same _).mpr (List.mem_map.mpr ⟨x, hx, rfl⟩)
    cases hl : s'.tables.lookup x.2 with
    | none => exact absurd hk (Assoc.lookup_none.mp hl)
    | some table =>
      rw [hl] at h6
      simp only [Option.getD_some] at h6
      rw [e1] at h5 h6
      have key : ∀ n ep, table.lookup n = some ep ↔ n ∈ names ∧ ∃ f, s.factories.lookup n = some f ∧ p.call f x.2 = .ok (some ep) := by
        intro n ep
        rw [h6 n, ← made_eq]
        by_cases hn : n ∈ names <;> simp [hn]
      refine ⟨table, rfl, key, ?_⟩
      intro ep
      have : (x.2, ep) ∈ s'.added ↔ (x.2, ep) ∈ s'.added.filter (fun y => y.1 = x.2) := by simp
      rw [this, h5]
      simp only [List.mem_map, List.mem_filterMap, Prod.mk.injEq, true_and, exists_eq_right]
      constructor
      · rintro ⟨n, hn, hm⟩
        exact ⟨n, by rw [h6 n, if_pos hn, hm]⟩
      · rintro ⟨n, hn⟩
        rw [h6 n] at hn
        split at hn
        · rename_i hmem; exact ⟨n, hmem, hn⟩
        · cases hn

/-- **C43, on the transport:** if the factories yield endpoints that bear the name they are registered for, every endpoint in the table is found by that name on its transport.
    (`bytes` is how names are stored; different names are stored differently.) -/
theorem found_by_name {s s' : State} (h : Reachable s) (p : Poll) (e : manage p s = (s', .ok ())) (x : Nat × Nat) (hx : x ∈ s'.transports) (hnew : x ∉ s.transports)
    (bytes : String → Protocol.Bytes) (hb : ∀ a b, bytes a = bytes b → a = b) (getName : Nat → Protocol.Bytes)
    (hname : ∀ n f ep, s.factories.lookup n = some f → p.call f x.2 = .ok (some ep) → getName ep = bytes n)
    (n : String) (ep : Nat) (table : List (String × Nat)) (ht : s'.tables.lookup x.2 = some table) (hep : table.lookup n = some ep) :
    Registry.getEndpoint (Registry.run getName s'.added) x.2 (bytes n) = some ep := by
  obtain ⟨d, _, _, names, _, table', h1, h2, h3⟩ := endpoints_exact h p e x hx hnew
  rw [ht, Option.some.injEq] at h1
  subst h1
  rw [C16.getEndpoint_last_added]
  unfold C16.lastAdded
  obtain ⟨_, f, hf, hc⟩ := (h2 n ep).mp hep
  cases hl : s'.added.reverse.find? (fun a => a.1 = x.2 && getName a.2 = bytes n) with
  | none =>
    rw [List.find?_eq_none] at hl
    have := hl (x.2, ep) (List.mem_reverse.mpr ((h3 ep).mpr ⟨n, hep⟩))
    simp [hname n f ep hf hc] at this
  | some a =>
    have m1 := List.mem_of_find?_eq_some hl
    have m2 := List.find?_some hl
    simp only [Bool.and_eq_true, decide_eq_true_eq] at m2
    obtain ⟨t', ep'⟩ := a
    simp only at m2
    obtain ⟨rfl, m3⟩ := m2
    obtain ⟨n', hn'⟩ := (h3 ep').mp (List.mem_reverse.mp m1)
    obtain ⟨_, f', hf', hc'⟩ := (h2 n' ep').mp hn'
    have := hb _ _ ((hname n' f' ep' hf' hc').symm.trans m3)
    subst this
    rw [hep] at hn'
    simp only [Option.map_some]
    exact hn'.symm

/-- A registered factory is used for servers found later; registering a name again replaces the factory. -/
theorem addFactory_exact (s : State) (name : String) (f : Nat) (n : String) :
    (addFactory name f s).factories.lookup n = if n = name then some f else s.factories.lookup n := lookup_assign name n f s.factories

example : ∃ s', manage C42.p1 (addFactory "other" 7 {}) = (s', .ok ()) ∧ s'.tables.lookup 0 = some [("other", 7), ("introspect", 0)] ∧ (11, 0) ∈ s'.transports :=
  ⟨_, rfl, rfl, by decide⟩

end Scalopus.C43

namespace Scalopus.C44

open Manager
open Endpoints (Answer supported)

/-- What connecting with the unix factory yields, for the results of the system calls; `b` says whether the new transport is still connected when it is asked. -/
def unixConn (r : Lifecycle.ConnectOutcome) (b : Bool) : Res (Option Bool) :=
  (Lifecycle.factoryConnect true r).bind fun o => .ok (o.map fun _ => b)

/-- **C44, unreachable servers**, in full: whatever comes of the system calls, a poll does not end the process. -/
def SurvivesUnreachable : Prop := ∀ s, Reachable s → ∀ p : Poll, (∀ d ∈ p.found, ∃ r b, d.conn = unixConn r b) → (manage p s).2 ≠ .ub ∧ (manage p s).2 ≠ .terminate

/-- **C44 fails:** a server that refuses the connection terminates the process of the manager. -/
theorem refused_terminates : ¬ SurvivesUnreachable := by
  intro h
  have := h {} .init ⟨fun _ => true, [⟨1, unixConn ⟨3, false⟩ true, .late⟩], fun _ _ => .ok none⟩ (by
    intro d hd
    simp only [List.mem_singleton] at hd
    subst hd
    exact ⟨⟨3, false⟩, true, rfl⟩)
  exact this.2 rfl

/-- **C44 fails** in every state, for every server that is not known yet: refusing terminates. -/
theorem every_refusal_terminates (s : State) (h : Reachable s) (p : Poll) (d : Dest) (ds : List Dest) (hp : p.found = d :: ds)
    (hd : d.hash ∉ s.transports.map (·.1)) (r : Lifecycle.ConnectOutcome) (hr : r.connect = false) (b : Bool) (hc : d.conn = unixConn r b) : (manage p s).2 = .terminate := by
  obtain ⟨s1, i1, _, _, _, e4, _, e6⟩ := manage_spec p s _ _ (inv_reachable h) (Prod.eta (manage p s)).symm
  have hu : unixConn r b = .terminate := by
    obtain ⟨fd, c⟩ := r
    simp only at hr
    subst hr
    unfold unixConn Lifecycle.factoryConnect Lifecycle.connect
    by_cases hfd : fd = -1 <;> simp [hfd, Lifecycle.destroy, Res.bind]
  have hno : (s1.transports.lookup d.hash).isSome = false := by
    rw [Bool.eq_false_iff]
    intro hc
    rw [lookup_isSome, e4] at hc
    exact hd ((List.filter_sublist.map _).subset hc)
  rw [hp] at e6
  simp only [connectAll, connectTo, hno, hc, hu, Bool.false_eq_true, if_false, fail] at e6
  exact (congrArg Prod.snd e6).symm

/-- A transport factory that reports a failure with a null pointer (as `TransportLoopbackFactory` does) leads to undefined behaviour. -/
theorem null_transport_undefined (s : State) (h : Reachable s) (p : Poll) (d : Dest) (ds : List Dest) (hp : p.found = d :: ds)
    (hd : d.hash ∉ s.transports.map (·.1)) (hc : d.conn = .ok none) : (manage p s).2 = .ub := by
  obtain ⟨s1, i1, _, _, _, e4, _, e6⟩ := manage_spec p s _ _ (inv_reachable h) (Prod.eta (manage p s)).symm
  have hno : (s1.transports.lookup d.hash).isSome = false := by
    rw [Bool.eq_false_iff]
    intro hc
    rw [lookup_isSome, e4] at hc
    exact hd ((List.filter_sublist.map _).subset hc)
  rw [hp] at e6
  simp only [connectAll, connectTo, hno, hc, Bool.false_eq_true, if_false] at e6
  exact (congrArg Prod.snd e6).symm

/-- Polls, and factories that are registered, while transport `t` stays connected. -/
inductive Later (t : Nat) (s : State) : State → Prop
  | refl : Later t s s
  | manage {s1 s2 : State} {p : Poll} {r : Res Unit} : Later t s s1 → p.connected t = true → manage p s1 = (s2, r) →
      (∃ x, r = .ok x) ∨ (∃ w, r = .throws w) → Later t s s2
  | addFactory {s1 : State} {name : String} {f : Nat} : Later t s s1 → Later t s (addFactory name f s1)

theorem later_reachable {t : Nat} {s s' : State} (h : Reachable s) (l : Later t s s') : Reachable s' := by
  induction l with
  | refl => exact h
  | manage _ _ e hr ih => exact .manage ih e hr
  | addFactory _ ih => exact .addFactory ih

/-- **C44, slow servers, fails:** the endpoints of a server are settled when it is found. As long as the connection is up, no number of later polls changes them. -/
theorem never_retried {s s' : State} (h : Reachable s) (x : Nat × Nat) (hx : x ∈ s.transports) (l : Later x.2 s s') :
    x ∈ s'.transports ∧ s'.tables.lookup x.2 = s.tables.lookup x.2 := by
  induction l with
  | refl => exact ⟨hx, rfl⟩
  | @manage s1 s2 p r l hc e _ ih =>
    obtain ⟨a, b⟩ := C42.live_transports_kept (later_reachable h l) p r e x ih.1 hc
    exact ⟨a, b.trans ih.2⟩
  | @addFactory s1 name f _ ih => exact ih

/-- **C44, slow servers**, in full: a server that answered too late when it was found gets its endpoints on some later poll, if it then answers in time. -/
def SlowServersRecover : Prop := ∀ s, Reachable s → ∀ p s', manage p s = (s', .ok ()) → ∀ d ∈ p.found, d.hash ∉ s.transports.map (·.1) → d.answer = .late →
  ∀ x ∈ s'.transports, x.1 = d.hash → ∃ s'', Later x.2 s' s'' ∧ s''.tables.lookup x.2 ≠ some []

theorem slow_server_lost : ¬ SlowServersRecover := by
  intro h
  obtain ⟨s'', l, hne⟩ := h {} .init C42.p1 _ rfl C42.d2 (by simp [C42.p1]) (by simp) rfl (22, 1) (by decide) rfl
  have hr : Reachable (manage C42.p1 {}).1 := .manage .init (p := C42.p1) rfl (Or.inl ⟨(), rfl⟩)
  exact hne ((never_retried hr (22, 1) (by decide) l).2)

/-- What a poll needs to end normally. -/
structure Good (p : Poll) : Prop where
  conn : ∀ d ∈ p.found, ∃ b, d.conn = .ok (some b)
  answer : ∀ d ∈ p.found, ∃ names, supported true d.answer = .ok names
  call : ∀ f t, ∃ o, p.call f t = .ok o

/-- **C44, partial.** If every discovered server accepts the connection or the transport says it is not connected, and answers in time with a list of names or not at all, a poll ends normally; by
    `C42.discovered_connected`, a server that could not be connected is tried again by every poll. Missing: servers that refuse, and servers that are late. -/
theorem good_poll_ends_partial {s : State} (h : Reachable s) (p : Poll) (hp : Good p) : (manage p s).2 = .ok () := by
  obtain ⟨s1, i1, _, _, _, _, _, e6⟩ := manage_spec p s _ _ (inv_reachable h) (Prod.eta (manage p s)).symm
  have hcreate : ∀ t ns s, (create p.call t ns s).2 = .ok () := by
    intro t ns
    induction ns with
    | nil => intro s; rfl
    | cons n ns ih =>
      intro s
      simp only [create]
      cases s.factories.lookup n with
      | none => exact ih s
      | some f =>
        obtain ⟨o, ho⟩ := hp.call f t
        simp only [ho]
        cases o with
        | none => exact ih s
        | some e => exact ih _
  have hto : ∀ s d, d ∈ p.found → (connectTo p.call s d).2 = .ok () := by
    intro s d hd
    unfold connectTo
    split
    · rfl
    · obtain ⟨b, hb⟩ := hp.conn d hd
      obtain ⟨names, hn⟩ := hp.answer d hd
      rw [hb]
      cases b with
      | false => rfl
      | true => simp only [hn]; exact hcreate _ _ _
  have hall : ∀ ds s, (∀ d ∈ ds, d ∈ p.found) → (connectAll p.call ds s).2 = .ok () := by
    intro ds
    induction ds with
    | nil => intro s _; rfl
    | cons d ds ih =>
      intro s hds
      simp only [connectAll]
      have h1 := hto s d (hds d List.mem_cons_self)
      obtain ⟨s2, r2, hc⟩ : ∃ s2 r2, connectTo p.call s d = (s2, r2) := ⟨_, _, rfl⟩
      rw [hc] at h1 ⊢
      simp only at h1
      subst h1
      exact ih s2 (fun d hd => hds d (List.mem_cons_of_mem _ hd))
  have := hall p.found s1 (fun _ h => h)
  rw [e6] at this
  exact this

example : Good C42.p1 := by
  refine ⟨?_, ?_, fun f t => ⟨_, rfl⟩⟩
  · intro d hd
    simp only [C42.p1, List.mem_cons, List.not_mem_nil, or_false] at hd
    rcases hd with rfl | rfl <;> exact ⟨true, rfl⟩
  · intro d hd
    simp only [C42.p1, List.mem_cons, List.not_mem_nil, or_false] at hd
    rcases hd with rfl | rfl <;> exact ⟨_, rfl⟩

/-- **C44:** an answer that is not a list of names escapes from `manage`; the server keeps its transport, without endpoints, so with `never_retried` it is lost as well. -/
theorem bad_answer_escapes : ∃ s', manage ⟨fun _ => true, [⟨1, .ok (some true), .data none⟩], fun _ _ => .ok none⟩ {} = (s', .throws "parse_error") ∧
    s'.transports = [(1, 0)] ∧ s'.tables.lookup 0 = some [] := ⟨_, rfl, rfl, rfl⟩

/-- **C44 fails, every time:** in every state, if the first server of a poll is not known yet, accepts the connection and answers with something that is not a list of names, then `manage` throws, none of the other
    servers of the poll is connected to, and the server is held without endpoints. -/
theorem bad_answer_always (s : State) (h : Reachable s) (p : Poll) (d : Dest) (ds : List Dest) (hp : p.found = d :: ds) (hd : d.hash ∉ s.transports.map (·.1)) (hc : d.conn = .ok (some true))
    (ha : d.answer = .data none) : ∃ s' t, manage p s = (s', .throws "parse_error") ∧ (d.hash, t) ∈ s'.transports ∧ s'.tables.lookup t = some [] ∧
      ∀ x ∈ s'.transports, x = (d.hash, t) ∨ x ∈ s.transports := by
  obtain ⟨s1, i1, _, _, _, e4, _, e6⟩ := manage_spec p s _ _ (inv_reachable h) (Prod.eta (manage p s)).symm
  have hno : (s1.transports.lookup d.hash).isSome = false := by
    rw [Bool.eq_false_iff]
    intro hc
    rw [lookup_isSome, e4] at hc
    exact hd ((List.filter_sublist.map _).subset hc)
  have hs : supported true (.data none) = .throws "parse_error" := rfl
  rw [hp] at e6
  simp only [connectAll, connectTo, hno, hc, ha, hs, Bool.false_eq_true, if_false, fail] at e6
  refine ⟨_, s1.next, e6.symm, by simp [assign], by simp [assign], ?_⟩
  intro x hx
  simp only [assign, List.mem_cons] at hx
  rcases hx with hx | hx
  · exact .inl hx
  · refine .inr ?_
    have := (List.mem_filter.mp hx).1
    rw [e4] at this
    exact (List.mem_filter.mp this).1

example : ∃ s', manage ⟨fun _ => true, [⟨1, .ok (some true), .late⟩], fun _ _ => .ok none⟩ {} = (s', .ok ()) ∧ 2 ∉ s'.transports.map (·.1) ∧ s'.transports ≠ [] := ⟨_, rfl, by decide, by decide⟩

end Scalopus.C44

namespace Scalopus.C67

open Manager

/-- **C67.** After any calls of startPolling and stopPolling, a thread polls iff the last call was startPolling, there is never more than one, and the manager can be destroyed. -/
theorem polling_exact (cs : List Call) : ∃ p, pollingRun cs {} = .ok p ∧ (p.threads = if cs.getLast? = some .start then 1 else 0) ∧ destroy p = .ok () := by
  have key : ∀ cs : List Call, ∀ p : Polling, (p = ⟨false, false, 0⟩ ∨ p = ⟨true, true, 1⟩) → ∃ q, pollingRun cs p = .ok q ∧
      (q = match cs.getLast? with | none => p | some .start => ⟨true, true, 1⟩ | some .stop => ⟨false, false, 0⟩) := by
    intro cs
    induction cs with
    | nil => intro p _; exact ⟨p, rfl, rfl⟩
    | cons c cs ih =>
      intro p hp
      have next : ∀ p', (p' = ⟨false, false, 0⟩ ∨ p' = ⟨true, true, 1⟩) → (p' = match c with | .start => ⟨true, true, 1⟩ | .stop => ⟨false, false, 0⟩) →
          ∃ q, pollingRun cs p' = .ok q ∧ (q = match (c :: cs).getLast? with | none => p | some .start => ⟨true, true, 1⟩ | some .stop => ⟨false, false, 0⟩) := by
        intro p' h1 h2
        obtain ⟨q, hq, hq'⟩ := ih p' h1
        refine ⟨q, hq, ?_⟩
        rw [hq']
        cases cs with
        | nil => simp only [List.getLast?_nil, List.getLast?_singleton]; rw [h2]; cases c <;> rfl
        | cons c' cs' => rw [List.getLast?_cons_cons]; cases hl : (c' :: cs').getLast? with
          | none => simp at hl
          | some z => cases z <;> rfl
      cases c with
      | start =>
        refine next ⟨true, true, 1⟩ (Or.inr rfl) rfl |> fun ⟨q, a, b⟩ => ⟨q, ?_, b⟩
        rcases hp with rfl | rfl <;> exact a
      | stop =>
        refine next ⟨false, false, 0⟩ (Or.inl rfl) rfl |> fun ⟨q, a, b⟩ => ⟨q, ?_, b⟩
        rcases hp with rfl | rfl <;> exact a
  obtain ⟨q, h1, h2⟩ := key cs {} (Or.inl rfl)
  refine ⟨q, h1, ?_⟩
  cases hl : cs.getLast? with
  | none => rw [hl] at h2; subst h2; exact ⟨rfl, rfl⟩
  | some c => rw [hl] at h2; cases c <;> (subst h2; exact ⟨rfl, rfl⟩)

example : ∃ p, pollingRun [.start, .start, .stop, .stop, .start] {} = .ok p ∧ p.threads = 1 := ⟨_, rfl, rfl⟩

end Scalopus.C67
