import Verif.Model.PyFactory
import Verif.Props.C42_Manager

/-!
# C115: a factory function that fails affects only its own endpoint

A factory function of a Python program that raises, or that returns something that is not an endpoint, is like one that returns None: the endpoint is missing, everything else is as usual.

This is false: the exception leaves the manager in the middle of its round.
-/

namespace Scalopus.C115
open Scalopus.PyFactory Scalopus.Manager
open Endpoints (Answer supported)

/-- The function fails. -/
def Fails : Made → Prop
  | .raises => True
  | .other => True
  | .none => False
  | .endpoint _ => False

/-- The same functions, but those that fail return None instead. -/
def forgiving (r : Round) : Round :=
  { r with make := fun f t => match r.make f t with
      | .raises => .none
      | .other => .none
      | m => m }

/-- The full claim: a round ends as if the functions that fail had returned None, whoever calls it. -/
def OnlyItsOwn : Prop := ∀ s, Reachable s → ∀ r : Round, PyFactory.manage r s = PyFactory.manage (forgiving r) s ∧ managePolling r s = managePolling (forgiving r) s

theorem call_ok {m : Made} (h : ¬ Fails m) : ∃ o, call m = .ok o := by
  cases m with
  | raises => exact absurd trivial h
  | other => exact absurd trivial h
  | none => exact ⟨_, rfl⟩
  | endpoint e => exact ⟨_, rfl⟩

theorem call_fails {m : Made} (h : Fails m) : ∃ w, call m = .throws w := by
  cases m with
  | raises => exact ⟨_, rfl⟩
  | other => exact ⟨_, rfl⟩
  | none => cases h
  | endpoint e => cases h

/-- **C115, where it holds.** If no function fails and the servers can be reached, the round ends, and every new transport has exactly the endpoints that the functions returned: those for which they returned None are missing. -/
theorem none_is_skipped_partial {s : State} (h : Reachable s) (r : Round) (hm : ∀ f t, ¬ Fails (r.make f t)) (hc : ∀ d ∈ r.found, ∃ b, d.conn = .ok (some b))
    (ha : ∀ d ∈ r.found, ∃ names, supported true d.answer = .ok names) :
    ∃ s', PyFactory.manage r s = (s', .ok ()) ∧ managePolling r s = (s', .ok ()) ∧ ∀ x ∈ s'.transports, x ∉ s.transports → ∃ d ∈ r.found, d.hash = x.1 ∧
      ∃ names, supported true d.answer = .ok names ∧ ∃ table, s'.tables.lookup x.2 = some table ∧
        ∀ n e, table.lookup n = some e ↔ n ∈ names ∧ ∃ f, s.factories.lookup n = some f ∧ r.make f x.2 = .endpoint e := by
  have hg : C44.Good r.poll := ⟨hc, ha, fun f t => call_ok (hm f t)⟩
  have hend := C44.good_poll_ends_partial h r.poll hg
  have e : PyFactory.manage r s = ((Manager.manage r.poll s).1, .ok ()) := Prod.ext rfl hend
  refine ⟨_, e, by simp only [managePolling, e], fun x hx hnew => ?_⟩
  obtain ⟨d, hd, h1, names, h2, table, h3, h4, _⟩ := C43.endpoints_exact h r.poll e x hx hnew
  refine ⟨d, hd, h1, names, h2, table, h3, fun n ep => ?_⟩
  rw [h4]
  have key : ∀ f, r.poll.call f x.2 = .ok (some ep) ↔ r.make f x.2 = .endpoint ep := by
    intro f
    change call (r.make f x.2) = _ ↔ _
    cases r.make f x.2 <;> simp [call]
  simp only [key]

theorem create_factories (c : Nat → Nat → Res (Option Nat)) (t : Nat) (ns : List String) : ∀ s, (create c t ns s).1.factories = s.factories := by
  induction ns with
  | nil => intro s; rfl
  | cons n ns ih =>
    intro s
    simp only [create]
    split
    · exact ih s
    · split
      · exact ih s
      · exact ih _
      · rfl

theorem create_append (c : Nat → Nat → Res (Option Nat)) (t : Nat) (ns ms : List String) :
    ∀ s, (create c t ns s).2 = .ok () → create c t (ns ++ ms) s = create c t ms (create c t ns s).1 := by
  induction ns with
  | nil => intro s _; rfl
  | cons n ns ih =>
    intro s h
    rw [List.cons_append]
    simp only [create] at h ⊢
    cases hl : s.factories.lookup n with
    | none => simp only [hl] at h ⊢; exact ih s h
    | some f =>
      simp only [hl] at h ⊢
      cases hc : c f t with
      | ok o =>
        cases o with
        | none => simp only [hc] at h ⊢; exact ih s h
        | some e => simp only [hc] at h ⊢; exact ih _ h
      | throws w => simp only [hc] at h; cases h
      | ub => simp only [hc] at h; cases h
      | terminate => simp only [hc] at h; cases h

theorem connectAll_append (c : Nat → Nat → Res (Option Nat)) (ds es : List Dest) : ∀ s, (connectAll c ds s).2 = .ok () → connectAll c (ds ++ es) s = connectAll c es (connectAll c ds s).1 := by
  induction ds with
  | nil => intro s _; rfl
  | cons d ds ih =>
    intro s h
    rw [List.cons_append]
    simp only [connectAll] at h ⊢
    rcases hq : connectTo c s d with ⟨s1, r⟩
    rw [hq] at h
    cases r with
    | ok u => simp only at h ⊢; exact ih s1 h
    | throws w => cases h
    | ub => cases h
    | terminate => cases h

/-- What a round leaves behind if server `d`, which comes after `pre`, says that it supports `ns`, `n` and more, and the function for `n` fails, while everything before went well: exactly what it would leave behind
    if `d` supported `ns` only and nothing came after `d`. Who called the round gets an exception. -/
theorem failing_cuts_short {s : State} (r : Round) (pre post : List Dest) (d d' : Dest) (ns ms : List String) (n : String) (f : Nat)
    (hf : r.found = pre ++ d :: post) (hd : d'.hash = d.hash) (hd' : d'.conn = d.conn) (hc : d.conn = .ok (some true))
    (ha : supported true d.answer = .ok (ns ++ n :: ms)) (ha' : supported true d'.answer = .ok ns)
    (hgood : (PyFactory.manage { r with found := pre ++ [d'] } s).2 = .ok ())
    (hnew : d.hash ∉ (PyFactory.manage { r with found := pre } s).1.transports.map (·.1)) (hpre : (PyFactory.manage { r with found := pre } s).2 = .ok ())
    (hn : (PyFactory.manage { r with found := pre } s).1.factories.lookup n = some f) (hfail : Fails (r.make f (PyFactory.manage { r with found := pre } s).1.next)) :
    ∃ w, PyFactory.manage r s = ((PyFactory.manage { r with found := pre ++ [d'] } s).1, .throws w) ∧ managePolling r s = ((PyFactory.manage { r with found := pre ++ [d'] } s).1, .terminate) := by
  obtain ⟨w, hw⟩ := call_fails hfail
  suffices h : PyFactory.manage r s = ((PyFactory.manage { r with found := pre ++ [d'] } s).1, .throws w) from ⟨w, h, by simp only [managePolling, h]⟩
  simp only [PyFactory.manage, Manager.manage, Round.poll] at *
  cases hcl : cleanup r.connected s.transports s with
  | ok s1 =>
    simp only [hcl] at *
    rw [connectAll_append _ _ _ _ hpre] at hgood ⊢
    rw [hf, connectAll_append _ _ _ _ hpre]
    generalize (connectAll (fun f t => call (r.make f t)) pre s1).1 = s2 at *
    have hnone : (s2.transports.lookup d.hash).isSome = false := by
      cases hq : (s2.transports.lookup d.hash).isSome
      · rfl
      · rw [lookup_isSome] at hq; exact absurd hq hnew
    simp only [connectAll, connectTo, hd, hnone, Bool.false_eq_true, if_false, hd', hc, ha, ha'] at hgood ⊢
    generalize hs3 : ({ s2 with transports := assign d.hash s2.next s2.transports, tables := assign s2.next [] s2.tables, next := s2.next + 1 } : State) = s3 at *
    have hgood' : (create (fun f t => call (r.make f t)) s2.next ns s3).2 = .ok () := by
      rcases hq : create (fun f t => call (r.make f t)) s2.next ns s3 with ⟨s4, r4⟩
      rw [hq] at hgood
      cases r4 with
      | ok u => rfl
      | throws w => cases hgood
      | ub => cases hgood
      | terminate => cases hgood
    have hfac : (create (fun f t => call (r.make f t)) s2.next ns s3).1.factories.lookup n = some f := by
      rw [create_factories, ← hs3]; exact hn
    rw [create_append _ _ _ _ _ hgood']
    rcases hq : create (fun f t => call (r.make f t)) s2.next ns s3 with ⟨s4, r4⟩
    rw [hq] at hgood' hfac
    simp only at hgood' hfac
    subst hgood'
    simp only [create, hfac, hw]
    rfl
  | throws w => simp only [hcl] at hpre; cases hpre
  | ub => simp only [hcl] at hpre; cases hpre
  | terminate => simp only [hcl] at hpre; cases hpre

/-- **C115, the violation, for good.** After a round that ended like this nothing that happens later gives the server the endpoints that it is lacking, also if the function does not fail any more. -/
theorem never_made_up {s s' : State} (h : Reachable s) (r : Round) (w : String) (e : PyFactory.manage r s = (s', .throws w)) (x : Nat × Nat) (hx : x ∈ s'.transports) {s'' : State}
    (l : C44.Later x.2 s' s'') : x ∈ s''.transports ∧ s''.tables.lookup x.2 = s'.tables.lookup x.2 :=
  C44.never_retried (.manage h (p := r.poll) e (.inr ⟨w, rfl⟩)) x hx l

/-! ## An instance -/

/-- Two servers: the first supports introspection, an endpoint "a" and another "b", the second "a". -/
def r1 (m : Made) : Round :=
  { connected := fun _ => true
    found := [⟨1, .ok (some true), .data (some (.obj [("endpoints", .arr [.str "a", .str "b"])]))⟩, ⟨2, .ok (some true), .data (some (.obj [("endpoints", .arr [.str "b"])]))⟩]
    make := fun f t => if f = 1 ∧ t = 0 then m else .endpoint (10 * f + t) }

/-- A manager with factories for "a" (1) and "b" (2). -/
def s1 : State := addFactory "b" 2 (addFactory "a" 1 {})

theorem s1_reachable : Reachable s1 := .addFactory (.addFactory .init)

/-- **C115, the violation.** The function for "a" raises once: the first server gets no "b" either, and the second is not connected. -/
theorem raising_spreads : (PyFactory.manage (r1 .raises) s1).2 = .throws "error_already_set" ∧ (managePolling (r1 .raises) s1).2 = .terminate ∧
    (PyFactory.manage (r1 .raises) s1).1.transports = [(1, 0)] ∧ (PyFactory.manage (r1 .raises) s1).1.tables.lookup 0 = some [] ∧
    (PyFactory.manage (r1 .none) s1).2 = .ok () ∧ (PyFactory.manage (r1 .none) s1).1.transports = [(2, 1), (1, 0)] ∧ (PyFactory.manage (r1 .none) s1).1.tables.lookup 0 = some [("b", 20)] := by
  refine ⟨rfl, rfl, rfl, rfl, rfl, rfl, rfl⟩

/-- **C115 does not hold.** -/
theorem not_OnlyItsOwn : ¬ OnlyItsOwn := by
  intro h
  have h1 := congrArg (fun x => x.1.transports) (h s1 s1_reachable (r1 .raises)).1
  rw [show (PyFactory.manage (r1 .raises) s1).1.transports = [(1, 0)] from rfl, show (PyFactory.manage (forgiving (r1 .raises)) s1).1.transports = [(2, 1), (1, 0)] from rfl] at h1
  cases h1

/-- The hypotheses of `failing_cuts_short` are met: the function for "b" raises on the first server, after "a". -/
example : ∃ w, PyFactory.manage { r1 .none with make := fun f t => if f = 2 then .raises else .endpoint (10 * f + t) } s1 =
    ((PyFactory.manage { r1 .none with make := fun f t => if f = 2 then .raises else .endpoint (10 * f + t), found := [⟨1, .ok (some true), .data (some (.obj [("endpoints", .arr [.str "a"])]))⟩] } s1).1, .throws w) := by
  obtain ⟨w, h, _⟩ := failing_cuts_short (s := s1) { r1 .none with make := fun f t => if f = 2 then .raises else .endpoint (10 * f + t) } [] _
    _ ⟨1, .ok (some true), .data (some (.obj [("endpoints", .arr [.str "a"])]))⟩ ["a"] [] "b" 2 rfl rfl rfl rfl rfl rfl rfl (by decide) rfl rfl trivial
  exact ⟨w, h⟩

/-- Those of `none_is_skipped_partial` too. -/
example : ∀ f t, ¬ Fails ((r1 .none).make f t) := by
  intro f t
  simp only [r1]
  split <;> exact id

end Scalopus.C115
