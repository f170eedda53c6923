import Verif.Proofs.Session

/-!
# C37, C38, C65: messages of a viewer's session

Texts that are sent are judged by what `JsonText.read` reads in them.
-/

namespace Scalopus.C37

open Session JsonText

/-- **C37.** The data messages together hold all events once and in order, with at most 1000 each. -/
theorem chunks_exact (events : List J) (h : ∀ j ∈ events, Clean j) :
    ∃ (texts : List Text) (chunks : List (List J)), transmitAll (slices events) = (texts.map .send, .ok ()) ∧ texts.map read = chunks.map (fun c => some (dataMessage c)) ∧
      chunks.flatten = events ∧ ∀ c ∈ chunks, c.length ≤ 1000 := by
  obtain ⟨ts, h1, h2⟩ := transmitAll_clean (slices events) (fun c hc j hj => h j (by
    rw [← slices_flatten events]
    exact List.mem_flatten.mpr ⟨c, hc, hj⟩))
  exact ⟨ts, slices events, h1, h2, slices_flatten events, slices_short events⟩

example := chunks_exact (List.replicate 2500 (.num ['1', '.', '5'])) (fun j hj => by
  rw [List.eq_of_mem_replicate hj]
  exact .num _ (by decide) (by decide))

/-- **C37, completion.** An end command stops all sources, replies, finishes all sources, sends all their events in order in data messages and then exactly one completion message. -/
theorem end_exact (m : List (Str × J)) (hm : Clean (.obj m)) (he : HasMethod m "Tracing.end") (results : List (List J)) (h : ∀ l ∈ results, ∀ j ∈ l, Clean j) :
    ∃ (reply : Text) (texts : List Text) (chunks : List (List J)) (done : Text), processMessage (results.map .ok) (some (.obj m)) =
        ((List.range results.length).map .stopSource ++ [.send reply] ++ (List.range results.length).map .finishSource ++ texts.map .send ++ [.send done], .ok ()) ∧
      read reply = some (.obj [(lit "id", member m "id"), (lit "result", .null)]) ∧
      texts.map read = chunks.map (fun c => some (dataMessage c)) ∧ chunks.flatten = results.flatten ∧ (∀ c ∈ chunks, c.length ≤ 1000) ∧
      read done = some (.obj [(lit "method", .str (lit "Tracing.tracingComplete")), (lit "params", .arr [])]) := by
  obtain ⟨method, h1, _, h1'⟩ := index_clean m hm "method"
  obtain ⟨id, h2, hc2, h2'⟩ := index_clean m hm "id"
  rw [he] at h1'
  subst h1'
  obtain ⟨t1, e1, r1⟩ := outgoing_clean _ (clean_empty id hc2)
  obtain ⟨t2, e2, r2⟩ := outgoing_clean _ clean_complete
  obtain ⟨ts, cs, e3, r3, f3, g3⟩ := chunks_exact results.flatten (fun j hj => by
    obtain ⟨l, hl, hj⟩ := List.mem_flatten.mp hj
    exact h l hl j hj)
  refine ⟨t1, ts, cs, t2, ?_, by rw [h2']; exact r1, r3, f3, g3, r2⟩
  unfold processMessage
  simp only
  rw [h1, h2]
  simp only
  rw [if_neg (by decide), if_neg (by decide), if_pos (by decide), finishAll_ok, e1]
  simp only
  rw [e3, e2]
  simp [andThen]

end Scalopus.C37

namespace Scalopus.C38

open Session JsonText

/-- **C38, order.** The messages that were processed, followed by those that wait, are the messages received: each is processed once, in the order of arrival. -/
theorem commands_in_order {s : State} (h : Reachable s) :
    s.received = s.processed.map (fun p => p.1) ++ s.queue ∧ ∀ p ∈ s.processed, p.2.2 = (processMessage p.2.1 p.1).1 := by
  induction h with
  | init => exact ⟨rfl, by simp⟩
  | @step s s' a _ e ih =>
    obtain ⟨h1, h2⟩ := ih
    cases a with
    | incoming m =>
      simp only [Session.step, Option.some.injEq] at e
      subst e
      exact ⟨by simp [h1], h2⟩
    | process results =>
      simp only [Session.step] at e
      split at e
      · cases e
      · split at e
        · cases e
        · rename_i m q hq
          simp only [Option.some.injEq] at e
          subst e
          refine ⟨by simp [h1, hq], ?_⟩
          intro p hp
          simp only [List.mem_append, List.mem_singleton] at hp
          rcases hp with hp | rfl
          · exact h2 p hp
          · rfl

/-- **C38, every message is processed.** Unless the program was ended, a waiting message can be processed. -/
theorem command_can_be_processed (s : State) (hq : s.queue ≠ []) (ht : s.terminated = false) (results : List (Res (List J))) :
    ∃ s', step s (.process results) = some s' := by
  obtain ⟨m, q, hq⟩ := List.exists_cons_of_ne_nil hq
  simp [step, ht, hq]

/-- **C38, categories.** Exactly one reply, with the command's id and an object with an array of names of categories. -/
theorem categories_exact (m : List (Str × J)) (hm : Clean (.obj m)) (he : HasMethod m "Tracing.getCategories") (results : List (Res (List J))) :
    ∃ reply, processMessage results (some (.obj m)) = ([.send reply], .ok ()) ∧
      read reply = some (.obj [(lit "id", member m "id"),
        (lit "result", .obj [(lit "categories", .arr [.str (lit "!foo"), .str (lit "!bar"), .str (lit "disabled-by-default-buz")])])]) := by
  obtain ⟨method, h1, _, h1'⟩ := index_clean m hm "method"
  obtain ⟨id, h2, hc2, h2'⟩ := index_clean m hm "id"
  rw [he] at h1'
  subst h1'
  obtain ⟨t1, e1, r1⟩ := outgoing_clean _ (clean_categories id hc2)
  refine ⟨t1, ?_, by rw [h2']; exact r1⟩
  unfold processMessage
  simp only
  rw [h1, h2]
  simp only
  rw [if_pos (by decide), e1]

/-- **C38, start.** Every source is started once, then there is exactly one reply, with the command's id. -/
theorem start_exact (m : List (Str × J)) (hm : Clean (.obj m)) (he : HasMethod m "Tracing.start") (results : List (Res (List J))) :
    ∃ reply, processMessage results (some (.obj m)) = ((List.range results.length).map .startSource ++ [.send reply], .ok ()) ∧
      read reply = some (.obj [(lit "id", member m "id"), (lit "result", .null)]) := by
  obtain ⟨method, h1, _, h1'⟩ := index_clean m hm "method"
  obtain ⟨id, h2, hc2, h2'⟩ := index_clean m hm "id"
  rw [he] at h1'
  subst h1'
  obtain ⟨t1, e1, r1⟩ := outgoing_clean _ (clean_empty id hc2)
  refine ⟨t1, ?_, by rw [h2']; exact r1⟩
  unfold processMessage
  simp only
  rw [h1, h2]
  simp only
  rw [if_neg (by decide), if_pos (by decide), e1]
  rfl

/-- **C38, unknown commands.** Nothing is done. -/
theorem unknown_ignored (m : List (Str × J)) (results : List (Res (List J))) (h1 : ¬ HasMethod m "Tracing.getCategories") (h2 : ¬ HasMethod m "Tracing.start")
    (h3 : ¬ HasMethod m "Tracing.end") : processMessage results (some (.obj m)) = ([], .ok ()) := by
  have key : ∀ name, ¬ HasMethod m name → isMethod (member m "method") name = false := by
    intro name hn
    unfold HasMethod at hn
    cases hx : member m "method" with
    | str s =>
      rw [hx] at hn
      simp only [isMethod]
      simpa using hn
    | _ => rfl
  unfold processMessage
  simp only [index]
  have e : (((m.find? fun x => x.1 == lit "method").map fun x => x.2).getD .null) = member m "method" := rfl
  rw [e, key _ h1, key _ h2, key _ h3]
  simp

/-- A command as the viewer sends it. -/
def startCommand : List (Str × J) := [(lit "id", .num ['7']), (lit "method", .str (lit "Tracing.start"))]

theorem startCommand_clean : Clean (.obj startCommand) := by
  apply Clean.obj <;> simp only [startCommand, List.mem_cons, List.not_mem_nil, or_false, forall_eq_or_imp, forall_eq, lit_isSome, and_self]
  exact ⟨.num _ (by decide) (by decide), clean_lit _⟩

theorem startCommand_method : HasMethod startCommand "Tracing.start" := rfl

example := start_exact startCommand startCommand_clean startCommand_method [.ok [], .ok []]

end Scalopus.C38

namespace Scalopus.C65

open Session JsonText

/-- **C65** in full: no message from a viewer and no event ends the program. -/
def NothingStopsServer : Prop := ∀ s, Reachable s → s.terminated = false

/-- **C65 fails** for text that is not JSON. -/
theorem malformed_message_terminates : ¬ NothingStopsServer := by
  intro h
  have := h _ (.step (.step .init (a := .incoming none) rfl) (a := .process []) rfl)
  exact absurd this (by decide)

/-- A message that is JSON, but neither an object nor null, ends the program. -/
theorem other_json_terminates (j : J) (h : ∀ m, j ≠ .obj m) (hn : j ≠ .null) (results : List (Res (List J))) : (processMessage results (some j)).2 = .throws "type_error" := by
  cases j with
  | obj m => exact absurd rfl (h m)
  | null => exact absurd rfl hn
  | _ => rfl

/-- An event with a name that is not UTF-8, of any traced program, ends the program when the recording is ended. -/
theorem name_terminates : (processMessage [.ok [.obj [(lit "name", .str none)]]] (some (.obj [(lit "id", .num ['7']), (lit "method", .str (lit "Tracing.end"))]))).2 =
    .throws "type_error" := by
  decide +kernel

/-- **C65, partial.** As long as viewers send objects and the sources return events whose strings are UTF-8, nothing ends the program. Missing: other messages and names. -/
theorem wellformed_continues_partial (m : List (Str × J)) (hm : Clean (.obj m)) (results : List (List J)) (h : ∀ l ∈ results, ∀ j ∈ l, Clean j) :
    (processMessage (results.map .ok) (some (.obj m))).2 = .ok () := by
  by_cases h1 : HasMethod m "Tracing.getCategories"
  · obtain ⟨_, e, _⟩ := C38.categories_exact m hm h1 (results.map .ok)
    rw [e]
  by_cases h2 : HasMethod m "Tracing.start"
  · obtain ⟨_, e, _⟩ := C38.start_exact m hm h2 (results.map .ok)
    rw [e]
  by_cases h3 : HasMethod m "Tracing.end"
  · obtain ⟨_, _, _, _, e, _⟩ := C37.end_exact m hm h3 results h
    rw [e]
  rw [C38.unknown_ignored m _ h1 h2 h3]

example := wellformed_continues_partial C38.startCommand C38.startCommand_clean [[.null]] (by simp; exact .null)

end Scalopus.C65
