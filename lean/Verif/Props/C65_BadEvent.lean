import Verif.Props.C139_RecorderHistory
import Verif.Props.C37_Session

/-!
# C65: events that end the program that serves viewers

Every end of a recording with an event whose strings are not UTF-8, at any place, of any source and at any depth, and every end with a source that fails.
-/

namespace Scalopus.C65

open Session JsonText

theorem formatEvents_bad {c : List J} {j : J} (hj : j ∈ c) (hb : C139.Bad j) : formatEvents c = none := by
  simp [formatEvents, C139.dumpAll_none hj (C139.dump_bad hb)]

theorem transmitAll_bad {cs : List (List J)} {c : List J} {j : J} (hc : c ∈ cs) (hj : j ∈ c) (hb : C139.Bad j) : ∃ ts : List Text, transmitAll cs = (ts.map .send, .throws "type_error") := by
  induction cs with
  | nil => cases hc
  | cons x cs ih =>
    cases hx : formatEvents x with
    | none => exact ⟨[], by simp [transmitAll, hx, andThen]⟩
    | some t =>
      rcases List.mem_cons.1 hc with rfl | hc
      · rw [formatEvents_bad hj hb] at hx; cases hx
      · obtain ⟨ts, h⟩ := ih hc
        exact ⟨t :: ts, by simp [transmitAll, hx, andThen, h]⟩

/-- **C65 fails: every event that is not UTF-8.** If any event of any source has, anywhere in it, a string that is not UTF-8, the end command of a viewer ends the program: after the sources were stopped and finished, and without
    the message that completes the recording. -/
theorem bad_event_terminates (m : List (Str × J)) (hm : Clean (.obj m)) (he : HasMethod m "Tracing.end") (results : List (List J)) (l : List J) (hl : l ∈ results) (j : J) (hj : j ∈ l) (hb : C139.Bad j) :
    ∃ (reply : Text) (texts : List Text), processMessage (results.map .ok) (some (.obj m)) =
        ((List.range results.length).map .stopSource ++ [.send reply] ++ (List.range results.length).map .finishSource ++ texts.map .send, .throws "type_error") ∧
      read reply = some (.obj [(lit "id", member m "id"), (lit "result", .null)]) := by
  obtain ⟨method, h1, _, h1'⟩ := index_clean m hm "method"
  obtain ⟨id, h2, hc2, h2'⟩ := index_clean m hm "id"
  rw [he] at h1'
  subst h1'
  obtain ⟨t1, e1, r1⟩ := outgoing_clean _ (clean_empty id hc2)
  obtain ⟨c, hc, hj'⟩ : ∃ c ∈ slices results.flatten, j ∈ c := by
    have : j ∈ (slices results.flatten).flatten := by
      rw [slices_flatten]; exact List.mem_flatten.2 ⟨l, hl, hj⟩
    exact List.mem_flatten.1 this
  obtain ⟨ts, e3⟩ := transmitAll_bad hc hj' hb
  refine ⟨t1, ts, ?_, by rw [h2']; exact r1⟩
  unfold processMessage
  simp only
  rw [h1, h2]
  simp only
  rw [if_neg (by decide), if_neg (by decide), if_pos (by decide), finishAll_ok, e1]
  simp only
  rw [e3]
  simp [andThen]

theorem finishAll_throws (pre : List (List J)) (w : String) (rest : List (Res (List J))) : ∀ i, (finishAll i (pre.map .ok ++ .throws w :: rest)).2 = .throws w := by
  induction pre with
  | nil => intro i; rfl
  | cons l pre ih => intro i; simp only [List.map_cons, List.cons_append, finishAll, ih]; rfl

/-- **C65 fails: a source that fails.** If the interval of a source cannot be finished (as with LTTng events without the contexts, C68.incomplete_event_loses_all, and sources written in Python that raise), the end command ends the
    program with the exception of the first such source. -/
theorem failing_source_terminates (m : List (Str × J)) (hm : Clean (.obj m)) (he : HasMethod m "Tracing.end") (pre : List (List J)) (w : String) (rest : List (Res (List J))) :
    (processMessage (pre.map .ok ++ .throws w :: rest) (some (.obj m))).2 = .throws w := by
  obtain ⟨method, h1, _, h1'⟩ := index_clean m hm "method"
  obtain ⟨id, h2, hc2, h2'⟩ := index_clean m hm "id"
  rw [he] at h1'
  subst h1'
  obtain ⟨t1, e1, r1⟩ := outgoing_clean _ (clean_empty id hc2)
  have e2 := finishAll_throws pre w rest 0
  unfold processMessage
  simp only
  rw [h1, h2]
  simp only
  rw [if_neg (by decide), if_neg (by decide), if_pos (by decide), e1]
  generalize finishAll 0 (pre.map .ok ++ .throws w :: rest) = r at e2
  obtain ⟨es, r⟩ := r
  simp only at e2
  subst e2
  simp [andThen]

/-- Either way the program has ended, whatever was received before. -/
theorem ends_program (s : State) (hs : s.terminated = false) (q : List (Option J)) (msg : Option J) (hq : s.queue = msg :: q) (results : List (Res (List J))) (w : String) (h : (processMessage results msg).2 = .throws w) :
    ∃ s', step s (.process results) = some s' ∧ s'.terminated = true ∧ ∀ r, step s' (.process r) = none := by
  refine ⟨_, by simp only [step, hs, hq]; rfl, by simp [h, Res.isOk], fun r => by simp [step, h, Res.isOk]⟩

/-! ## Exactly when the program continues -/

theorem dumpAll_good {l : List J} (h : ∀ j ∈ l, ∃ t, dump j = some t) : ∃ ts, dumpAll l = some ts := by
  induction l with
  | nil => exact ⟨[], rfl⟩
  | cons x l ih =>
    obtain ⟨t, ht⟩ := h x (by simp)
    obtain ⟨ts, hts⟩ := ih fun j hj => h j (by simp [hj])
    exact ⟨t :: ts, by simp [dumpAll, ht, hts]⟩

theorem dumpMembers_good {l : List (Str × J)} (h : ∀ x ∈ l, x.1 ≠ none ∧ ∃ t, dump x.2 = some t) : ∃ ts, dumpMembers l = some ts := by
  induction l with
  | nil => exact ⟨[], rfl⟩
  | cons x l ih =>
    obtain ⟨k, x⟩ := x
    obtain ⟨hk, t, ht⟩ := h (k, x) (by simp)
    obtain ⟨ts, hts⟩ := ih fun j hj => h j (by simp [hj])
    cases k with
    | none => exact absurd rfl hk
    | some k => simp only at ht; exact ⟨_, by simp [dumpMembers, ht, hts]; rfl⟩

/-- A value can be written exactly if no string in it is bad. -/
theorem dump_good : ∀ j : J, ¬ C139.Bad j → ∃ t, dump j = some t
  | .null, _ => ⟨_, rfl⟩
  | .bool true, _ => ⟨_, rfl⟩
  | .bool false, _ => ⟨_, rfl⟩
  | .num t, _ => ⟨t, rfl⟩
  | .str none, h => absurd .str h
  | .str (some t), _ => ⟨quote t, rfl⟩
  | .arr l, h => by
    obtain ⟨ts, hts⟩ := dumpAll_good (l := l) fun j hj => dump_good j fun hb => h (.arr hj hb)
    exact ⟨_, by rw [dump, hts]; rfl⟩
  | .obj l, h => by
    obtain ⟨ts, hts⟩ := dumpMembers_good (l := l) fun x hx => ⟨fun hk => h (.key (j := x.2) (hk ▸ hx)), dump_good x.2 fun hb => h (.value (k := x.1) hx hb)⟩
    exact ⟨_, by rw [dump, hts]; rfl⟩
termination_by j => sizeOf j
decreasing_by
  · have := List.sizeOf_lt_of_mem hj
    simp only [J.arr.sizeOf_spec]
    omega
  · have h1 := List.sizeOf_lt_of_mem hx
    have h2 : sizeOf x = 1 + sizeOf x.1 + sizeOf x.2 := by cases x; rfl
    simp only [J.obj.sizeOf_spec]
    omega

theorem outgoing_good {j : J} (h : ¬ C139.Bad j) : (outgoing j).2 = .ok () := by
  obtain ⟨t, ht⟩ := dump_good j h
  simp [outgoing, ht]

theorem transmitAll_good {cs : List (List J)} (h : ∀ c ∈ cs, ∀ j ∈ c, ¬ C139.Bad j) : (transmitAll cs).2 = .ok () := by
  induction cs with
  | nil => rfl
  | cons c cs ih =>
    obtain ⟨ts, hts⟩ := dumpAll_good fun j hj => dump_good j (h c (by simp) j hj)
    have : ∃ t, formatEvents c = some t := ⟨_, by simp only [formatEvents, hts]; rfl⟩
    obtain ⟨t, ht⟩ := this
    simp only [transmitAll, ht, andThen]
    exact ih fun c hc => h c (by simp [hc])

theorem andThen_ok {a b : List Eff × Res Unit} : (andThen a b).2 = .ok () ↔ a.2 = .ok () ∧ b.2 = .ok () := by
  unfold andThen
  split
  · rename_i h; simp [h]
  · rename_i h; simp only [h]
    constructor
    · intro e; exact absurd e (by simpa using h)
    · intro e; exact e.1

theorem finishAll_all {rs : List (Res (List J))} : ∀ {i : Nat} {es : List Eff} {ev : List J}, finishAll i rs = (es, .ok ev) → ∃ ls : List (List J), rs = ls.map .ok ∧ ev = ls.flatten := by
  induction rs with
  | nil => intro i es ev h; cases h; exact ⟨[], rfl, rfl⟩
  | cons r rs ih =>
    intro i es ev h
    cases r with
    | ok l =>
      simp only [finishAll, Prod.mk.injEq] at h
      generalize hx : finishAll (i + 1) rs = x at h
      obtain ⟨es', x⟩ := x
      cases x with
      | ok m =>
        obtain ⟨ls, h1, h2⟩ := ih hx
        have := h.2
        simp only [Res.bind, Res.ok.injEq] at this
        exact ⟨l :: ls, by simp [h1], by simp [← this, h2]⟩
      | throws w => have := h.2; cases this
      | ub => have := h.2; cases this
      | terminate => have := h.2; cases this
    | throws w => cases h
    | ub => cases h
    | terminate => cases h

theorem empty_good {id : J} (h : ¬ C139.Bad id) : ¬ C139.Bad (emptyReply id) := by
  intro hb
  obtain ⟨t, ht⟩ := dump_good id h
  have := C139.dump_bad hb
  simp [emptyReply, dump, dumpMembers, lit, ht] at this

theorem categories_good {id : J} (h : ¬ C139.Bad id) : ¬ C139.Bad (categoriesReply id) := by
  intro hb
  obtain ⟨t, ht⟩ := dump_good id h
  have := C139.dump_bad hb
  simp [categoriesReply, dump, dumpMembers, dumpAll, lit, ht] at this

/-- **C65, exactly.** Handling a message ends without an exception exactly if the message is null or an object and, for the command that ends the recording, every source could be finished and
    gave only events whose strings are UTF-8. (The strings of a message that could be parsed are UTF-8.) -/
theorem continues_iff (msg : Option J) (hm : ∀ j, msg = some j → ¬ C139.Bad j) (results : List (Res (List J))) :
    (processMessage results msg).2 = .ok () ↔
      msg = some .null ∨ ∃ m, msg = some (.obj m) ∧ (HasMethod m "Tracing.end" → ∀ r ∈ results, ∃ l, r = .ok l ∧ ∀ j ∈ l, ¬ C139.Bad j) := by
  cases msg with
  | none => simp [processMessage]
  | some j =>
    cases j with
    | null => simp [processMessage, index, isMethod]
    | bool b => simp [processMessage, index]
    | num b => simp [processMessage, index]
    | str b => simp [processMessage, index]
    | arr b => simp [processMessage, index]
    | obj m =>
      simp only [Option.some.injEq, reduceCtorEq, J.obj.injEq, false_or, exists_eq_left']
      have hid : ¬ C139.Bad (member m "id") := by
        unfold member
        cases hf : m.find? fun x => x.1 == lit "id" with
        | none => intro hb; cases hb
        | some x => exact fun hb => hm _ rfl (.value (k := x.1) (List.mem_of_find?_eq_some hf) hb)
      by_cases h1 : HasMethod m "Tracing.getCategories"
      · have hne : ¬ HasMethod m "Tracing.end" := by
          intro h; unfold HasMethod at h1 h; rw [h1] at h; exact absurd (J.str.inj h) (by decide)
        simp only [hne, false_imp_iff, iff_true]
        have e : (processMessage results (some (.obj m))).2 = (outgoing (categoriesReply (member m "id"))).2 := by
          unfold processMessage
          simp only [index]
          have e : (((m.find? fun x => x.1 == lit "method").map fun x => x.2).getD .null) = .str (lit "Tracing.getCategories") := h1
          rw [e, if_pos (by decide)]
          rfl
        rw [e, outgoing_good (categories_good hid)]
      by_cases h2 : HasMethod m "Tracing.start"
      · have hne : ¬ HasMethod m "Tracing.end" := by
          intro h; unfold HasMethod at h2 h; rw [h2] at h; exact absurd (J.str.inj h) (by decide)
        simp only [hne, false_imp_iff, iff_true]
        have e : (processMessage results (some (.obj m))) = andThen ((List.range results.length).map .startSource, .ok ()) (outgoing (emptyReply (member m "id"))) := by
          unfold processMessage
          simp only [index]
          have e : (((m.find? fun x => x.1 == lit "method").map fun x => x.2).getD .null) = .str (lit "Tracing.start") := h2
          rw [e, if_neg (by decide), if_pos (by decide)]
          rfl
        rw [e, andThen_ok]
        exact ⟨rfl, outgoing_good (empty_good hid)⟩
      by_cases h3 : HasMethod m "Tracing.end"
      · simp only [h3, true_imp_iff]
        have e : (processMessage results (some (.obj m))) = andThen ((List.range results.length).map .stopSource, .ok ())
          (andThen (outgoing (emptyReply (member m "id")))
            (match finishAll 0 results with
              | (es, .ok events) => andThen (es, .ok ()) (andThen (transmitAll (slices events)) (outgoing completeMessage))
              | (es, .throws w) => (es, .throws w)
              | (es, .ub) => (es, .ub)
              | (es, .terminate) => (es, .terminate))) := by
          unfold processMessage
          simp only [index]
          have e : (((m.find? fun x => x.1 == lit "method").map fun x => x.2).getD .null) = .str (lit "Tracing.end") := h3
          rw [e, if_neg (by decide), if_neg (by decide), if_pos (by decide)]
          rfl
        rw [e, andThen_ok, andThen_ok]
        simp only [outgoing_good (empty_good hid), true_and]
        constructor
        · intro h r hr
          generalize hx : finishAll 0 results = x at h
          obtain ⟨es, x⟩ := x
          cases x with
          | ok ev =>
            simp only [andThen_ok, true_and] at h
            obtain ⟨ls, h4, h5⟩ := finishAll_all hx
            rw [h4] at hr
            obtain ⟨l, hl, rfl⟩ := List.mem_map.1 hr
            refine ⟨l, rfl, fun j hj hb => ?_⟩
            have : j ∈ (slices ev).flatten := by
              rw [slices_flatten, h5]; exact List.mem_flatten.2 ⟨l, hl, hj⟩
            obtain ⟨c, hc, hj'⟩ := List.mem_flatten.1 this
            obtain ⟨ts, e3⟩ := transmitAll_bad hc hj' hb
            rw [e3] at h
            cases h.1
          | throws w => cases h
          | ub => cases h
          | terminate => cases h
        · intro h
          obtain ⟨ls, hls⟩ : ∃ ls : List (List J), results = ls.map .ok := by
            clear e hm
            induction results with
            | nil => exact ⟨[], rfl⟩
            | cons r rs ih =>
              obtain ⟨l, hl, _⟩ := h r (by simp)
              obtain ⟨ls, hls⟩ := ih fun r hr => h r (by simp [hr])
              exact ⟨l :: ls, by simp [hl, hls]⟩
          subst hls
          rw [finishAll_ok]
          simp only [andThen_ok, true_and]
          refine ⟨transmitAll_good fun c hc j hj => ?_, by decide +kernel⟩
          have : j ∈ ls.flatten := by rw [← slices_flatten ls.flatten]; exact List.mem_flatten.2 ⟨c, hc, hj⟩
          obtain ⟨l, hl, hj⟩ := List.mem_flatten.1 this
          obtain ⟨l', h4, h5⟩ := h (.ok l) (List.mem_map.2 ⟨l, hl, rfl⟩)
          cases h4
          exact h5 j hj
      · simp only [h3, false_imp_iff, iff_true]
        rw [C38.unknown_ignored m _ h1 h2 h3]

/-- Whatever has happened: the program has ended exactly if handling some message ended with an exception. -/
theorem ended_iff {s : State} (h : Reachable s) : s.terminated = true ↔ ∃ p ∈ s.processed, (processMessage p.2.1 p.1).2 ≠ .ok () := by
  induction h with
  | init => simp
  | @step s s' a _ e ih =>
    cases a with
    | incoming m =>
      simp only [Session.step, Option.some.injEq] at e
      subst e
      exact ih
    | process results =>
      simp only [Session.step] at e
      split at e
      · cases e
      · rename_i ht
        split at e
        · cases e
        · rename_i m q hq
          simp only [Option.some.injEq] at e
          subst e
          have hf : s.terminated = false := by simpa using ht
          rw [hf] at ih
          have hnone : ∀ p ∈ s.processed, (processMessage p.2.1 p.1).2 = .ok () := by
            intro p hp
            exact Classical.byContradiction fun hc => absurd (ih.mpr ⟨p, hp, hc⟩) (by decide)
          simp only [List.mem_append, List.mem_singleton]
          constructor
          · intro h1
            refine ⟨_, .inr rfl, fun h2 => ?_⟩
            simp only at h2
            simp [h2, Res.isOk] at h1
          · rintro ⟨p, hp | rfl, h2⟩
            · exact absurd (hnone p hp) h2
            · simp only at h2
              cases hr : (processMessage results m).2 with
              | ok u => exact absurd hr h2
              | _ => simp [hr, Res.isOk]

/-- An end command and two sources, the second of which has an event with a bad name deep in its arguments. -/
def endCommand : List (Str × J) := [(lit "id", .num ['7']), (lit "method", .str (lit "Tracing.end"))]

example : Clean (.obj endCommand) ∧ HasMethod endCommand "Tracing.end" ∧ C139.Bad (.obj [(lit "name", .str (lit "a")), (lit "args", .obj [(lit "x", .arr [.null, .str none])])]) := by
  refine ⟨?_, rfl, .value (k := lit "args") (j := .obj [(lit "x", .arr [.null, .str none])]) (by simp) (.value (k := lit "x") (j := .arr [.null, .str none]) (by simp) (.arr (j := .str none) (by simp) .str))⟩
  apply Clean.obj <;> simp only [endCommand, List.mem_cons, List.not_mem_nil, or_false, forall_eq_or_imp, forall_eq, lit_isSome, and_self]
  exact ⟨.num _ (by decide) (by decide), clean_lit _⟩

end Scalopus.C65
