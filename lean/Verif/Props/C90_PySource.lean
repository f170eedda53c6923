import Verif.Proofs.PySource
import Verif.Props.C40_Recorder

/-!
# C90, C91: sources written in Python

What is written for a double is a parameter `fl`, of which only is required that it can be written: a number, or null for infinities and NaN.
-/

namespace Scalopus.C90

open PySource PyJson PyJson.Spec
open JsonText (J Text Clean Str read)
open Session (HasMethod dataMessage processMessage)

/-- The list or tuple that a source returns. -/
def Returned (o : Outcome) (l : List Py) : Prop := o = .returns (.list l) ∨ o = .returns (.tuple l)

/-- What a source returns as plain values arrives. -/
theorem events_shown (fl : UInt64 → J) (o : Outcome) (l : List Py) (ho : Returned o l) (hl : ∀ v ∈ l, Plain v) :
    ∃ shown, events fl o = .ok shown ∧ List.Forall₂ (Shows fl) l shown := by
  obtain ⟨js, h1, h2⟩ := list_shows fl (fun v hv => plain_shows fl v (hl v hv))
  refine ⟨toTextList fl js, ?_, ?_⟩
  · rcases ho with rfl | rfl <;> simp [events, finishInterval, pyToJson, h1, Res.bind, asEvents]
  · rw [toTextList_map]
    exact List.forall₂_map_right_iff.mpr h2

theorem events_clean (fl : UInt64 → J) (hf : ∀ b, Clean (fl b)) (o : Outcome) (shown : List J) (h : events fl o = .ok shown) : ∀ j ∈ shown, Clean j := by
  unfold events at h
  cases hx : finishInterval o with
  | ok l =>
    rw [hx] at h
    simp only [Res.bind, Res.ok.injEq] at h
    subst h
    exact clean_toTextList fl hf l
  | _ => rw [hx] at h; cases h

/-- **C90, the viewer.** When the viewer ends the recording, it gets the events of a Python source, each value as it was returned and in the same order, between those of the sources before and after
    it, and the completion message. -/
theorem viewer_gets_events (fl : UInt64 → J) (hf : ∀ b, Clean (fl b)) (o : Outcome) (l : List Py) (ho : Returned o l) (hl : ∀ v ∈ l, Plain v) (before after : List (List J))
    (hb : ∀ r ∈ before, ∀ j ∈ r, Clean j) (ha : ∀ r ∈ after, ∀ j ∈ r, Clean j) (m : List (Str × J)) (hm : Clean (.obj m)) (he : HasMethod m "Tracing.end") :
    ∃ (effs : List Session.Eff) (reply : Text) (texts : List Text) (done : Text) (chunks : List (List J)) (shown : List J),
      processMessage (before.map .ok ++ [events fl o] ++ after.map .ok) (some (.obj m)) = (effs, .ok ()) ∧
      effs.filterMap (fun e => match e with
        | .send t => some t
        | _ => none) = [reply] ++ texts ++ [done] ∧
      texts.map read = chunks.map (fun c => some (dataMessage c)) ∧ chunks.flatten = before.flatten ++ shown ++ after.flatten ∧ List.Forall₂ (Shows fl) l shown := by
  obtain ⟨shown, h1, h2⟩ := events_shown fl o l ho hl
  have hc := events_clean fl hf o shown h1
  obtain ⟨reply, texts, chunks, done, e1, _, e3, e4, _, _⟩ := C37.end_exact m hm he (before ++ [shown] ++ after) (by
    intro r hr
    simp only [List.mem_append, List.mem_singleton] at hr
    rcases hr with (hr | rfl) | hr
    · exact hb r hr
    · exact hc
    · exact ha r hr)
  have hmap : (before ++ [shown] ++ after).map Res.ok = before.map Res.ok ++ [events fl o] ++ after.map Res.ok := by simp [h1]
  rw [hmap] at e1
  refine ⟨_, reply, texts, done, chunks, shown, e1, ?_, e3, by simpa using e4, h2⟩
  simp only [List.filterMap_append, List.filterMap_map, List.append_assoc]
  have n1 : ∀ k : List Nat, k.filterMap ((fun e => match e with
      | .send t => some t
      | _ => none) ∘ (Session.Eff.stopSource)) = ([] : List Text) := fun k => by simp [List.filterMap_eq_nil_iff]
  have n2 : ∀ k : List Nat, k.filterMap ((fun e => match e with
      | .send t => some t
      | _ => none) ∘ (Session.Eff.finishSource)) = ([] : List Text) := fun k => by simp [List.filterMap_eq_nil_iff]
  have n3 : ∀ k : List Text, k.filterMap ((fun e => match e with
      | .send t => some t
      | _ => none) ∘ (Session.Eff.send)) = k := fun k => by
    have : ((fun e => match e with
      | .send t => some t
      | _ => none) ∘ (Session.Eff.send)) = (some : Text → Option Text) := rfl
    rw [this, List.filterMap_some]
  rw [n1, n2, n3]
  rfl

/-- **C90, the recorder.** The same for the file that is written. -/
theorem file_gets_events (fl : UInt64 → J) (hf : ∀ b, Clean (fl b)) (o : Outcome) (l : List Py) (ho : Returned o l) (hl : ∀ v ∈ l, Plain v) (before after : List (List J))
    (hb : ∀ r ∈ before, ∀ j ∈ r, Clean j) (ha : ∀ r ∈ after, ∀ j ∈ r, Clean j) :
    ∃ text shown, (Recorder.collectEvents (before.map .ok ++ [events fl o] ++ after.map .ok)).2 = .ok text ∧ read text = some (.arr (before.flatten ++ shown ++ after.flatten)) ∧
      List.Forall₂ (Shows fl) l shown := by
  obtain ⟨shown, h1, h2⟩ := events_shown fl o l ho hl
  have hc := events_clean fl hf o shown h1
  obtain ⟨text, e1, e2⟩ := C40.file_exact (before ++ [shown] ++ after) (by
    intro r hr
    simp only [List.mem_append, List.mem_singleton] at hr
    rcases hr with (hr | rfl) | hr
    · exact hb r hr
    · exact hc
    · exact ha r hr)
  have hmap : (before ++ [shown] ++ after).map Res.ok = before.map Res.ok ++ [events fl o] ++ after.map Res.ok := by simp [h1]
  rw [hmap] at e1
  exact ⟨text, shown, by rw [e1], by simpa using e2, h2⟩

/-- Values that meet the hypotheses: a tuple with an event like one of a trace. -/
example : Returned (.returns (.tuple [.dict [(.str "name", .str "Ω"), (.str "ts", .int (-12))], .list [.none, .float 0, .bool true]]))
      [.dict [(.str "name", .str "Ω"), (.str "ts", .int (-12))], .list [.none, .float 0, .bool true]] ∧
    ∀ v ∈ [Py.dict [(.str "name", .str "Ω"), (.str "ts", .int (-12))], .list [.none, .float 0, .bool true]], Plain v := by
  refine ⟨.inr rfl, ?_⟩
  simp only [List.mem_cons, List.not_mem_nil, or_false, forall_eq_or_imp, forall_eq]
  constructor
  · apply Plain.dict [("name", .str "Ω"), ("ts", .int (-12))]
    · decide
    · simp only [List.mem_cons, List.not_mem_nil, or_false, forall_eq_or_imp, forall_eq]
      exact ⟨.str _, .int _ ⟨by decide, by decide⟩⟩
  · apply Plain.list
    simp only [List.mem_cons, List.not_mem_nil, or_false, forall_eq_or_imp, forall_eq]
    exact ⟨.none, .float _, .bool _⟩

/-- Integers are written with all their digits. -/
example : intText (-9223372036854775808) = "-9223372036854775808".toList ∧ intText 0 = ['0'] := by decide +kernel

end Scalopus.C90

namespace Scalopus.C91

open PySource PyJson PyJson.Spec C90
open JsonText (J Text Clean Str read)
open Session (HasMethod dataMessage processMessage)

/-- A source is good if it has no method `finishInterval`, or returns a list, tuple or set of values that can be converted (those of a set have to be ordered), or bytes. -/
inductive Good : Outcome → Prop
  | missing : Good .missing
  | list (l : List Py) : (∀ v ∈ l, Convertible v) → Good (.returns (.list l))
  | tuple (l : List Py) : (∀ v ∈ l, Convertible v) → Good (.returns (.tuple l))
  | bytes (l : List UInt8) : Good (.returns (.bytes l))
  | set (l : List Py) : Convertible (.set l) → Good (.returns (.set l))

theorem ok_iff_good (fl : UInt64 → J) (o : Outcome) : (∃ shown, events fl o = .ok shown) ↔ Good o := by
  constructor
  · rintro ⟨shown, h⟩
    cases o with
    | missing => exact .missing
    | raises => simp [events, finishInterval, Res.bind] at h
    | returns v =>
      simp only [events, finishInterval] at h
      cases hj : pyToJson v with
      | ok j =>
        have hc := convertible_of_ok v j hj
        cases v with
        | list l => cases hc with | list _ hc => exact .list l hc
        | tuple l => cases hc with | tuple _ hc => exact .tuple l hc
        | bytes l => exact .bytes l
        | set l => exact .set l hc
        | dict l =>
          exfalso
          rw [hj] at h
          have hobj : ∀ (l : List (Py × Py)) (m : List (String × Json)) (j : Json), pyToJsonItems l m = .ok j → ∃ m', j = .obj m' := by
            intro l
            induction l with
            | nil => intro m j h; rw [pyToJsonItems] at h; cases h; exact ⟨_, rfl⟩
            | cons x l ih =>
              intro m j h
              obtain ⟨k, v⟩ := x
              cases k with
              | str k =>
                rw [pyToJsonItems] at h
                cases hv : pyToJson v with
                | ok jv => rw [hv] at h; exact ih _ j h
                | _ => rw [hv] at h; cases h
              | surrogates => rw [pyToJsonItems] at h; cases hv : pyToJson v <;> rw [hv] at h <;> cases h
              | _ => simp [pyToJsonItems] at h
          simp only [pyToJson] at hj
          obtain ⟨m', rfl⟩ := hobj l [] j hj
          cases h
        | int n =>
          exfalso
          rw [hj] at h
          simp only [pyToJson] at hj
          split at hj
          · cases hj; cases h
          · cases hj
        | surrogates => simp only [pyToJson] at hj; cases hj
        | _ => rw [hj] at h; simp only [pyToJson, Res.ok.injEq] at hj; subst hj; cases h
      | _ => rw [hj] at h; cases h
  · intro h
    cases h with
    | missing => exact ⟨[], rfl⟩
    | list l hl =>
      obtain ⟨js, h⟩ := convertible_list (fun v hv => ok_of_convertible v (hl v hv))
      exact ⟨_, by simp only [events, finishInterval, pyToJson]; rw [h]; rfl⟩
    | tuple l hl =>
      obtain ⟨js, h⟩ := convertible_list (fun v hv => ok_of_convertible v (hl v hv))
      exact ⟨_, by simp only [events, finishInterval, pyToJson]; rw [h]; rfl⟩
    | bytes l => exact ⟨_, rfl⟩
    | set l hl =>
      obtain ⟨j, h⟩ := ok_of_convertible _ hl
      have ha : ∃ js, j = .arr js := by
        simp only [pyToJson] at h
        cases hx : pyToJsonList l with
        | ok js =>
          rw [hx] at h
          simp only [Res.bind] at h
          split at h
          · simp only [Res.ok.injEq] at h; exact ⟨_, h.symm⟩
          · cases h
        | _ => rw [hx] at h; cases h
      obtain ⟨js, rfl⟩ := ha
      exact ⟨_, by simp only [events, finishInterval]; rw [h]; rfl⟩

/-- A source that fails ends the loop over the sources. -/
theorem finishAll_bad (before : List (List J)) (r : Res (List J)) (rest : List (Res (List J))) (h : ∀ l, r ≠ .ok l) (i : Nat) :
    (Session.finishAll i (before.map .ok ++ r :: rest)).2.isOk = false ∧ ∀ e ∈ (Session.finishAll i (before.map .ok ++ r :: rest)).1, ∀ t, e ≠ .send t := by
  induction before generalizing i with
  | nil => cases r with
    | ok l => exact absurd rfl (h l)
    | _ => simp [Session.finishAll, Res.isOk]
  | cons l before ih =>
    simp only [List.map_cons, List.cons_append, Session.finishAll]
    have := ih (i + 1)
    generalize Session.finishAll (i + 1) (before.map .ok ++ r :: rest) = x at this ⊢
    obtain ⟨e, res⟩ := x
    cases res with
    | ok m => simp [Res.isOk] at this
    | _ => simpa [Res.bind, Res.isOk] using this.2

/-- **C91** in full: nothing that a Python source does stops the program or loses the events of other sources. -/
def NeverStops : Prop :=
  ∀ (o : Outcome) (m : List (Str × J)), Clean (.obj m) → HasMethod m "Tracing.end" → ∀ fl : UInt64 → J, (∀ b, Clean (fl b)) → (processMessage [events fl o] (some (.obj m))).2.isOk = true

/-- **C91, partial.** Missing: sources that are not good. The program survives the end of a recording exactly if the source is good. Otherwise the viewer gets the reply and nothing else: no events of any source, and no
    completion. -/
theorem survives_iff_good_partial (fl : UInt64 → J) (hf : ∀ b, Clean (fl b)) (o : Outcome) (before after : List (List J)) (hb : ∀ r ∈ before, ∀ j ∈ r, Clean j)
    (ha : ∀ r ∈ after, ∀ j ∈ r, Clean j) (m : List (Str × J)) (hm : Clean (.obj m)) (he : HasMethod m "Tracing.end") :
    ((processMessage (before.map .ok ++ [events fl o] ++ after.map .ok) (some (.obj m))).2.isOk = true ↔ Good o) ∧
    (¬ Good o → ∃ reply, (processMessage (before.map .ok ++ [events fl o] ++ after.map .ok) (some (.obj m))).1.filterMap (fun e => match e with
        | .send t => some t
        | _ => none) = [reply]) := by
  by_cases hg : Good o
  · obtain ⟨shown, h1⟩ := (ok_iff_good fl o).mpr hg
    have hc := events_clean fl hf o shown h1
    obtain ⟨reply, texts, chunks, done, e1, _⟩ := C37.end_exact m hm he (before ++ [shown] ++ after) (by
      intro r hr
      simp only [List.mem_append, List.mem_singleton] at hr
      rcases hr with (hr | rfl) | hr
      · exact hb r hr
      · exact hc
      · exact ha r hr)
    have hmap : (before ++ [shown] ++ after).map Res.ok = before.map Res.ok ++ [events fl o] ++ after.map Res.ok := by simp [h1]
    rw [hmap] at e1
    rw [e1]
    exact ⟨⟨fun _ => hg, fun _ => rfl⟩, fun h => absurd hg h⟩
  · have hbad : ∀ l, events fl o ≠ .ok l := fun l e => hg ((ok_iff_good fl o).mp ⟨l, e⟩)
    obtain ⟨f1, f2⟩ := finishAll_bad before (events fl o) (after.map .ok) hbad 0
    obtain ⟨method, h1, _, h1'⟩ := Session.index_clean m hm "method"
    obtain ⟨id, h2, hc2, h2'⟩ := Session.index_clean m hm "id"
    rw [he] at h1'
    subst h1'
    obtain ⟨t1, e1, _⟩ := Session.outgoing_clean _ (Session.clean_empty id hc2)
    have e : before.map Res.ok ++ [events fl o] ++ after.map Res.ok = before.map Res.ok ++ events fl o :: after.map Res.ok := by simp
    rw [e]
    generalize hx : Session.finishAll 0 (before.map .ok ++ events fl o :: after.map .ok) = x at f1 f2
    obtain ⟨es, res⟩ := x
    have hp : ∃ r : Res Unit, r.isOk = false ∧ processMessage (before.map Res.ok ++ events fl o :: after.map Res.ok) (some (.obj m)) =
        ((List.range (before.map Res.ok ++ events fl o :: after.map Res.ok).length).map .stopSource ++ ([.send t1] ++ es), r) := by
      unfold processMessage
      simp only
      rw [h1, h2]
      simp only
      rw [if_neg (by decide), if_neg (by decide), if_pos (by decide), hx, e1]
      cases res with
      | ok _ => simp [Res.isOk] at f1
      | throws w => exact ⟨.throws w, rfl, rfl⟩
      | ub => exact ⟨.ub, rfl, rfl⟩
      | terminate => exact ⟨.terminate, rfl, rfl⟩
    obtain ⟨r, hr, hp⟩ := hp
    rw [hp]
    refine ⟨⟨fun h => absurd (hr.symm.trans h) (by decide), fun h => absurd h hg⟩, fun _ => ⟨t1, ?_⟩⟩
    have hes : es.filterMap (fun e => match e with
        | .send t => some t
        | _ => none) = ([] : List Text) := by
      rw [List.filterMap_eq_nil_iff]
      intro e he
      have := f2 e he
      cases e with
      | send t => exact absurd rfl (this t)
      | _ => rfl
    simp only [List.filterMap_append, List.filterMap_map, hes]
    have n1 : ∀ k : List Nat, k.filterMap ((fun e => match e with
        | .send t => some t
        | _ => none) ∘ (Session.Eff.stopSource)) = ([] : List Text) := fun k => by simp [List.filterMap_eq_nil_iff]
    rw [n1]
    rfl

/-- Sources that are not good: returning nothing (a method without `return`), one event instead of a list, a number that is too large, an event with a string that has surrogates as a key or as a value, or raising. -/
theorem bad_sources : ¬ Good .raises ∧ ¬ Good (.returns .none) ∧ (∀ l, ¬ Good (.returns (.dict l))) ∧ (∀ s, ¬ Good (.returns (.str s))) ∧
    (∀ (l : List Py) (n : Int), 2 ^ 63 ≤ n → .int n ∈ l → ¬ Good (.returns (.list l))) ∧
    (∀ (l : List Py) (d : List (Py × Py)) (x : Py × Py), x ∈ d → x.1 = .surrogates ∨ x.2 = .surrogates → .dict d ∈ l → ¬ Good (.returns (.list l))) := by
  refine ⟨?_, ?_, ?_, ?_, ?_, ?_⟩
  · intro h; cases h
  · intro h; cases h
  · intro l h; cases h
  · intro s h; cases h
  · intro l n hn hm h
    cases h with
    | list _ hl => cases hl _ hm with | int _ hs => exact absurd hs.2 (by omega)
  · intro l d x hx hs hm h
    cases h with
    | list _ hl => cases hl _ hm with
      | dict _ h1 h2 =>
        rcases hs with e | e
        · obtain ⟨k, hk⟩ := h1 x hx
          rw [e] at hk; cases hk
        · have := h2 x hx
          rw [e] at this; cases this

/-- The command that ends a recording. -/
def endCommand : List (Str × J) := [(some "method".toList, .str (some "Tracing.end".toList)), (some "id".toList, .num ['3'])]

theorem endCommand_ok : Clean (.obj endCommand) ∧ HasMethod endCommand "Tracing.end" := by
  constructor
  · apply Clean.obj <;> simp only [endCommand, List.mem_cons, List.not_mem_nil, or_false, forall_eq_or_imp, forall_eq, Option.isSome_some, and_self]
    exact ⟨.str _, .num _ (by decide) (by decide)⟩
  · rfl

/-- **C91 fails**: a method `finishInterval` that returns nothing ends the program. -/
theorem not_NeverStops : ¬ NeverStops := by
  intro h
  have h1 := h (.returns .none) endCommand endCommand_ok.1 endCommand_ok.2 (fun _ => .null) (fun _ => .null)
  have h2 := (survives_iff_good_partial (fun _ => .null) (fun _ => .null) (.returns .none) [] [] (by simp) (by simp) endCommand endCommand_ok.1 endCommand_ok.2).1
  exact bad_sources.2.1 (h2.mp h1)

/-- The same for the recorder: destroying one that runs and that has a file ends the program exactly if the Python source is not good. -/
theorem recorder_survives_iff_good_partial (fl : UInt64 → J) (hf : ∀ b, Clean (fl b)) (o : Outcome) (before after : List (List J)) (hb : ∀ r ∈ before, ∀ j ∈ r, Clean j)
    (ha : ∀ r ∈ after, ∀ j ∈ r, Clean j) (s : Recorder.State) (hs : C41.Reachable s) (hr : s.running = true) (hd : s.dump = true) :
    (∃ s', Recorder.step s (.destroy (before.map .ok ++ [events fl o] ++ after.map .ok)) = .ok s') ↔ Good o := by
  have hj := C41.joinable_iff hs
  by_cases hg : Good o
  · refine ⟨fun _ => hg, fun _ => ?_⟩
    obtain ⟨shown, h1⟩ := (ok_iff_good fl o).mpr hg
    have hc := events_clean fl hf o shown h1
    have hmap : (before ++ [shown] ++ after).map Res.ok = before.map Res.ok ++ [events fl o] ++ after.map Res.ok := by simp [h1]
    obtain ⟨_, _, _, _, h⟩ := C41.lifecycle_partial hs
    rw [← hmap]
    exact h _ (by
      intro r hr
      simp only [List.mem_append, List.mem_singleton] at hr
      rcases hr with (hr | rfl) | hr
      · exact hb r hr
      · exact hc
      · exact ha r hr) hr
  · refine ⟨?_, fun h => absurd h hg⟩
    rintro ⟨s', h⟩
    exfalso
    have hbad : ∀ l, events fl o ≠ .ok l := fun l e => hg ((ok_iff_good fl o).mp ⟨l, e⟩)
    obtain ⟨f1, _⟩ := finishAll_bad before (events fl o) (after.map .ok) hbad 0
    have e : before.map Res.ok ++ [events fl o] ++ after.map Res.ok = before.map Res.ok ++ events fl o :: after.map Res.ok := by simp
    rw [e] at h
    simp only [Recorder.step, Recorder.stop, hj, hr, if_true, hd, Recorder.collectEvents] at h
    generalize Session.finishAll 0 (before.map .ok ++ events fl o :: after.map .ok) = x at f1 h
    obtain ⟨es, res⟩ := x
    cases res with
    | ok _ => simp [Res.isOk] at f1
    | _ => cases h

/-- A running recorder with a file can be reached. -/
example : ∃ s : Recorder.State, C41.Reachable s ∧ s.running = true ∧ s.dump = true :=
  ⟨_, .step (o := .setupDumpFile) (.step (o := .start) (.step (o := .addProvider) .init rfl rfl) rfl rfl) rfl rfl, rfl, rfl⟩

/-- A provider that returns `None` crashes the program when its source is used. -/
theorem none_is_used (p : Made) : ((makeSource p).bind firstUse = .ub ↔ p = .none) ∧ ((makeSource p).bind firstUse = .ok () ↔ p = .source) := by
  cases p <;> simp [makeSource, firstUse, Res.bind]

end Scalopus.C91
