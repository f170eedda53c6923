import Verif.Props.C52_LttngSource
import Verif.Spec.LttngContexts

/-!
# C161: further contexts in LTTng recordings
-/

namespace Scalopus.C161

open LttngSource LttngSource.Spec Endpoints
open Ctf (Event Text)
open Ctf.Spec (Field Value Line dec body)
open NativeSource (Entry stableSort)

/-- All that a finished interval depends on. -/
structure Same (a b : Event) : Prop where
  time : a.time = b.time
  domain : a.domain = b.domain
  name : a.name = b.name
  vpid : a.context.lookup "vpid".toList = b.context.lookup "vpid".toList
  tid : a.context.lookup "pthread_id".toList = b.context.lookup "pthread_id".toList
  data : ∀ k, a.data.lookup k = b.data.lookup k

theorem Same.refl (a : Event) : Same a a := ⟨rfl, rfl, rfl, rfl, rfl, fun _ => rfl⟩

theorem Same.convert {a b : Event} (h : Same a b) (names : TraceMap) (c : Counters) : convert names c a = convert names c b := by
  unfold LttngSource.convert LttngSource.find
  rw [h.time, h.domain, h.name, h.vpid, h.tid, h.data, h.data]

theorem Same.convertAll {as bs : List Event} (h : List.Forall₂ Same as bs) (names : TraceMap) : ∀ c, convertAll names c as = convertAll names c bs := by
  induction h with
  | nil => intro c; rfl
  | @cons a b as bs h _ ih =>
    intro c
    simp only [LttngSource.convertAll]
    rw [h.convert]
    congr 1
    funext x
    rw [ih]

theorem Same.finish {as bs : List Event} (h : List.Forall₂ Same as bs) (updated : Res TraceMap) : finishInterval updated as = finishInterval updated bs := by
  unfold finishInterval
  have : (as = []) = (bs = []) := by cases h <;> simp
  simp only [this, Same.convertAll h]

/-- Two maps that hold the same fields. -/
theorem lookup_of_holds {keyFirst : Bool} {m m' : Ctf.IdMap} {fs : List Field} (h : Ctf.Spec.Holds keyFirst m fs) (h' : Ctf.Spec.Holds keyFirst m' fs) (k : Text) : m.lookup k = m'.lookup k := by
  cases hm : m.lookup k with
  | some n => exact (((h' k n).mpr ((h k n).mp hm))).symm
  | none =>
    cases hm' : m'.lookup k with
    | none => rfl
    | some n => rw [(h k n).mpr ((h' k n).mp hm')] at hm; cases hm

/-- The number that a map holds for an integer field. -/
theorem lookup_int {keyFirst : Bool} {m : Ctf.IdMap} {fs : List Field} (h : Ctf.Spec.Holds keyFirst m fs) {k : Text} {n : Nat} (hn : n < 2 ^ 64) (hf : ⟨k, .int n⟩ ∈ fs) : m.lookup k = some n :=
  (h k n).mpr ⟨⟨k, .int n⟩, hf, rfl, by show (n : Int) = (n : Int) % 2 ^ 64; omega⟩

theorem same_of_faithful {keyFirst : Bool} {r : Recorded} {l : Line} {a b : Event} (hv : r.event.Valid) (hl : l = { r.event.line with context := l.context })
    (h1 : vpid r.event.pid ∈ l.context) (h2 : pthreadId r.event.tid ∈ l.context) (ha : C50.Faithful keyFirst l a) (hb : C50.Faithful keyFirst r.event.line b) : Same a b := by
  have hp : r.event.pid < 2 ^ 64 := by have := hv.pid; omega
  have ht := hv.tid
  have hs : l.secs = r.event.line.secs := by rw [hl]
  have hn : l.nanos = r.event.line.nanos := by rw [hl]
  refine ⟨?_, ?_, ?_, ?_, ?_, ?_⟩
  · rw [ha.time, hb.time, hs, hn]
  · rw [ha.domain, hb.domain, hl]
  · rw [ha.name, hb.name, hl]
  · rw [lookup_int ha.context hp h1, lookup_int hb.context hp (k := "vpid".toList) (by simp [Traced.line])]
  · rw [lookup_int ha.context ht h2, lookup_int hb.context ht (k := "pthread_id".toList) (by simp [Traced.line])]
  · intro k
    have : l.data = r.event.line.data := by rw [hl]
    exact lookup_of_holds (this ▸ ha.data) hb.data k

/-- The lines are as babeltrace prints them, and the values of further contexts are integers, or contain neither a closing brace nor ", ". -/
def Printed.Valid : Printed → Prop
  | .ours r => r.event.Valid ∧ r.line.Valid
  | .other l => l.Valid

/-- **C161, partial.** Further contexts change nothing of what a finished interval shows. Missing: strings that contain a closing brace or ", " (see `not_NoEffect`). -/
theorem no_effect_partial (keyFirst : Bool) (updated : Res TraceMap) (printed : List Printed) (hv : ∀ p ∈ printed, Printed.Valid p) :
    ∃ events plain, List.Forall₂ (fun p e => Ctf.parse keyFirst (Printed.text p) = .ok e) printed events ∧
      List.Forall₂ (fun p e => Ctf.parse keyFirst (Printed.plain p) = .ok e) printed plain ∧
      finishInterval updated events = finishInterval updated plain := by
  suffices h : ∃ events plain, List.Forall₂ (fun p e => Ctf.parse keyFirst (Printed.text p) = .ok e) printed events ∧
      List.Forall₂ (fun p e => Ctf.parse keyFirst (Printed.plain p) = .ok e) printed plain ∧ List.Forall₂ Same events plain by
    obtain ⟨es, ps, h1, h2, h3⟩ := h
    exact ⟨es, ps, h1, h2, Same.finish h3 updated⟩
  induction printed with
  | nil => exact ⟨[], [], .nil, .nil, .nil⟩
  | cons p ps ih =>
    obtain ⟨es, qs, h1, h2, h3⟩ := ih fun x hx => hv x (List.mem_cons_of_mem _ hx)
    have hp := hv p List.mem_cons_self
    cases p with
    | other l =>
      obtain ⟨e, he, _⟩ := C50.lines_parsed_partial keyFirst l hp
      exact ⟨e :: es, e :: qs, .cons he h1, .cons he h2, .cons (Same.refl e) h3⟩
    | ours r =>
      obtain ⟨e, he, hf⟩ := C50.lines_parsed_partial keyFirst r.line hp.2
      obtain ⟨e', he', hf'⟩ := C50.lines_parsed_partial keyFirst r.event.line (line_valid hp.1)
      exact ⟨e :: es, e' :: qs, .cons he h1, .cons he' h2, .cons (same_of_faithful hp.1 rfl (by simp [Recorded.line]) (by simp [Recorded.line]) hf hf') h3⟩

/-- A line is parsed in one way only, so that the above is about all events that the parser makes of the lines. -/
theorem no_effect_all_partial (keyFirst : Bool) (updated : Res TraceMap) (printed : List Printed) (hv : ∀ p ∈ printed, Printed.Valid p) (events plain : List Event)
    (he : List.Forall₂ (fun p e => Ctf.parse keyFirst (Printed.text p) = .ok e) printed events) (hp : List.Forall₂ (fun p e => Ctf.parse keyFirst (Printed.plain p) = .ok e) printed plain) :
    finishInterval updated events = finishInterval updated plain := by
  have huniq : ∀ (f : Printed → Text) (ps : List Printed) (as bs : List Event), List.Forall₂ (fun p e => Ctf.parse keyFirst (f p) = .ok e) ps as →
      List.Forall₂ (fun p e => Ctf.parse keyFirst (f p) = .ok e) ps bs → as = bs := by
    intro f ps as bs h
    induction h generalizing bs with
    | nil => intro h; cases h; rfl
    | cons h _ ih =>
      intro h'
      cases h' with
      | cons h1 h2 =>
        rw [h] at h1
        cases h1
        rw [ih _ h2]
  obtain ⟨es, ps, h1, h2, h3⟩ := no_effect_partial keyFirst updated printed hv
  rw [huniq _ _ _ _ he h1, huniq _ _ _ _ hp h2, h3]

/-- A process with the name `x}y`, recorded before the ids, loses the whole recording: whatever else was recorded, by whatever process, the interval is not returned. -/
theorem brace_loses_all (keyFirst : Bool) (updated : Res TraceMap) (r : Recorded) (fs gs : List Field) (key t u : Text) (c : Char) (hr : r.before = fs ++ ⟨key, .other (t ++ c :: '}' :: u)⟩ :: gs)
    (hv : ({ r.event.line with context := fs ++ [⟨key, .other t⟩] } : Line).Valid) (hk : (r.line.context.map Field.key).Nodup) (hc : c ≠ '}') (hu : '{' ∉ u)
    (hg : '{' ∉ body (gs ++ vpid r.event.pid :: r.between ++ pthreadId r.event.tid :: r.after)) (hlen : r.line.text.length < 2 ^ 63) :
    ∃ e, Ctf.parse keyFirst r.line.text = .ok e ∧ ∀ events, e ∈ events → ∀ res, finishInterval updated events ≠ .ok res := by
  have hctx : r.line = { r.event.line with context := fs ++ ⟨key, .other (t ++ c :: '}' :: u)⟩ :: (gs ++ vpid r.event.pid :: r.between ++ pthreadId r.event.tid :: r.after) } := by
    simp [Recorded.line, hr]
  rw [hctx] at hk hlen ⊢
  simp only [List.map_append, List.map_cons, List.nodup_append, List.nodup_cons, List.mem_append, List.mem_cons, List.mem_map] at hk
  obtain ⟨e, h1, h2, h3⟩ := C50.brace_cuts_context keyFirst r.event.line fs _ key t u c hv hc hu hg hlen
  refine ⟨e, h1, fun events he res => C68.incomplete_event_loses_all updated events e he ⟨?_, .inl ?_⟩ res⟩
  · rw [h2.domain]
    rfl
  · refine h3 (vpid r.event.pid) (by simp) ?_ ?_
    · intro h
      exact hk.2.1.1 (.inl (.inr (.inl h.symm)))
    · intro f hf h
      exact hk.2.2 f.key ⟨f, hf, rfl⟩ _ (.inr (.inl (.inr (.inl rfl)))) h

/-- A process with the name `x, vpid = n`, recorded after the ids, is shown as the process `n`: its events become events of that process, whatever else was recorded. -/
theorem name_forges_process (keyFirst : Bool) (updated : Res TraceMap) (r : Recorded) (n : Nat) (fs : List Field) (key t : Text)
    (hr : r.after = fs ++ [⟨key, .other (t ++ ", vpid = ".toList ++ dec n ++ ['"'])⟩]) (he : r.event.Valid) (hn : n < 2 ^ 31)
    (hv : ({ r with after := fs ++ [⟨key, .other t⟩] } : Recorded).line.Valid) (hlen : r.line.text.length < 2 ^ 63) :
    ∃ e other, Ctf.parse keyFirst r.line.text = .ok e ∧ Ctf.parse keyFirst ({ r.event with pid := n } : Traced).line.text = .ok other ∧
      ∀ before after, finishInterval updated (before ++ e :: after) = finishInterval updated (before ++ other :: after) := by
  have hctx : r.line = { r.event.line with
      context := (r.before ++ vpid r.event.pid :: r.between ++ pthreadId r.event.tid :: fs) ++ [⟨key, .other (t ++ [',', ' '] ++ "vpid".toList ++ [' ', '=', ' '] ++ dec n ++ ['"'])⟩] } := by
    simp [Recorded.line, hr]
  have hctx' : ({ r with after := fs ++ [⟨key, .other t⟩] } : Recorded).line = { r.event.line with
      context := (r.before ++ vpid r.event.pid :: r.between ++ pthreadId r.event.tid :: fs) ++ [⟨key, .other t⟩] } := by
    simp [Recorded.line]
  rw [hctx'] at hv
  rw [hctx] at hlen ⊢
  obtain ⟨e, real, h1, h2, h3⟩ := C50.comma_forges_field keyFirst r.event.line _ key t "vpid".toList n hv (by decide) (by decide) (by decide) (by decide) (by omega) hlen
  have hv' : ({ r.event with pid := n } : Traced).Valid := ⟨he.secs, he.nanos, he.host, he.cpu, hn, he.tid, he.id, he.value⟩
  obtain ⟨o, h4, h5⟩ := C50.lines_parsed_partial keyFirst ({ r.event with pid := n } : Traced).line (line_valid hv')
  refine ⟨e, o, h1, h4, fun before after => Same.finish ?_ updated⟩
  have hdat := h5.data
  have hdata : ({ r.event with pid := n } : Traced).line.data = r.event.line.data := rfl
  rw [hdata] at hdat
  have hdat2 : Ctf.Spec.Holds keyFirst e.data r.event.line.data := h2.data
  have hsame : Same e o := by
    have ht := he.tid
    have t1 : e.time = some (some (Double.nearest (r.event.secs + r.event.nanos / 10 ^ 9))) := h2.time
    have t2 : o.time = some (some (Double.nearest (r.event.secs + r.event.nanos / 10 ^ 9))) := h5.time
    have d1 : e.domain = "scalopus_scope_id".toList := h2.domain
    have d2 : o.domain = "scalopus_scope_id".toList := h5.domain
    have n1 : e.name = r.event.kind.name := h2.name
    have n2 : o.name = r.event.kind.name := h5.name
    refine ⟨t1.trans t2.symm, d1.trans d2.symm, n1.trans n2.symm, ?_, ?_, fun k => lookup_of_holds hdat2 hdat k⟩
    · have hp : o.context.lookup "vpid".toList = some n := lookup_int h5.context (by omega) (by simp [Traced.line])
      rw [h3, if_pos rfl, hp]
    · have hp : o.context.lookup "pthread_id".toList = some r.event.tid := lookup_int h5.context ht (by simp [Traced.line])
      rw [h3, if_neg (by decide), hp]
      exact lookup_int (m := real) h2.context ht (List.mem_append_left _ (List.mem_append_right _ List.mem_cons_self))
  induction before with
  | nil =>
    refine .cons hsame ?_
    induction after with
    | nil => exact .nil
    | cons a as ih => exact .cons (Same.refl a) ih
  | cons a as ih => exact .cons (Same.refl a) ih

/-- The full claim: names in quotes, without quotes in them, do not change what is shown. -/
def NoEffect : Prop :=
  ∀ (keyFirst : Bool) (updated : Res TraceMap) (r : Recorded), r.event.Valid → (r.line.context.map Field.key).Nodup → r.line.text.length < 2 ^ 63 →
    (∀ f ∈ r.further, (f.key ≠ [] ∧ ' ' ∉ f.key ∧ ',' ∉ f.key ∧ '}' ∉ f.key) ∧ ∃ name, '"' ∉ name ∧ f.value = .other (['"'] ++ name ++ ['"'])) →
    ∃ e plain, Ctf.parse keyFirst r.line.text = .ok e ∧ Ctf.parse keyFirst r.event.line.text = .ok plain ∧ finishInterval updated [e] = finishInterval updated [plain]

/-- An event of process 7. -/
def event : Traced where
  secs := 1
  nanos := 0
  host := "h".toList
  cpu := 0
  pid := 7
  tid := 9
  id := 5
  kind := .entry

theorem event_valid : event.Valid := ⟨by decide, by decide, by decide, by decide, by decide, by decide, by decide, fun z h => by cases h⟩

/-- The process has the name `x}y`. -/
def braced : Recorded := ⟨event, [⟨"procname".toList, .other "\"x}y\"".toList⟩], [], []⟩

/-- The process has the name `x, vpid = 8`. -/
def forged : Recorded := ⟨event, [], [], [⟨"procname".toList, .other ("\"x".toList ++ ", vpid = ".toList ++ dec 8 ++ ['"'])⟩]⟩

/-- The process has the name `x y`. -/
def harmless : Recorded := ⟨event, [], [⟨"procname".toList, .other "\"x y\"".toList⟩], []⟩

example : braced.line.text = "[1.000000000] h scalopus_scope_id:scope_entry: { cpu_id = 0 }, { procname = \"x}y\", vpid = 7, pthread_id = 9 }, { id = 5 }\n".toList := by decide +kernel

example : forged.line.text = "[1.000000000] h scalopus_scope_id:scope_entry: { cpu_id = 0 }, { vpid = 7, pthread_id = 9, procname = \"x, vpid = 8\" }, { id = 5 }\n".toList := by decide +kernel

theorem harmless_valid : harmless.line.Valid := by
  refine { secs := ?_, nanos := ?_, host := ?_, domain := ?_, name := ?_, fields := ?_, keys := ?_, length := ?_ }
  all_goals first | decide +kernel | skip
  intro f hf
  have hl : harmless.line.stream ++ harmless.line.context ++ harmless.line.data =
    [⟨"cpu_id".toList, .int 0⟩, ⟨"vpid".toList, .int 7⟩, ⟨"procname".toList, .other "\"x y\"".toList⟩, ⟨"pthread_id".toList, .int 9⟩, ⟨"id".toList, .int 5⟩] := rfl
  rw [hl] at hf
  simp only [List.mem_cons, List.not_mem_nil, or_false] at hf
  rcases hf with rfl | rfl | rfl | rfl | rfl
  · exact field_int _ _ (by decide +kernel) (by decide +kernel) (by decide +kernel)
  · exact field_int _ _ (by decide +kernel) (by decide +kernel) (by decide +kernel)
  · exact ⟨by decide +kernel, by decide +kernel, by decide +kernel, by decide +kernel, by decide +kernel, by decide +kernel, '"', "x y\"".toList, rfl, by decide, by decide, by decide, by decide⟩
  · exact field_int _ _ (by decide +kernel) (by decide +kernel) (by decide +kernel)
  · exact field_int _ _ (by decide +kernel) (by decide +kernel) (by decide +kernel)

/-- The hypotheses of `no_effect_partial`. -/
example : ∀ p ∈ [Printed.ours harmless], Printed.Valid p := by
  intro p hp
  simp only [List.mem_singleton] at hp
  subst hp
  exact ⟨event_valid, harmless_valid⟩

/-- `brace_loses_all` applies to `braced`. -/
theorem braced_loses_all (keyFirst : Bool) (updated : Res TraceMap) :
    ∃ e, Ctf.parse keyFirst braced.line.text = .ok e ∧ ∀ events, e ∈ events → ∀ res, finishInterval updated events ≠ .ok res := by
  refine brace_loses_all keyFirst updated braced [] [] "procname".toList "\"".toList "y\"".toList 'x' rfl ?_ (by decide) (by decide) (by decide) (by decide +kernel) (by decide +kernel)
  refine { secs := ?_, nanos := ?_, host := ?_, domain := ?_, name := ?_, fields := ?_, keys := ?_, length := ?_ }
  all_goals first | decide +kernel | skip
  intro f hf
  simp only [braced, event, Traced.line, List.cons_append, List.nil_append, List.mem_cons, List.not_mem_nil, or_false] at hf
  rcases hf with rfl | rfl | rfl
  · exact field_int _ _ (by decide +kernel) (by decide +kernel) (by decide +kernel)
  · exact ⟨by decide, by decide, by decide, by decide, by decide, by decide, '"', [], by decide, by decide, by decide, by decide, by decide⟩
  · exact field_int _ _ (by decide +kernel) (by decide +kernel) (by decide +kernel)

/-- `name_forges_process` applies to `forged`. -/
example (keyFirst : Bool) (updated : Res TraceMap) : ∃ e other, Ctf.parse keyFirst forged.line.text = .ok e ∧ Ctf.parse keyFirst ({ event with pid := 8 } : Traced).line.text = .ok other ∧
      ∀ before after, finishInterval updated (before ++ e :: after) = finishInterval updated (before ++ other :: after) := by
  refine name_forges_process keyFirst updated forged 8 [] "procname".toList "\"x".toList rfl event_valid (by decide +kernel) ?_ (by decide +kernel)
  refine { secs := ?_, nanos := ?_, host := ?_, domain := ?_, name := ?_, fields := ?_, keys := ?_, length := ?_ }
  all_goals first | decide +kernel | skip
  intro f hf
  have hl : ({ forged with after := [] ++ [⟨"procname".toList, .other "\"x".toList⟩] } : Recorded).line.stream ++ ({ forged with after := [] ++ [⟨"procname".toList, .other "\"x".toList⟩] } : Recorded).line.context ++
      ({ forged with after := [] ++ [⟨"procname".toList, .other "\"x".toList⟩] } : Recorded).line.data =
    [⟨"cpu_id".toList, .int 0⟩, ⟨"vpid".toList, .int 7⟩, ⟨"pthread_id".toList, .int 9⟩, ⟨"procname".toList, .other "\"x".toList⟩, ⟨"id".toList, .int 5⟩] := rfl
  rw [hl] at hf
  simp only [List.mem_cons, List.not_mem_nil, or_false] at hf
  rcases hf with rfl | rfl | rfl | rfl | rfl
  · exact field_int _ _ (by decide +kernel) (by decide +kernel) (by decide +kernel)
  · exact field_int _ _ (by decide +kernel) (by decide +kernel) (by decide +kernel)
  · exact field_int _ _ (by decide +kernel) (by decide +kernel) (by decide +kernel)
  · exact ⟨by decide, by decide, by decide, by decide, by decide, by decide, '"', "x".toList, by decide, by decide, by decide, by decide, by decide⟩
  · exact field_int _ _ (by decide +kernel) (by decide +kernel) (by decide +kernel)

/-- **C161 is false in general.** -/
theorem not_NoEffect : ¬ NoEffect := by
  intro h
  obtain ⟨e, plain, h1, h2, h3⟩ := h false (.ok []) braced event_valid (by decide) (by decide +kernel) (by
    intro f hf
    simp only [Recorded.further, braced, List.append_nil, List.mem_singleton] at hf
    subst hf
    exact ⟨by decide, "x}y".toList, by decide, rfl⟩)
  obtain ⟨e', h4, h5⟩ := braced_loses_all false (.ok [])
  rw [h4] at h1
  cases h1
  obtain ⟨res, h6, _⟩ := C68.interval_exact [] false [.traced event] [plain] (by
    intro i hi
    simp only [List.mem_singleton] at hi
    subst hi
    exact event_valid) (.cons h2 .nil)
  exact h5 [e] (by simp) res (h3.trans h6)

end Scalopus.C161
