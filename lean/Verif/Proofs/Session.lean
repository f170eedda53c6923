import Verif.Spec.Session
import Verif.Proofs.JsonText

/-!
# Proofs about the messages of a viewer's session
-/

namespace Scalopus.Session

open JsonText

theorem slices_flatten (events : List J) : (slices events).flatten = events := by
  have key : ∀ k, ((List.range k).map fun i => (events.drop (i * chunkSize)).take (min chunkSize (events.length - i * chunkSize))).flatten = events.take (k * chunkSize) := by
    intro k
    induction k with
    | zero => simp
    | succ k ih =>
      rw [List.range_succ, List.map_append, List.flatten_append, ih, Nat.succ_mul, List.take_add]
      simp only [List.map_cons, List.map_nil, List.flatten_cons, List.flatten_nil, List.append_nil]
      congr 1
      apply List.take_eq_take_iff.mpr
      simp
  unfold slices
  rw [key]
  apply List.take_of_length_le
  have := Nat.lt_div_mul_add (a := events.length) (b := chunkSize) (by decide)
  rw [Nat.succ_mul]
  omega

theorem readValue_obj (f : Nat) (w r s : Text) (hw : w.all isWs = true) (h : skipWs r = '"' :: s) :
    readValue (f + 1) (w ++ '{' :: r) = (readMembers f ('"' :: s)).map fun x => (J.obj x.1, x.2) := by
  rw [readValue, skipWs_ws_cons w _ _ hw (by decide)]
  simp only
  rw [h]
  rfl

/-- A data message is read by the viewer as intended. -/
theorem formatEvents_read (l : List J) (h : ∀ j ∈ l, Clean j) : ∃ t, formatEvents l = some t ∧ read t = some (dataMessage l) := by
  obtain ⟨ts, hts⟩ := forall_written l h
  obtain ⟨n, hn, hr⟩ := array_read ['\n'] ['\n'] [] (by decide) (by decide) rfl l ts hts
  refine ⟨_, by rw [formatEvents, dumpAll_of l ts hts]; rfl, ?_⟩
  have key : ReadsAs ("{ \"method\": \"Tracing.dataCollected\", \"params\": { \"value\": [\n".toList ++ sepBy ",\n".toList ts ++ "]}}".toList) (dataMessage l) (n + 6) := by
    intro fuel hf w hw rest _
    obtain ⟨f, rfl⟩ : ∃ f, fuel = f + 6 := ⟨fuel - 6, by omega⟩
    have hr1 := hr (f + 1) (by omega) [' '] (by decide) ('}' :: '}' :: rest) (ends_of (by decide))
    simp only [List.append_nil, List.cons_append, List.nil_append, List.append_assoc] at hr1
    have e : w ++ ("{ \"method\": \"Tracing.dataCollected\", \"params\": { \"value\": [\n".toList ++ sepBy ",\n".toList ts ++ "]}}".toList) ++ rest =
        w ++ '{' :: ' ' :: '"' :: ("method\"".toList ++ (": ".toList ++ ("\"Tracing.dataCollected\"".toList ++ (", ".toList ++
          '"' :: ("params\"".toList ++ (": { ".toList ++ '"' :: ("value\"".toList ++ ':' :: ' ' :: '[' :: '\n' :: (sepBy [',', '\n'] ts ++ ']' :: '}' :: '}' :: rest)))))))) := by
      simp
    have eo5 := fun r => readValue_obj (f + 5) w (' ' :: '"' :: r) r hw (by simp [skipWs, isWs])
    rw [e, eo5]
    rw [readMembers, skipWs_cons _ _ (by decide)]
    simp only
    rw [show ∀ s, readStr ("method\"".toList ++ s) = some ("method".toList, s) from fun s => by simp [readStr]]
    simp only [Option.bind_some]
    rw [show ∀ s, skipWs (": ".toList ++ s) = ':' :: ' ' :: s from fun s => by simp [skipWs, isWs]]
    simp only
    rw [readValue, show ∀ s, skipWs (' ' :: ("\"Tracing.dataCollected\"".toList ++ s)) = '"' :: ("Tracing.dataCollected\"".toList ++ s) from fun s => by simp [skipWs, isWs]]
    simp only
    rw [show ∀ s, readStr ("Tracing.dataCollected\"".toList ++ s) = some ("Tracing.dataCollected".toList, s) from fun s => by simp [readStr]]
    simp only [Option.map_some, Option.bind_some]
    rw [show ∀ s, skipWs (", ".toList ++ s) = ',' :: ' ' :: s from fun s => by simp [skipWs, isWs]]
    simp only
    rw [readMembers, show ∀ s, skipWs (' ' :: '"' :: s) = '"' :: s from fun s => by simp [skipWs, isWs]]
    simp only
    rw [show ∀ s, readStr ("params\"".toList ++ s) = some ("params".toList, s) from fun s => by simp [readStr]]
    simp only [Option.bind_some]
    rw [show ∀ s, skipWs (": { ".toList ++ s) = ':' :: ' ' :: '{' :: ' ' :: s from fun s => by simp [skipWs, isWs]]
    simp only
    have eo := fun r => readValue_obj (f + 2) [' '] (' ' :: '"' :: r) r (by decide) (by simp [skipWs, isWs])
    simp only [List.cons_append, List.nil_append] at eo
    rw [eo]
    rw [readMembers, skipWs_cons _ _ (by decide)]
    simp only
    rw [show ∀ s, readStr ("value\"".toList ++ s) = some ("value".toList, s) from fun s => by simp [readStr]]
    simp only [Option.bind_some]
    rw [skipWs_cons _ _ (by decide)]
    simp only
    rw [hr1]
    simp only [Option.bind_some]
    rw [skipWs_cons _ _ (by decide)]
    simp only [Option.map_some, Option.bind_some]
    rw [skipWs_cons _ _ (by decide)]
    simp only [Option.map_some]
    rfl
  have := read_of _ _ _ key [] [] rfl rfl (by
    simp only [List.nil_append, List.append_nil, List.length_append] at hn ⊢
    have : ",\n".toList = [',', '\n'] := by decide
    rw [this]
    have e2 : "{ \"method\": \"Tracing.dataCollected\", \"params\": { \"value\": [\n".toList.length = 60 := by decide
    omega)
  simpa using this

theorem slices_short (events : List J) : ∀ c ∈ slices events, c.length ≤ 1000 := by
  intro c hc
  simp only [slices, List.mem_map] at hc
  obtain ⟨i, _, rfl⟩ := hc
  simp only [List.length_take, chunkSize]
  omega

theorem andThen_ok (a : List Eff) (b : List Eff × Res Unit) : andThen (a, .ok ()) b = (a ++ b.1, b.2) := rfl

theorem outgoing_clean (j : J) (h : Clean j) : ∃ t, outgoing j = ([.send t], .ok ()) ∧ read t = some j := by
  obtain ⟨t, h1, _, n, hn, hr⟩ := written_of_clean j h
  refine ⟨t, by rw [outgoing, h1], ?_⟩
  have := read_of t j n hr [] [] rfl rfl (by simp; omega)
  simpa using this

theorem transmitAll_clean (cs : List (List J)) (h : ∀ c ∈ cs, ∀ j ∈ c, Clean j) :
    ∃ ts : List Text, transmitAll cs = (ts.map .send, .ok ()) ∧ ts.map read = cs.map fun c => some (dataMessage c) := by
  induction cs with
  | nil => exact ⟨[], rfl, rfl⟩
  | cons c cs ih =>
    obtain ⟨ts, h1, h2⟩ := ih (fun x hx => h x (by simp [hx]))
    obtain ⟨t, h3, h4⟩ := formatEvents_read c (h c (by simp))
    refine ⟨t :: ts, ?_, by simp [h2, h4]⟩
    rw [transmitAll, h3, h1]
    simp [andThen]

theorem finishAll_ok (ls : List (List J)) (i : Nat) :
    finishAll i (ls.map .ok) = ((List.range ls.length).map (fun k => .finishSource (i + k)), .ok ls.flatten) := by
  induction ls generalizing i with
  | nil => rfl
  | cons l ls ih =>
    rw [List.map_cons, finishAll, ih]
    simp only [List.length_cons, List.range_succ_eq_map, List.map_cons, List.map_map, Res.bind, List.flatten_cons, Nat.add_zero, Prod.mk.injEq, List.cons.injEq, true_and, and_true]
    apply List.map_congr_left
    intro k _
    simp only [Function.comp_apply, Nat.succ_eq_add_one]
    congr 1
    omega

theorem finishAll_isOk (rs : List (Res (List J))) (h : ∀ r ∈ rs, ∃ l, r = .ok l) : ∃ ls : List (List J), rs = ls.map .ok := by
  induction rs with
  | nil => exact ⟨[], rfl⟩
  | cons r rs ih =>
    obtain ⟨l, rfl⟩ := h r (by simp)
    obtain ⟨ls, rfl⟩ := ih (fun x hx => h x (by simp [hx]))
    exact ⟨l :: ls, rfl⟩

theorem lit_isSome (s : String) : (lit s).isSome = true := rfl

theorem clean_lit (s : String) : Clean (.str (lit s)) := .str _

theorem clean_empty (id : J) (h : Clean id) : Clean (emptyReply id) := by
  apply Clean.obj <;> simp only [List.mem_cons, List.not_mem_nil, or_false, forall_eq_or_imp, forall_eq, lit_isSome, and_self]
  exact ⟨h, .null⟩

theorem clean_complete : Clean completeMessage := by
  apply Clean.obj <;> simp only [List.mem_cons, List.not_mem_nil, or_false, forall_eq_or_imp, forall_eq, lit_isSome, and_self]
  exact ⟨clean_lit _, .arr _ (by simp)⟩

theorem clean_categories (id : J) (h : Clean id) : Clean (categoriesReply id) := by
  apply Clean.obj <;> simp only [List.mem_cons, List.not_mem_nil, or_false, forall_eq_or_imp, forall_eq, lit_isSome, and_self]
  refine ⟨h, ?_⟩
  apply Clean.obj <;> simp only [List.mem_cons, List.not_mem_nil, or_false, forall_eq, lit_isSome]
  apply Clean.arr
  simp only [List.mem_cons, List.not_mem_nil, or_false, forall_eq_or_imp, forall_eq]
  exact ⟨clean_lit _, clean_lit _, clean_lit _⟩

theorem index_clean (m : List (Str × J)) (h : Clean (.obj m)) (key : String) : ∃ j, index (.obj m) key = .ok j ∧ Clean j ∧ member m key = j := by
  cases h with
  | obj _ _ hc =>
    refine ⟨_, rfl, ?_, rfl⟩
    cases hf : m.find? fun x => x.1 == lit key with
    | none => exact .null
    | some x => exact hc x (List.mem_of_find?_eq_some hf)

end Scalopus.Session
