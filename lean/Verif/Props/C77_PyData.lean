import Verif.Spec.PyData
import Verif.Props.C14_Loopback

/-!
# C77: data sent and answered by Python endpoints
# C78: waiting for an answer in Python
-/

namespace Scalopus.C77

open PyData Protocol

theorem item_iff (o : Obj) (b : UInt8) : item o = some b ↔ IsByte o b := by
  have conv : ∀ n : Int, (0 ≤ n ∧ n ≤ 255 ∧ UInt8.ofNat n.toNat = b) ↔ n = b.toNat := by
    intro n
    constructor
    · rintro ⟨h1, h2, h3⟩
      rw [← h3]
      simp only [UInt8.toNat_ofNat']
      omega
    · intro h
      have := b.toNat_lt
      refine ⟨by omega, by omega, ?_⟩
      rw [h]
      simp
  constructor
  · intro h
    cases o <;> simp only [item] at h
    case int n =>
      split at h
      · rename_i hn; simp only [Option.some.injEq] at h; exact .int n b ((conv n).mp ⟨hn.1, hn.2, h⟩)
      · exact absurd h (by simp)
    case number n =>
      split at h
      · rename_i hn; simp only [Option.some.injEq] at h; exact .number n b ((conv n).mp ⟨hn.1, hn.2, h⟩)
      · exact absurd h (by simp)
    case bool v => cases v <;> simp only [Option.some.injEq, if_true, reduceCtorEq, Bool.false_eq_true, if_false] at h <;> subst h; exacts [.false, .true]
    all_goals exact absurd h (by simp)
  · intro h
    cases h with
    | int n b h => obtain ⟨h1, h2, h3⟩ := (conv n).mpr h; simp [item, h1, h2, h3]
    | number n b h => obtain ⟨h1, h2, h3⟩ := (conv n).mpr h; simp [item, h1, h2, h3]
    | true => rfl
    | false => rfl

theorem items_iff : ∀ (l : List Obj) (b : Bytes), items l = some b ↔ List.Forall₂ IsByte l b := by
  intro l
  induction l with
  | nil => intro b; cases b <;> simp [items]
  | cons o l ih =>
    intro b
    simp only [items]
    constructor
    · intro h
      split at h
      · rename_i x r h1 h2
        simp only [Option.some.injEq] at h
        subst h
        exact .cons ((item_iff o x).mp h1) ((ih r).mp h2)
      · exact absurd h (by simp)
    · intro h
      cases h with
      | cons h1 h2 => rw [(item_iff o _).mpr h1, (ih _).mpr h2]

theorem utf8_iff (s : String) (b : Bytes) : utf8 s = b ↔ String.fromUTF8? ⟨b.toArray⟩ = some s := by
  have hb : (⟨b.toArray⟩ : ByteArray) = s.toByteArray ↔ utf8 s = b := by
    constructor
    · intro h
      simp only [utf8, String.toUTF8_eq_toByteArray, ← h]
    · intro h
      subst h
      simp only [utf8, String.toUTF8_eq_toByteArray]
  rw [← hb]
  unfold String.fromUTF8?
  constructor
  · intro h
    rw [h, dif_pos s.isValidUTF8]
    simp [String.fromUTF8]
  · intro h
    split at h
    · simp only [Option.some.injEq] at h
      rw [← h]
      simp [String.fromUTF8]
    · exact absurd h (by simp)

/-- **C77, conversion.** An object is converted to exactly the bytes it stands for: a string to its UTF-8 encoding, `bytes` and `bytearray` to themselves, a list of integers to these. -/
theorem converted_exactly (o : Obj) (b : Bytes) : pyToData o = .ok (some b) ↔ Denotes o b := by
  constructor
  · intro h
    cases o <;> simp only [pyToData] at h
    case str s => simp only [Res.ok.injEq, Option.some.injEq] at h; exact .str s b ((utf8_iff s b).mp h)
    case bytes c => simp only [Res.ok.injEq, Option.some.injEq] at h; subst h; exact .bytes c
    case bytearray c => simp only [Res.ok.injEq, Option.some.injEq] at h; subst h; exact .bytearray c
    case buffer l =>
      split at h
      · rename_i c hc; simp only [Res.ok.injEq, Option.some.injEq] at h; subst h; exact .buffer l c ((items_iff l c).mp hc)
      · exact absurd h (by simp)
    case list l =>
      split at h
      · rename_i c hc; simp only [Res.ok.injEq, Option.some.injEq] at h; subst h; exact .list l c ((items_iff l c).mp hc)
      · exact absurd h (by simp)
    all_goals exact absurd h (by simp)
  · intro h
    cases h with
    | str s b h => simp only [pyToData, (utf8_iff s b).mpr h]
    | bytes => rfl
    | bytearray => rfl
    | buffer l b h => simp only [pyToData, (items_iff l b).mpr h]
    | list l b h => simp only [pyToData, (items_iff l b).mpr h]

/-- **C77, conversion.** Only an object that is no string, buffer or list is not converted at all; as an answer it means that there is none, and it cannot be sent. -/
theorem not_converted (o : Obj) : pyToData o = .ok none ↔ ¬ Sendable o := by
  cases o with
  | buffer l => cases h : items l <;> simp [pyToData, Sendable, h]
  | list l => cases h : items l <;> simp [pyToData, Sendable, h]
  | _ => simp [pyToData, Sendable]

/-- A string that is received as the answer to a string can be decoded: UTF-8 loses nothing. -/
theorem strings_differ (s s' : String) (b : Bytes) (h : Denotes (.str s) b) (h' : Denotes (.str s') b) : s = s' := by
  cases h with
  | str _ _ h => cases h' with
    | str _ _ h' => rw [h] at h'; simpa using h'

/-- Endpoints written in Python: what the method of the named endpoint does when it is called for the `n`-th time. -/
def oracle (method : Nat → Bytes → Option (Obj → PyResult)) : Loopback.Oracle := fun n ep d => handle (method n ep) d

/-- **C77, sending.** A request with an object that stands for `d` sends the bytes `d`. -/
theorem request_sends (H : Loopback.Oracle) (s : Loopback.State) (ep : Bytes) (o : Obj) (d : Bytes) (h : Denotes o d) : request H s ep o = Loopback.step H s (.request ep d) := by
  simp only [request, pyToData!, (converted_exactly o d).mpr h, Res.bind]

/-- **C77, sending.** A request with any other object raises and sends nothing. -/
theorem request_refused (H : Loopback.Oracle) (s : Loopback.State) (ep : Bytes) (o : Obj) (h : ∀ d, ¬ Denotes o d) : ∃ w, request H s ep o = .throws w := by
  have hb : pyToData o = .ok none ∨ pyToData o = .throws "cast_error" := by
    cases o with
    | buffer l => cases hi : items l with
      | none => right; simp only [pyToData, hi]
      | some b => exact absurd (.buffer l b ((items_iff l b).mp hi)) (h b)
    | list l => cases hi : items l with
      | none => right; simp only [pyToData, hi]
      | some b => exact absurd (.list l b ((items_iff l b).mp hi)) (h b)
    | str s => exact absurd (.str s _ ((utf8_iff s _).mp rfl)) (h (utf8 s))
    | bytes b => exact absurd (.bytes b) (h b)
    | bytearray b => exact absurd (.bytearray b) (h b)
    | badStr => right; rfl
    | _ => left; rfl
  rcases hb with hb | hb
  · exact ⟨"ValueError", by simp only [request, pyToData!, hb, Res.bind]⟩
  · exact ⟨"cast_error", by simp only [request, pyToData!, hb, Res.bind]⟩

/-- In a history that does not end the process no handler has thrown. -/
theorem one_no_throw {H : Loopback.Oracle} {s s' : Loopback.State} {i : Nat} (h : ∀ x ∈ s.calls, x.result ≠ .throws) (e : Loopback.serveOne H s i = .ok s') :
    ∀ x ∈ s'.calls, x.result ≠ .throws := by
  unfold Loopback.serveOne at e
  cases hq : s.reqs[i]? with
  | none => simp only [hq, Res.ok.injEq] at e; subst e; exact h
  | some q =>
    simp only [hq] at e
    split at e
    · simp only [Res.ok.injEq] at e; subst e; exact h
    · split at e
      · exact absurd e (by simp)
      · cases hH : H s.calls.length q.endpoint q.payload <;> simp only [hH, Res.ok.injEq, reduceCtorEq] at e
        all_goals
          subst e
          intro x hx
          simp only [List.mem_append, List.mem_singleton] at hx
          rcases hx with hx | hx
          · exact h x hx
          · subst hx; simp

theorem many_no_throw {H : Loopback.Oracle} : ∀ (n : Nat) (s s' : Loopback.State), (∀ x ∈ s.calls, x.result ≠ .throws) → Loopback.serveMany H s n = .ok s' →
    ∀ x ∈ s'.calls, x.result ≠ .throws := by
  intro n
  induction n with
  | zero => intro s s' h e; simp only [Loopback.serveMany, Res.ok.injEq] at e; subst e; exact h
  | succ n ih =>
    intro s s' h e
    simp only [Loopback.serveMany] at e
    cases h1 : Loopback.serveOne H s s.done with
    | ok m => rw [h1] at e; exact ih { m with done := m.done + 1 } s' (show ∀ x ∈ m.calls, x.result ≠ .throws from one_no_throw h h1) e
    | throws w => rw [h1] at e; exact absurd e (by simp [Res.bind])
    | ub => rw [h1] at e; exact absurd e (by simp [Res.bind])
    | terminate => rw [h1] at e; exact absurd e (by simp [Res.bind])

theorem run_no_throw {H : Loopback.Oracle} : ∀ (as : List Loopback.Act) (s s' : Loopback.State), (∀ x ∈ s.calls, x.result ≠ .throws) → Loopback.run H s as = .ok s' →
    ∀ x ∈ s'.calls, x.result ≠ .throws := by
  intro as
  induction as with
  | nil => intro s s' h e; simp only [Loopback.run, Res.ok.injEq] at e; subst e; exact h
  | cons a as ih =>
    intro s s' h e
    simp only [Loopback.run] at e
    cases h1 : Loopback.step H s a with
    | ok m =>
      rw [h1] at e
      refine ih m s' ?_ e
      cases a with
      | work => exact many_no_throw _ s m h h1
      | request ep p => simp only [Loopback.step, Res.ok.injEq] at h1; subst h1; exact h
      | drop i => simp only [Loopback.step, Res.ok.injEq] at h1; subst h1; exact h
      | addServerEndpoint n => simp only [Loopback.step, Res.ok.injEq] at h1; subst h1; exact h
    | throws w => rw [h1] at e; exact absurd e (by simp [Res.bind])
    | ub => rw [h1] at e; exact absurd e (by simp [Res.bind])
    | terminate => rw [h1] at e; exact absurd e (by simp [Res.bind])

/-- **C77** in full, beside `answers_partial`: whatever the methods of the endpoints do, requests of endpoints that exist do not stop the process. -/
def NeverStops : Prop := ∀ (method : Nat → Bytes → Option (Obj → PyResult)) (as : List Loopback.Act), C14.RequestsKnownEndpoints [] as →
  (Loopback.run (oracle method) {} as).isOk = true

/-- **C77, partial.** Take any history of requests of Python endpoints that does not stop the process, followed by a visit of the worker. A request with the data `d` whose answer was not dropped was
    handled by the endpoint that it named, whose method got the bytes `d`. If what that returned stands for `e` then the answer is `e`; if it is an object that cannot be sent, or there is no method,
    there is no answer. Missing: methods that raise, or return a list with other things than bytes, see `raise_stops`. -/
theorem answers_partial (method : Nat → Bytes → Option (Obj → PyResult)) (as : List Loopback.Act) (s : Loopback.State) (hrun : Loopback.run (oracle method) {} (as ++ [.work]) = .ok s)
    (i : Nat) (ep d : Bytes) (hreq : (C14.requestsOf as)[i]? = some (ep, d)) (hdrop : Loopback.Act.drop i ∉ as) :
    ∃ (k : Nat) (q : Loopback.Req), s.reqs[i]? = some q ∧
      match method k ep with
      | none => q.fut = .broken
      | some f => ∃ r, f (.bytes d) = .returns r ∧ ((∃ e, Denotes r e ∧ q.fut = .value e) ∨ (¬ Sendable r ∧ q.fut = .broken)) := by
  obtain ⟨-, h2, -, -⟩ := C14.loopback_requests_partial (oracle method) as s hrun
  obtain ⟨k, q, h3, h4, h5⟩ := h2 i ep d hreq hdrop
  have hno := run_no_throw _ _ s (by simp) hrun _ (List.mem_of_getElem? h3)
  refine ⟨k, q, h4, ?_⟩
  simp only [oracle, handle] at h5 hno
  cases hm : method k ep with
  | none => rw [hm] at h5; exact h5
  | some f =>
    simp only [hm] at h5 hno
    cases hf : f (.bytes d) with
    | raises => rw [hf] at hno; exact absurd rfl hno
    | returns r =>
      simp only [hf] at h5 hno
      refine ⟨r, hf, ?_⟩
      cases hp : pyToData r with
      | ok x => cases x with
        | none => rw [hp] at h5; exact Or.inr ⟨(not_converted r).mp hp, h5⟩
        | some e => rw [hp] at h5; exact Or.inl ⟨e, (converted_exactly r e).mp hp, h5⟩
      | throws w => rw [hp] at hno; exact absurd rfl hno
      | ub => rw [hp] at hno; exact absurd rfl hno
      | terminate => rw [hp] at hno; exact absurd rfl hno

/-- **C77, partial.** Methods that always return an object that stands for data, or one that cannot be sent, do not stop the process. -/
theorem good_methods_never_stop_partial (method : Nat → Bytes → Option (Obj → PyResult))
    (hm : ∀ n ep f, method n ep = some f → ∀ d, ∃ r, f (.bytes d) = .returns r ∧ (¬ Sendable r ∨ ∃ e, Denotes r e))
    (as : List Loopback.Act) (has : C14.RequestsKnownEndpoints [] as) : (Loopback.run (oracle method) {} as).isOk = true := by
  refine C14.loopback_no_crash_partial (oracle method) ?_ as {} (by simp) has
  intro n ep d
  simp only [oracle, handle]
  cases hf : method n ep with
  | none => simp
  | some f =>
    obtain ⟨r, h1, h2⟩ := hm n ep f hf d
    simp only [h1]
    rcases h2 with h2 | ⟨e, h2⟩
    · rw [(not_converted r).mpr h2]; simp
    · rw [(converted_exactly r e).mpr h2]; simp

/-- **C77 fails:** a method that raises, or returns a list with something that is no byte, stops the process of the server, whatever the request. -/
theorem raise_stops (ep d : Bytes) (r : PyResult) (hr : r = .raises ∨ ∃ o, r = .returns o ∧ Sendable o ∧ ∀ e, ¬ Denotes o e) :
    Loopback.run (oracle fun _ _ => some fun _ => r) {} [.addServerEndpoint ep, .request ep d, .work] = .terminate := by
  have hh : handle (some fun _ => r) d = .throws := by
    rcases hr with hr | ⟨o, hr, h1, h2⟩
    · simp [handle, hr]
    · simp only [handle, hr]
      cases hp : pyToData o with
      | ok x => cases x with
        | none => exact absurd h1 ((not_converted o).mp hp)
        | some e => exact absurd ((converted_exactly o e).mp hp) (h2 e)
      | _ => rfl
  simp [Loopback.run, Loopback.step, Loopback.serveRequests, Loopback.serveMany, Loopback.serveOne, Res.bind, oracle, hh]

theorem not_NeverStops : ¬ NeverStops := by
  intro h
  have := h (fun _ _ => some fun _ => .raises) [.addServerEndpoint [1], .request [1] [], .work] (by simp [C14.RequestsKnownEndpoints])
  rw [raise_stops [1] [] .raises (Or.inl rfl)] at this
  exact absurd this (by simp [Res.isOk])

/-- An endpoint that answers with a list, the answer to a string with a character outside ASCII. -/
example : Denotes (.str "é") [0xC3, 0xA9] ∧ Denotes (.list [.int 255, .bool true, .number 5]) [255, 1, 5] ∧ Sendable (.list [.int 256]) ∧ (∀ e, ¬ Denotes (.list [.int 256]) e) ∧
    ¬ Sendable (.int 3) := by
  refine ⟨.str _ _ ((utf8_iff _ _).mp (by decide)), .list _ _ ((items_iff _ _).mp rfl), trivial, ?_, fun h => h⟩
  intro e h
  have := (converted_exactly _ _).mpr h
  simp [pyToData, items, item] at this

example : ∃ s q, Loopback.run (oracle fun _ _ => some fun o => .returns (match o with | .bytes b => .list (b.map fun x => .int x.toNat) | _ => .none)) {}
    ([.addServerEndpoint [1], .request [1] [0xC3, 0xA9]] ++ [.work]) = .ok s ∧ s.reqs[0]? = some q ∧ q.fut = .value [0xC3, 0xA9] := ⟨_, _, rfl, rfl, rfl⟩

end Scalopus.C77

namespace Scalopus.C78

open PyData Protocol

/-- **C78** in full: waiting for an answer in Python touches the interpreter with its lock only. -/
def OnlyWithLock : Prop := ∀ f arrives w, waitFor f arrives = .ok w → ∀ t ∈ w.touches, t.locked = true

/-- **C78** in full: after `wait_for` has returned, it can be called again. -/
def Repeatable : Prop := ∀ f arrives w, waitFor f arrives = .ok w → ∀ arrives', waitFor w.future arrives' ≠ .ub

/-- **C78, partial.** `wait_for` returns the answer as bytes if it is there or arrives in time, and `None` if nothing arrives; it raises if the request failed. Missing: the two properties above. -/
theorem result_partial (d : Bytes) :
    (∃ w, waitFor .waiting (some (.value d)) = .ok w ∧ w.result = .bytes d) ∧
    (∀ arrives, ∃ w, waitFor (.value d) arrives = .ok w ∧ w.result = .bytes d) ∧
    (∃ w, waitFor .waiting none = .ok w ∧ w.result = .none ∧ w.future = .waiting) ∧
    (∃ e, waitFor .waiting (some .error) = .throws e) :=
  ⟨⟨_, rfl, rfl⟩, fun a => by cases a <;> exact ⟨_, rfl, rfl⟩, ⟨_, rfl, rfl, rfl⟩, ⟨_, rfl⟩⟩

/-- Calls of `wait_for` one after the other, until one ends abnormally. -/
def waits (f : Future) : List (Option Future) → Res (List Obj)
  | [] => .ok []
  | a :: l => (waitFor f a).bind fun w => (waits w.future l).bind fun r => .ok (w.result :: r)

/-- **C78, partial.** Waiting can be repeated until the answer is there: after any number of waits in vain, each of which returns `None`, the answer is returned when it arrives. -/
theorem repeated_until_answer_partial (n : Nat) (d : Bytes) : waits .waiting (List.replicate n none ++ [some (.value d)]) = .ok (List.replicate n .none ++ [.bytes d]) := by
  induction n with
  | zero => rfl
  | succ n ih => simp only [List.replicate_succ, List.cons_append, waits, waitFor, Res.bind, ih]

/-- **C78 fails:** every call that returns makes its result without the interpreter lock. -/
theorem never_with_lock (f : Future) (arrives : Option Future) (w : Waited) (h : waitFor f arrives = .ok w) : ∃ t ∈ w.touches, t.locked = false := by
  unfold waitFor at h
  simp only at h
  split at h
  · exact absurd h (by simp)
  · simp only [Res.ok.injEq] at h; subst h; exact ⟨_, List.mem_singleton.mpr rfl, rfl⟩
  · simp only [Res.ok.injEq] at h; subst h; exact ⟨_, List.mem_singleton.mpr rfl, rfl⟩
  · exact absurd h (by simp)

theorem not_OnlyWithLock : ¬ OnlyWithLock := by
  intro h
  obtain ⟨t, h1, h2⟩ := never_with_lock .waiting none _ rfl
  rw [h .waiting none _ rfl t h1] at h2
  exact absurd h2 (by simp)

/-- **C78 fails:** once the answer was returned, waiting again is undefined. -/
theorem again_undefined (d : Bytes) (arrives : Option Future) : ∃ w, waitFor (.value d) none = .ok w ∧ waitFor w.future arrives = .ub := ⟨_, rfl, by cases arrives <;> rfl⟩

theorem not_Repeatable : ¬ Repeatable := by
  intro h
  obtain ⟨w, h1, h2⟩ := again_undefined [] none
  exact h _ _ w h1 none h2

end Scalopus.C78
