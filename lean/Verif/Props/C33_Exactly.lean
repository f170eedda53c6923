import Verif.Props.C31_NativeSource

/-!
# C33: exactly what a finished interval returns, for every sequence of events
-/

namespace Scalopus.C33

open NativeSource NativeSource.Examples Endpoints Cbor

/-- A counter event that has no value at all. -/
def NoValue (e : Event) : Prop := e.type = 6 ∧ e.data = none

theorem backfill_shapes (l : List Entry) : (backfill l).1.map Entry.shape = l.map Entry.shape := by
  induction l with
  | nil => rfl
  | cons e es ih =>
    rw [backfill]
    split <;> simp only [List.map_cons, ih] <;> rfl

theorem shapes_perm (l : List Entry) : ((backfill (stableSort l)).1.map Entry.shape).Perm (l.map Entry.shape) := by
  rw [backfill_shapes]
  exact (stableSort_perm l).map _

theorem convert_unknown (names : TraceMap) (c : Counters) (r : Spec.Rec) (h : ¬ Spec.Known r.event) :
    (NoValue r.event ∧ convert names c (toItem r) = .error .ub) ∨ (¬ NoValue r.event ∧ convert names c (toItem r) = .error .caught) := by
  obtain ⟨pid, tid, ⟨time, id, type, data⟩⟩ := r
  simp only [Spec.Known, NoValue, toItem] at h ⊢
  by_cases h6 : type = 6
  · subst h6
    cases data with
    | none => exact .inl ⟨⟨rfl, rfl⟩, rfl⟩
    | some d =>
      refine .inr ⟨by simp, ?_⟩
      cases hd : Cbor.decodeCounter d with
      | error b => simp [convert, hd]
      | ok z => exact absurd ⟨rfl, fun _ => by simp [Spec.counterValue, hd]⟩ h
  · refine .inr ⟨fun h => h6 h.1, ?_⟩
    have hp : ¬ (Spec.phase type).isSome = true := fun hp => h ⟨hp, fun e => absurd e h6⟩
    have h1 : type ≠ 1 := by rintro rfl; exact hp rfl
    have h2 : type ≠ 2 := by rintro rfl; exact hp rfl
    have h3 : type ≠ 3 := by rintro rfl; exact hp rfl
    have h4 : type ≠ 4 := by rintro rfl; exact hp rfl
    have h5 : type ≠ 5 := by rintro rfl; exact hp rfl
    simp [convert, h1, h2, h3, h4, h5, h6]

/-- **C33, exactly: an event of an unknown kind.** In an interval of any batches, the first event that is of an unknown kind, or a counter whose value cannot be read, ends the result: what is returned are the
    events recorded before it, one entry for each, and nothing of what was recorded after it. If it is a counter without any value the behaviour is undefined. -/
theorem first_unknown_ends (names : TraceMap) (batches : List (Nat × Threads)) (hv : Valid batches) (before : List Spec.Rec) (r : Spec.Rec) (after : List Spec.Rec)
    (hr : Spec.recorded batches = before ++ r :: after) (hk : ∀ x ∈ before, Spec.Known x.event) (hu : ¬ Spec.Known r.event) (rest : List Bytes) :
    (NoValue r.event → finishInterval (some (.ok names)) (encoded batches ++ rest) = .ub) ∧
    (¬ NoValue r.event → ∃ res, finishInterval (some (.ok names)) (encoded batches ++ rest) = .ok res ∧ (res.map Entry.shape).Perm (before.map (Spec.shown names))) := by
  obtain ⟨es, c', h1, h2, -⟩ := convertAll_known names before hk []
  have hi : (encoded batches ++ rest).flatMap items = before.map toItem ++ toItem r :: (after.map toItem ++ rest.flatMap items) := by
    rw [List.flatMap_append, items_encoded batches hv, hr]; simp
  unfold finishInterval
  simp only [Res.bind, hi, h1]
  rcases convert_unknown names c' r hu with ⟨g1, g2⟩ | ⟨g1, g2⟩
  · exact ⟨fun _ => by simp [convertAll, g2], fun h => absurd g1 h⟩
  · refine ⟨fun h => absurd h g1, fun _ => ⟨(backfill (stableSort es)).1, by simp [convertAll, g2], ?_⟩⟩
    rw [← h2]
    exact shapes_perm es

/-- What was recorded, up to the first event that is of an unknown kind or a counter without a value that can be read. -/
theorem known_prefix (l : List Spec.Rec) : (∀ x ∈ l, Spec.Known x.event) ∨ ∃ before r after, l = before ++ r :: after ∧ (∀ x ∈ before, Spec.Known x.event) ∧ ¬ Spec.Known r.event := by
  induction l with
  | nil => exact .inl (by simp)
  | cons x l ih =>
    by_cases hx : Spec.Known x.event
    · rcases ih with h | ⟨b, r, a, rfl, h1, h2⟩
      · exact .inl (by simpa [hx] using h)
      · exact .inr ⟨x :: b, r, a, rfl, by simpa [hx] using h1, h2⟩
    · exact .inr ⟨[], x, l, rfl, by simp, hx⟩

/-- **C33, exactly when nothing is lost.** For batches of any events, all events are returned exactly if each is of a known kind and each counter has a value that can be read. -/
theorem complete_iff (names : TraceMap) (batches : List (Nat × Threads)) (hv : Valid batches) :
    (∃ res, finishInterval (some (.ok names)) (encoded batches) = .ok res ∧ res.length = (Spec.recorded batches).length) ↔ ∀ r ∈ Spec.recorded batches, Spec.Known r.event := by
  constructor
  · rintro ⟨res, h1, h2⟩
    rcases known_prefix (Spec.recorded batches) with h | ⟨b, r, a, h3, h4, h5⟩
    · exact h
    · have h := first_unknown_ends names batches hv b r a h3 h4 h5 []
      rw [List.append_nil, h1] at h
      by_cases hn : NoValue r.event
      · cases h.1 hn
      · obtain ⟨res', h6, h7⟩ := h.2 hn
        obtain rfl := Res.ok.inj h6
        have := h7.length_eq
        simp only [List.length_map] at this
        rw [h3] at h2
        simp only [List.length_append, List.length_cons] at h2
        omega
  · intro hk
    obtain ⟨es, -, h2, h3, -⟩ := finish_known names batches hv hk
    refine ⟨_, h2, ?_⟩
    have := (shapes_perm es).length_eq
    rw [h3] at this
    simpa using this

/-- **C33, exactly when it is undefined.** For batches of any events: exactly if the first event that cannot be shown is a counter without any value. -/
theorem undefined_iff (names : TraceMap) (batches : List (Nat × Threads)) (hv : Valid batches) :
    finishInterval (some (.ok names)) (encoded batches) = .ub ↔
      ∃ before r after, Spec.recorded batches = before ++ r :: after ∧ (∀ x ∈ before, Spec.Known x.event) ∧ NoValue r.event := by
  have hn : ∀ {r : Spec.Rec}, NoValue r.event → ¬ Spec.Known r.event := by
    intro r h hk
    have := hk.2 h.1
    simp [Spec.counterValue, h.2] at this
  constructor
  · intro h
    rcases known_prefix (Spec.recorded batches) with hk | ⟨b, r, a, h3, h4, h5⟩
    · obtain ⟨es, -, h2, -, -⟩ := finish_known names batches hv hk
      rw [h2] at h; cases h
    · refine ⟨b, r, a, h3, h4, Classical.byContradiction fun g => ?_⟩
      obtain ⟨res, h6, -⟩ := (first_unknown_ends names batches hv b r a h3 h4 h5 []).2 g
      rw [List.append_nil, h] at h6; cases h6
  · rintro ⟨b, r, a, h3, h4, h5⟩
    have := (first_unknown_ends names batches hv b r a h3 h4 (hn h5) []).1 h5
    rwa [List.append_nil] at this

/-- **C33, exactly: a batch that cannot be decoded.** It does no harm exactly if nothing was recorded in the batches after it. -/
theorem harmless_iff (names : TraceMap) (before after : List (Nat × Threads)) (bad : Bytes) (hv : Valid before)
    (hk : ∀ r ∈ Spec.recorded before, Spec.Known r.event) (hb : ∃ e, decodeBatch bad = .error e) :
    (∃ res, finishInterval (some (.ok names)) (encoded before ++ bad :: encoded after) = .ok res ∧ (res.map Entry.shape).Perm ((Spec.recorded before ++ Spec.recorded after).map (Spec.shown names))) ↔
      Spec.recorded after = [] := by
  rw [earlier_batches_kept_partial names before hv hk bad hb]
  obtain ⟨es, -, h2, h3, -⟩ := finish_known names before hv hk
  have hp := shapes_perm es
  rw [h3] at hp
  constructor
  · rintro ⟨res, g1, g2⟩
    rw [h2] at g1
    obtain rfl := Res.ok.inj g1
    have := (hp.symm.trans g2).length_eq
    simp only [List.length_map, List.length_append] at this
    exact List.length_eq_zero_iff.mp (by omega)
  · intro h
    rw [h, List.append_nil]
    exact ⟨_, h2, hp⟩

/-- An interval in which an event of an unknown kind comes between others: two of its four events are returned. -/
example : ∃ b r a, Spec.recorded [(7, [(1, [⟨1000, 1, 1, none⟩, ⟨2000, 1, 2, none⟩, ⟨3000, 1, 9, none⟩])]), (8, [(1, [⟨4000, 1, 1, none⟩])])] = b ++ r :: a ∧ (∀ x ∈ b, Spec.Known x.event) ∧ ¬ Spec.Known r.event ∧
    b.length = 2 ∧ a.length = 1 :=
  ⟨[⟨7, 1, ⟨1000, 1, 1, none⟩⟩, ⟨7, 1, ⟨2000, 1, 2, none⟩⟩], ⟨7, 1, ⟨3000, 1, 9, none⟩⟩, [⟨8, 1, ⟨4000, 1, 1, none⟩⟩], rfl, by simp [Spec.Known, Spec.phase], by simp [Spec.Known, Spec.phase], rfl, rfl⟩

/-- The conditions of `complete_iff` and `harmless_iff` are met. -/
example := (complete_iff names batches batches_valid).mpr fun r hr => batches_known r (by simpa using hr)
example := harmless_iff names batches [] [] batches_valid (fun r hr => batches_known r (by simpa using hr)) ⟨_, rfl⟩

end Scalopus.C33
