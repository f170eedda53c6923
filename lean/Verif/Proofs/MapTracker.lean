import Verif.Spec.MapTracker
import Verif.Proofs.Assoc

/-!
# The locked map is linearizable
-/

namespace Scalopus.MapTracker

open Assoc

variable {K V : Type} [DecidableEq K] [Inhabited V]

theorem lookup_assign (m : List (K × V)) (key k : K) (v : V) :
    (assign m key v).lookup k = if k = key then (if (m.lookup k).isSome then some v else none) else m.lookup k := by
  induction m with
  | nil => simp [assign]
  | cons e m ih =>
    obtain ⟨a, b⟩ := e
    have : assign ((a, b) :: m) key v = (a, if a = key then v else b) :: assign m key v := by
      simp only [assign, List.map_cons]
      split <;> rfl
    rw [this, lookup_cons', lookup_cons', ih]
    by_cases h1 : k = a
    · subst h1
      by_cases h2 : k = key <;> simp [h2]
    · simp only [h1, ↓reduceIte]

theorem keys_assign (m : List (K × V)) (key : K) (v : V) : (assign m key v).map (·.1) = m.map (·.1) := by
  induction m with
  | nil => rfl
  | cons e m ih =>
    simp only [assign, List.map_cons] at ih ⊢
    rw [ih]
    split <;> rfl

/-- The thread holds the unique lock. -/
def Pc.holdsU : Pc K V → Bool
  | .unique _ _ => true
  | .release op _ => op.writes
  | _ => false

/-- The thread holds the shared lock. -/
def Pc.holdsS : Pc K V → Bool
  | .shared _ _ _ => true
  | .release op _ => !op.writes
  | _ => false

/-- What a holder of the unique lock has done so far to the map `m`. -/
def Partial (m : K → Option V) (l : List (K × V)) : Pc K V → Prop
  | .unique (.insert k _) true => (l.lookup k).isSome = true ∧ ∀ k', k' ≠ k → l.lookup k' = m k'
  | .unique _ _ => ∀ k, l.lookup k = m k
  | .release op r => r = .done ∧ ∀ k, l.lookup k = Spec.apply m op k
  | _ => True

/-- What a holder of the shared lock has found so far. -/
def Found (m : K → Option V) (l : List (K × V)) : Pc K V → Prop
  | .shared .getMap i acc => acc = l.take i
  | .release op r => Spec.Allowed m op r
  | _ => True

structure Inv (s : State K V) (m : K → Option V) : Prop where
  valid : Spec.Valid (fun _ => none) s.hist
  after : Spec.after (fun _ => none) s.hist = m
  keys : (s.mapping.map (·.1)).Nodup
  writer : ∀ t, s.writer = some t ↔ (s.pc t).holdsU = true
  readers : ∀ t, t ∈ s.readers ↔ (s.pc t).holdsS = true
  nodup : s.readers.Nodup
  excl : s.writer ≠ none → s.readers = []
  kind : ∀ t, (∀ op i acc, s.pc t = .shared op i acc → op.writes = false) ∧ (∀ op b, s.pc t = .unique op b → op.writes = true)
  quiet : s.writer = none → ∀ k, s.mapping.lookup k = m k
  part : ∀ t, (s.pc t).holdsU = true → Partial m s.mapping (s.pc t)
  found : ∀ t, (s.pc t).holdsS = true → Found m s.mapping (s.pc t)

theorem valid_append {m : K → Option V} (h1 h2 : List (Nat × Op K V × Resp K V)) :
    Spec.Valid m (h1 ++ h2) ↔ Spec.Valid m h1 ∧ Spec.Valid (Spec.after m h1) h2 := by
  induction h1 generalizing m with
  | nil => simp [Spec.Valid, Spec.after]
  | cons e h1 ih =>
    obtain ⟨t, op, r⟩ := e
    simp only [List.cons_append, Spec.Valid, Spec.after, ih, and_assoc]

theorem after_append {m : K → Option V} (h1 h2 : List (Nat × Op K V × Resp K V)) :
    Spec.after m (h1 ++ h2) = Spec.after (Spec.after m h1) h2 := by
  induction h1 generalizing m with
  | nil => rfl
  | cons e h1 ih => obtain ⟨t, op, r⟩ := e; exact ih

theorem inv_init : Inv ({} : State K V) (fun _ => none) where
  valid := trivial
  after := rfl
  keys := by simp
  writer := by simp [Pc.holdsU]
  readers := by simp [Pc.holdsS]
  nodup := by simp
  excl := by simp
  kind := by simp
  quiet := by simp
  part := by simp [Pc.holdsU]
  found := by simp [Pc.holdsS]

/-- Only one thread holds the unique lock. -/
theorem Inv.one {s : State K V} {m : K → Option V} (h : Inv s m) {t t' : Nat} (h1 : (s.pc t).holdsU = true) (h2 : (s.pc t').holdsU = true) :
    t = t' := by
  have a := (h.writer t).mpr h1
  have b := (h.writer t').mpr h2
  rw [a] at b
  simpa using b

/-- Nobody shares while a thread holds the unique lock. -/
theorem Inv.alone {s : State K V} {m : K → Option V} (h : Inv s m) {t t' : Nat} (h1 : (s.pc t).holdsU = true) : (s.pc t').holdsS = false := by
  have a := (h.writer t).mpr h1
  have b := h.excl (by rw [a]; simp)
  cases hs : (s.pc t').holdsS with
  | false => rfl
  | true =>
    have := (h.readers t').mpr hs
    rw [b] at this
    simp at this

/-- A step of a thread that keeps its locks and changes nothing else. -/
theorem inv_local {s : State K V} {m : K → Option V} (h : Inv s m) {t : Nat} {p : Pc K V}
    (hU : p.holdsU = (s.pc t).holdsU) (hS : p.holdsS = (s.pc t).holdsS)
    (hk : (∀ op i acc, p = .shared op i acc → op.writes = false) ∧ (∀ op b, p = .unique op b → op.writes = true))
    (hp : p.holdsU = true → Partial m s.mapping p) (hf : p.holdsS = true → Found m s.mapping p) : Inv (s.at t p) m where
  valid := h.valid
  after := h.after
  keys := h.keys
  writer := by
    intro t'
    simp only [State.at]
    by_cases ht : t' = t
    · subst ht; simp only [↓reduceIte, hU]; exact h.writer t'
    · simp only [ht, ↓reduceIte]; exact h.writer t'
  readers := by
    intro t'
    simp only [State.at]
    by_cases ht : t' = t
    · subst ht; simp only [↓reduceIte, hS]; exact h.readers t'
    · simp only [ht, ↓reduceIte]; exact h.readers t'
  nodup := h.nodup
  excl := h.excl
  kind := by
    intro t'
    simp only [State.at]
    split
    · exact hk
    · exact h.kind t'
  quiet := h.quiet
  part := by
    intro t' h'
    simp only [State.at] at h' ⊢
    split
    · rename_i ht; rw [if_pos ht] at h'; exact hp h'
    · rename_i ht; rw [if_neg ht] at h'; exact h.part t' h'
  found := by
    intro t' h'
    simp only [State.at] at h' ⊢
    split
    · rename_i ht; rw [if_pos ht] at h'; exact hf h'
    · rename_i ht; rw [if_neg ht] at h'; exact h.found t' h'

/-- A step of the unique holder that changes the map. -/
theorem inv_write {s : State K V} {m : K → Option V} (h : Inv s m) {t : Nat} {p : Pc K V} {l : List (K × V)} (hu : (s.pc t).holdsU = true)
    (hU : p.holdsU = true) (hS : p.holdsS = false) (hkeys : (l.map (·.1)).Nodup)
    (hk : (∀ op i acc, p = .shared op i acc → op.writes = false) ∧ (∀ op b, p = .unique op b → op.writes = true))
    (hp : Partial m l p) : Inv { s.at t p with mapping := l } m where
  valid := h.valid
  after := h.after
  keys := hkeys
  writer := by
    intro t'
    simp only [State.at]
    by_cases ht : t' = t
    · subst ht; simp only [↓reduceIte, hU, iff_true]; rw [h.writer t', hu]
    · simp only [ht, ↓reduceIte]; exact h.writer t'
  readers := by
    intro t'
    simp only [State.at]
    by_cases ht : t' = t
    · subst ht; simp only [↓reduceIte, hS]; rw [h.readers t', h.alone hu]
    · simp only [ht, ↓reduceIte]; exact h.readers t'
  nodup := h.nodup
  excl := h.excl
  kind := by
    intro t'
    simp only [State.at]
    split
    · exact hk
    · exact h.kind t'
  quiet := by
    intro hw
    have := (h.writer t).mpr hu
    simp only [State.at] at hw
    rw [hw] at this
    simp at this
  part := by
    intro t' h'
    simp only [State.at] at h' ⊢
    split
    · exact hp
    · rename_i ht
      rw [if_neg ht] at h'
      exact absurd (h.one hu h') (fun e => ht e.symm)
  found := by
    intro t' h'
    simp only [State.at] at h'
    split at h'
    · rw [hS] at h'; cases h'
    · rw [h.alone hu] at h'; cases h'

theorem inv_step {s : State K V} {m : K → Option V} (h : Inv s m) (a : Act K V) : ∃ m', Inv (step s a) m' := by
  cases a with
  | call t op =>
    simp only [step]
    cases hpc : s.pc t with
    | idle =>
      refine ⟨m, inv_local h (by rw [hpc]; rfl) (by rw [hpc]; rfl) ⟨(fun _ _ _ e => by cases e), (fun _ _ e => by cases e)⟩ ?_ ?_⟩ <;>
        (intro e; cases e)
    | _ => exact ⟨m, h⟩
  | go t =>
    simp only [step]
    cases hpc : s.pc t with
    | idle => exact ⟨m, h⟩
    | called op =>
      have nU : (s.pc t).holdsU = false := by rw [hpc]; rfl
      have nS : (s.pc t).holdsS = false := by rw [hpc]; rfl
      simp only
      split
      · rename_i hw
        split
        · rename_i hc
          obtain ⟨hc1, hc2⟩ := hc
          refine ⟨m, h.valid, h.after, h.keys, ?_, ?_, h.nodup, fun _ => hc2, ?_, fun hn => by simp at hn, ?_, ?_⟩
          · intro t'
            simp only [State.at]
            by_cases ht : t' = t
            · subst ht; simp [Pc.holdsU]
            · have := h.writer t'
              rw [hc1] at this
              simp only [ht, ↓reduceIte, ← this]
              simp [Ne.symm ht]
          · intro t'
            simp only [State.at]
            by_cases ht : t' = t
            · subst ht; simp [Pc.holdsS, hc2]
            · simp only [ht, ↓reduceIte]; exact h.readers t'
          · intro t'
            simp only [State.at]
            split
            · exact ⟨(fun _ _ _ e => by cases e), (fun _ _ e => by cases e; exact hw)⟩
            · exact h.kind t'
          · intro t' h'
            simp only [State.at] at h' ⊢
            split
            · cases op with
              | insert k v => exact h.quiet hc1
              | erase k => exact h.quiet hc1
              | clear => exact h.quiet hc1
              | getMap => cases hw
              | getValue k => cases hw
              | «exists» k => cases hw
            · rename_i ht
              rw [if_neg ht, ← h.writer, hc1] at h'
              cases h'
          · intro t' h'
            simp only [State.at] at h'
            split at h'
            · cases h'
            · rw [← h.readers, hc2] at h'; simp at h'
        · exact ⟨m, h⟩
      · rename_i hw
        have hw : op.writes = false := by simpa using hw
        split
        · rename_i hc
          refine ⟨m, h.valid, h.after, h.keys, ?_, ?_, ?_, fun hn => absurd hc hn, ?_, h.quiet, ?_, ?_⟩
          · intro t'
            simp only [State.at]
            by_cases ht : t' = t
            · subst ht; simp [Pc.holdsU, hc]
            · simp only [ht, ↓reduceIte]; exact h.writer t'
          · intro t'
            simp only [State.at, List.mem_cons]
            by_cases ht : t' = t
            · subst ht; simp [Pc.holdsS]
            · simp only [ht, ↓reduceIte, false_or]; exact h.readers t'
          · have hn : t ∉ s.readers := by rw [h.readers, nS]; simp
            exact List.nodup_cons.mpr ⟨hn, h.nodup⟩
          · intro t'
            simp only [State.at]
            split
            · exact ⟨(fun _ _ _ e => by cases e; exact hw), (fun _ _ e => by cases e)⟩
            · exact h.kind t'
          · intro t' h'
            simp only [State.at] at h' ⊢
            split
            · trivial
            · rename_i ht
              rw [if_neg ht] at h'
              exact h.part t' h'
          · intro t' h'
            simp only [State.at] at h' ⊢
            split
            · cases op <;> simp [Found]
            · rename_i ht
              rw [if_neg ht] at h'
              exact h.found t' h'
        · exact ⟨m, h⟩
    | shared op i acc =>
      have hS : (s.pc t).holdsS = true := by rw [hpc]; rfl
      have nU : (s.pc t).holdsU = false := by rw [hpc]; rfl
      have hnone : s.writer = none := by
        cases hw : s.writer with
        | none => rfl
        | some t' =>
          have := h.alone (t' := t) ((h.writer t').mp hw)
          rw [hS] at this; cases this
      have hq := h.quiet hnone
      have hfo := h.found t hS
      rw [hpc] at hfo
      cases op with
      | getMap =>
        simp only [Found] at hfo
        simp only
        cases he : s.mapping[i]? with
        | some e =>
          refine ⟨m, inv_local h (by rw [nU]; rfl) (by rw [hS]; rfl) ⟨(fun _ _ _ e => by cases e; rfl), (fun _ _ e => by cases e)⟩ (fun e => by cases e)
            (fun _ => ?_)⟩
          simp only [Found, hfo, List.take_add_one, he]
          rfl
        | none =>
          refine ⟨m, inv_local h (by rw [nU]; rfl) (by rw [hS]; rfl) ⟨(fun _ _ _ e => by cases e), (fun _ _ e => by cases e)⟩ (fun e => by cases e)
            (fun _ => ?_)⟩
          have : acc = s.mapping := by
            rw [hfo, List.take_of_length_le (by simpa using he)]
          refine ⟨acc, rfl, by rw [this]; exact h.keys, fun k v => ?_⟩
          rw [this, ← hq k]
          exact ⟨fun hm => mem_lookup h.keys hm, fun hm => lookup_mem hm⟩
      | getValue k =>
        refine ⟨m, inv_local h (by rw [nU]; rfl) (by rw [hS]; rfl) ⟨(fun _ _ _ e => by cases e), (fun _ _ e => by cases e)⟩ (fun e => by cases e)
          (fun _ => ?_)⟩
        simp only [Found, Spec.Allowed, hq]
      | «exists» k =>
        refine ⟨m, inv_local h (by rw [nU]; rfl) (by rw [hS]; rfl) ⟨(fun _ _ _ e => by cases e), (fun _ _ e => by cases e)⟩ (fun e => by cases e)
          (fun _ => ?_)⟩
        simp only [Found, Spec.Allowed, hq]
      | insert k v => exact ⟨m, h⟩
      | erase k => exact ⟨m, h⟩
      | clear => exact ⟨m, h⟩
    | unique op half =>
      have hU : (s.pc t).holdsU = true := by rw [hpc]; rfl
      have hpa := h.part t hU
      rw [hpc] at hpa
      cases op with
      | insert k v =>
        simp only
        cases half with
        | true =>
          simp only [Partial] at hpa
          simp only [↓reduceIte]
          refine ⟨m, inv_write h hU rfl rfl (by rw [keys_assign]; exact h.keys)
            ⟨(fun _ _ _ e => by cases e), (fun _ _ e => by cases e)⟩ ⟨rfl, fun k' => ?_⟩⟩
          rw [lookup_assign]
          simp only [Spec.apply]
          by_cases hk : k' = k
          · subst hk; simp [hpa.1]
          · simp [hk, hpa.2 k' hk]
        | false =>
          simp only [Partial] at hpa
          simp only [Bool.false_eq_true, ↓reduceIte]
          split
          · rename_i hs
            exact ⟨m, inv_local h (by rw [hU]; rfl) (by rw [h.alone hU]; rfl)
              ⟨(fun _ _ _ e => by cases e), (fun _ _ e => by cases e; rfl)⟩ (fun _ => ⟨hs, fun k' _ => hpa k'⟩) (fun e => by cases e)⟩
          · rename_i hs
            have hs : s.mapping.lookup k = none := by
              cases hl : s.mapping.lookup k with
              | none => rfl
              | some _ => exact absurd (by rw [hl]; rfl) hs
            refine ⟨m, inv_write h hU rfl rfl ?_ ⟨(fun _ _ _ e => by cases e), (fun _ _ e => by cases e; rfl)⟩ ⟨?_, ?_⟩⟩
            · rw [List.map_append, List.nodup_append]
              refine ⟨h.keys, by simp, ?_⟩
              intro a ha b hb
              simp at hb
              subst hb
              rintro rfl
              exact (lookup_none.mp hs) ha
            · rw [lookup_snoc]; simp [hs]
            · intro k' hk'
              rw [lookup_snoc]
              simp only [hk', ↓reduceIte]
              rw [← hpa k']
              cases s.mapping.lookup k' <;> simp
      | erase k =>
        simp only
        refine ⟨m, inv_write h hU rfl rfl ?_ ⟨(fun _ _ _ e => by cases e), (fun _ _ e => by cases e)⟩ ⟨rfl, fun k' => ?_⟩⟩
        · exact List.Nodup.sublist (List.Sublist.map _ List.filter_sublist) h.keys
        · rw [lookup_filter]
          simp only [Spec.apply]
          simp only [Partial] at hpa
          rw [hpa k']
      | clear =>
        simp only
        exact ⟨m, inv_write h hU rfl rfl (by simp) ⟨(fun _ _ _ e => by cases e), (fun _ _ e => by cases e)⟩ ⟨rfl, (fun k' => by simp [Spec.apply])⟩⟩
      | getMap => exact ⟨m, h⟩
      | getValue k => exact ⟨m, h⟩
      | «exists» k => exact ⟨m, h⟩
    | release op r =>
      simp only
      split
      · rename_i hw
        have hU : (s.pc t).holdsU = true := by rw [hpc]; exact hw
        have hpa := h.part t hU
        rw [hpc] at hpa
        obtain ⟨rfl, hpa⟩ := hpa
        refine ⟨Spec.apply m op, ?_, ?_, h.keys, ?_, ?_, h.nodup, ?_, ?_, fun _ => hpa, ?_, ?_⟩
        · rw [valid_append, h.after]
          refine ⟨h.valid, ?_, trivial⟩
          cases op <;> first | rfl | cases hw
        · rw [after_append, h.after]; rfl
        · intro t'
          simp only [State.at]
          by_cases ht : t' = t
          · subst ht; simp [Pc.holdsU]
          · simp only [ht, ↓reduceIte]
            constructor
            · intro e; cases e
            · intro e; exact absurd (h.one hU e) (fun e => ht e.symm)
        · intro t'
          simp only [State.at]
          by_cases ht : t' = t
          · subst ht; simp only [↓reduceIte]; rw [h.readers, h.alone hU]; simp [Pc.holdsS]
          · simp only [ht, ↓reduceIte]; exact h.readers t'
        · intro e; exact absurd rfl e
        · intro t'
          simp only [State.at]
          split
          · exact ⟨(fun _ _ _ e => by cases e), (fun _ _ e => by cases e)⟩
          · exact h.kind t'
        · intro t' h'
          simp only [State.at] at h' ⊢
          split
          · trivial
          · rename_i ht
            rw [if_neg ht] at h'
            exact absurd (h.one hU h') (fun e => ht e.symm)
        · intro t' h'
          simp only [State.at] at h'
          split at h'
          · cases h'
          · rw [h.alone hU] at h'; cases h'
      · rename_i hw
        have hw : op.writes = false := by simpa using hw
        have hS : (s.pc t).holdsS = true := by rw [hpc]; simp [Pc.holdsS, hw]
        have nU : (s.pc t).holdsU = false := by rw [hpc]; simp [Pc.holdsU, hw]
        have hfo := h.found t hS
        rw [hpc] at hfo
        simp only [Found] at hfo
        have happ : Spec.apply m op = m := by cases op <;> first | rfl | cases hw
        refine ⟨m, ?_, ?_, h.keys, ?_, ?_, h.nodup.erase t, ?_, ?_, h.quiet, ?_, ?_⟩
        · rw [valid_append, h.after]
          exact ⟨h.valid, hfo, trivial⟩
        · rw [after_append, h.after]; exact happ
        · intro t'
          simp only [State.at]
          by_cases ht : t' = t
          · subst ht; simp only [↓reduceIte]; rw [h.writer, nU]; simp [Pc.holdsU]
          · simp only [ht, ↓reduceIte]; exact h.writer t'
        · intro t'
          simp only [State.at]
          rw [h.nodup.mem_erase_iff]
          by_cases ht : t' = t
          · subst ht; simp [Pc.holdsS]
          · simp only [ht, ↓reduceIte, ne_eq, not_false_eq_true, true_and]; exact h.readers t'
        · intro e
          have := h.excl e
          simp [State.at, this]
        · intro t'
          simp only [State.at]
          split
          · exact ⟨(fun _ _ _ e => by cases e), (fun _ _ e => by cases e)⟩
          · exact h.kind t'
        · intro t' h'
          simp only [State.at] at h' ⊢
          split
          · trivial
          · rename_i ht
            rw [if_neg ht] at h'
            exact h.part t' h'
        · intro t' h'
          simp only [State.at] at h' ⊢
          split
          · rename_i ht; rw [if_pos ht] at h'; cases h'
          · rename_i ht
            rw [if_neg ht] at h'
            exact h.found t' h'

theorem inv_run {s : State K V} {m : K → Option V} (h : Inv s m) (acts : List (Act K V)) : ∃ m', Inv (run s acts) m' := by
  induction acts generalizing s m with
  | nil => exact ⟨m, h⟩
  | cons a as ih =>
    obtain ⟨m', h'⟩ := inv_step h a
    exact ih h'

end Scalopus.MapTracker
