import Verif.Spec.Interrupts

/-!
# C160: programs that are interrupted

An exception that a signal handler raises, as Ctrl-C does, should leave the sections of a Python program closed and its switch as it was. It does if the handler does not run inside of `__enter__` and `__exit__`. It is
false for one that runs after the call in `__enter__` or before the one in `__exit__`: the section stays open, the switch stays off. In programs without switchers every such handler leaves exactly one section open.
-/

namespace Scalopus.C160
open Scalopus.PyInterrupt Scalopus.Interrupts

/-- **C160** in full: whatever the program is and whenever handlers raise, the sections that it entered are left, and the switch is as before. -/
def Orderly : Prop := ∀ (p : Stmt) (s : State), ∃ l, (exec p s).1.events = s.events ++ l ∧ Closed l ∧ (exec p s).1.on = s.on

/-- `s'` is after `s`: these events were recorded, these handlers raised. -/
private def Ext (s s' : State) (l : List Event) (hs : List Hit) : Prop := s'.events = s.events ++ l ∧ s'.hits = s.hits ++ hs

private theorem Ext.trans {a b c : State} {l l' : List Event} {h h' : List Hit} (x : Ext a b l h) (y : Ext b c l' h') : Ext a c (l ++ l') (h ++ h') := by
  obtain ⟨x1, x2⟩ := x
  obtain ⟨y1, y2⟩ := y
  exact ⟨by rw [y1, x1, List.append_assoc], by rw [y2, x2, List.append_assoc]⟩

private theorem Ext.refl (s : State) : Ext s s [] [] := ⟨by simp, by simp⟩

private def made (on : Bool) (e : Event) : List Event := if on then [e] else []

private theorem emit_cases (s : State) (b a : Hit) (e : Event) :
    ∃ l hs, Ext s (call s b a (emit · e)).1 l hs ∧ (call s b a (emit · e)).1.on = s.on ∧
      ((l = [] ∧ hs = [b] ∧ (call s b a (emit · e)).2 = true) ∨ (l = made s.on e ∧ hs = [] ∧ (call s b a (emit · e)).2 = false) ∨ (l = made s.on e ∧ hs = [a] ∧ (call s b a (emit · e)).2 = true)) := by
  obtain ⟨on, ev, sg, hi⟩ := s
  unfold call
  match sg with
  | [] => cases on <;> simp [poll, emit, made, Ext]
  | true :: r => exact ⟨[], [b], by cases on <;> simp [poll, Ext]⟩
  | [false] => cases on <;> simp [poll, emit, made, Ext]
  | false :: true :: r => exact ⟨made on e, [a], by cases on <;> simp [poll, emit, made, Ext]⟩
  | false :: false :: r => cases on <;> simp [poll, emit, made, Ext]

private theorem set_cases (s : State) (b a : Hit) (v : Bool) :
    ∃ hs, Ext s (call s b a ({ · with on := v })).1 [] hs ∧
      ((hs = [b] ∧ (call s b a ({ · with on := v })).2 = true ∧ (call s b a ({ · with on := v })).1.on = s.on) ∨
        (hs = [] ∧ (call s b a ({ · with on := v })).2 = false ∧ (call s b a ({ · with on := v })).1.on = v) ∨
        (hs = [a] ∧ (call s b a ({ · with on := v })).2 = true ∧ (call s b a ({ · with on := v })).1.on = v)) := by
  obtain ⟨on, ev, sg, hi⟩ := s
  unfold call
  match sg with
  | [] => simp [poll, Ext]
  | true :: r => simp [poll, Ext]
  | [false] => simp [poll, Ext]
  | false :: true :: r => simp [poll, Ext]
  | false :: false :: r => simp [poll, Ext]

private theorem exec_seq (a b : Stmt) (s : State) : exec (.seq a b) s = if (exec a s).2 then ((exec a s).1, true) else exec b (exec a s).1 := by
  rw [exec]; rcases exec a s with ⟨s', _ | _⟩ <;> simp

private theorem exec_attempt (a b : Stmt) (s : State) : exec (.attempt a b) s = if (exec a s).2 then exec b (exec a s).1 else ((exec a s).1, false) := by
  rw [exec]; rcases exec a s with ⟨s', _ | _⟩ <;> simp

private theorem exec_trace (id : Nat) (b : Stmt) (s : State) : exec (.trace id b) s =
    if (enter s id).2 then ((enter s id).1, true) else ((leave (exec b (enter s id).1).1 id).1, (exec b (enter s id).1).2 || (leave (exec b (enter s id).1).1 id).2) := by
  rw [exec]; rcases enter s id with ⟨s', _ | _⟩ <;> simp

private theorem exec_off (b : Stmt) (s : State) : exec (.off b) s =
    if (switch s).2 then ((switch s).1, true) else ((restore (exec b (switch s).1).1 s.on).1, (exec b (switch s).1).2 || (restore (exec b (switch s).1).1 s.on).2) := by
  rw [exec]; rcases switch s with ⟨s', _ | _⟩ <;> simp

theorem nest_append (l l' : List Event) (st : List Nat) : nest st (l ++ l') = (nest st l).bind (nest · l') := by
  induction l generalizing st with
  | nil => simp [nest]
  | cons e l ih =>
    cases e with
    | mark id => simpa [nest] using ih st
    | entry id => simpa [nest] using ih (id :: st)
    | exit id =>
      cases st with
      | nil => simp [nest]
      | cons t st =>
        simp only [List.cons_append, nest]
        split
        · exact ih st
        · rfl

/-- Nothing is recorded while the switch is off, and no program switches it on. -/
theorem off_is_silent (p : Stmt) (s : State) (h : s.on = false) : (exec p s).1.events = s.events ∧ (exec p s).1.on = false := by
  have em : ∀ (s : State) (b a : Hit) (e : Event), s.on = false → (call s b a (emit · e)).1.events = s.events ∧ (call s b a (emit · e)).1.on = false := by
    intro s b a e h
    obtain ⟨l, hs, ⟨x1, -⟩, x3, x4⟩ := emit_cases s b a e
    have hl : l = [] := by
      rcases x4 with ⟨y, -⟩ | ⟨y, -⟩ | ⟨y, -⟩ <;> simp [y, made, h]
    exact ⟨by rw [x1, hl, List.append_nil], by rw [x3, h]⟩
  have st : ∀ (s : State) (b a : Hit), s.on = false → (call s b a ({ · with on := false })).1.events = s.events ∧ (call s b a ({ · with on := false })).1.on = false := by
    intro s b a h
    obtain ⟨hs, ⟨x1, -⟩, x4⟩ := set_cases s b a false
    refine ⟨by rw [x1, List.append_nil], ?_⟩
    rcases x4 with ⟨-, -, y⟩ | ⟨-, -, y⟩ | ⟨-, -, y⟩
    · rw [y, h]
    · exact y
    · exact y
  induction p generalizing s with
  | skip => exact ⟨rfl, h⟩
  | raise => exact ⟨rfl, h⟩
  | mark id => exact em s _ _ _ h
  | seq a b iha ihb =>
    rw [exec_seq]
    have ha := iha s h
    split
    · exact ha
    · have hb := ihb _ ha.2
      exact ⟨by rw [hb.1, ha.1], hb.2⟩
  | attempt a b iha ihb =>
    rw [exec_attempt]
    have ha := iha s h
    split
    · have hb := ihb _ ha.2
      exact ⟨by rw [hb.1, ha.1], hb.2⟩
    · exact ha
  | trace id b ih =>
    rw [exec_trace]
    have he : (enter s id).1.events = s.events ∧ (enter s id).1.on = false := em s _ _ _ h
    split
    · exact he
    · have hb := ih _ he.2
      have hl : (leave (exec b (enter s id).1).1 id).1.events = (exec b (enter s id).1).1.events ∧ (leave (exec b (enter s id).1).1 id).1.on = false := em _ _ _ _ hb.2
      exact ⟨by rw [hl.1, hb.1, he.1], hl.2⟩
  | off b ih =>
    rw [exec_off]
    have he : (switch s).1.events = s.events ∧ (switch s).1.on = false := st s _ _ h
    split
    · exact he
    · have hb := ih _ he.2
      have hl : (restore (exec b (switch s).1).1 s.on).1.events = (exec b (switch s).1).1.events ∧ (restore (exec b (switch s).1).1 s.on).1.on = false := by
        rw [h]; exact st _ _ _ hb.2
      exact ⟨by rw [hl.1, hb.1, he.1], hl.2⟩

/-- Handlers make a program lose events, never a switch that was off go on. -/
theorem never_switched_on (p : Stmt) (s : State) (h : (exec p s).1.on = true) : s.on = true := by
  cases hs : s.on with
  | true => rfl
  | false => rw [(off_is_silent p s hs).2] at h; cases h

private theorem harmless_mem {hs hs' : List Hit} (h : ∀ x ∈ hs ++ hs', ¬ Harmful x) : (∀ x ∈ hs, ¬ Harmful x) ∧ ∀ x ∈ hs', ¬ Harmful x :=
  ⟨fun x hx => h x (List.mem_append_left _ hx), fun x hx => h x (List.mem_append_right _ hx)⟩

private theorem nest_made_mark (on : Bool) (id : Nat) (st : List Nat) : nest st (made on (.mark id)) = some st := by
  cases on <;> simp [made, nest]

private theorem orderly_aux (p : Stmt) (s : State) : ∃ l hs, Ext s (exec p s).1 l hs ∧ ((∀ h ∈ hs, ¬ Harmful h) → (∀ st, nest st l = some st) ∧ (exec p s).1.on = s.on) := by
  induction p generalizing s with
  | skip => exact ⟨[], [], Ext.refl s, fun _ => ⟨fun _ => rfl, rfl⟩⟩
  | raise => exact ⟨[], [], Ext.refl s, fun _ => ⟨fun _ => rfl, rfl⟩⟩
  | mark id =>
    obtain ⟨l, hs, x1, x2, x3⟩ := emit_cases s ⟨.body, none⟩ ⟨.body, none⟩ (.mark id)
    refine ⟨l, hs, x1, fun _ => ⟨fun st => ?_, x2⟩⟩
    rcases x3 with ⟨y, -⟩ | ⟨y, -⟩ | ⟨y, -⟩ <;> rw [y]
    · rfl
    · exact nest_made_mark _ _ _
    · exact nest_made_mark _ _ _
  | seq a b iha ihb =>
    rw [exec_seq]
    obtain ⟨l, hs, xa, ya⟩ := iha s
    split
    · exact ⟨l, hs, xa, ya⟩
    · obtain ⟨l', hs', xb, yb⟩ := ihb (exec a s).1
      refine ⟨_, _, xa.trans xb, fun h => ?_⟩
      obtain ⟨h1, h2⟩ := harmless_mem h
      exact ⟨fun st => by rw [nest_append, (ya h1).1, Option.bind_some, (yb h2).1], by rw [(yb h2).2, (ya h1).2]⟩
  | attempt a b iha ihb =>
    rw [exec_attempt]
    obtain ⟨l, hs, xa, ya⟩ := iha s
    split
    · obtain ⟨l', hs', xb, yb⟩ := ihb (exec a s).1
      refine ⟨_, _, xa.trans xb, fun h => ?_⟩
      obtain ⟨h1, h2⟩ := harmless_mem h
      exact ⟨fun st => by rw [nest_append, (ya h1).1, Option.bind_some, (yb h2).1], by rw [(yb h2).2, (ya h1).2]⟩
    · exact ⟨l, hs, xa, ya⟩
  | trace id b ih =>
    rw [exec_trace]
    obtain ⟨l, hs, x1, x2, x3⟩ : ∃ l hs, Ext s (enter s id).1 l hs ∧ (enter s id).1.on = s.on ∧
        ((l = [] ∧ hs = [⟨.entering, some id⟩] ∧ (enter s id).2 = true) ∨ (l = made s.on (.entry id) ∧ hs = [] ∧ (enter s id).2 = false) ∨
          (l = made s.on (.entry id) ∧ hs = [⟨.entered, some id⟩] ∧ (enter s id).2 = true)) := emit_cases s _ _ _
    rcases x3 with ⟨y1, y2, y3⟩ | ⟨y1, y2, y3⟩ | ⟨y1, y2, y3⟩
    · rw [if_pos y3]
      exact ⟨l, hs, x1, fun _ => ⟨fun st => by rw [y1]; rfl, x2⟩⟩
    · rw [if_neg (by simp [y3])]
      obtain ⟨lb, hb, xb, yb⟩ := ih (enter s id).1
      obtain ⟨ll, hl, z1, z2, z3⟩ : ∃ l hs, Ext (exec b (enter s id).1).1 (leave (exec b (enter s id).1).1 id).1 l hs ∧ (leave (exec b (enter s id).1).1 id).1.on = (exec b (enter s id).1).1.on ∧
        ((l = [] ∧ hs = [⟨.leaving, some id⟩] ∧ (leave (exec b (enter s id).1).1 id).2 = true) ∨ (l = made (exec b (enter s id).1).1.on (.exit id) ∧ hs = [] ∧ (leave (exec b (enter s id).1).1 id).2 = false) ∨
          (l = made (exec b (enter s id).1).1.on (.exit id) ∧ hs = [⟨.left, some id⟩] ∧ (leave (exec b (enter s id).1).1 id).2 = true)) := emit_cases _ _ _ _
      refine ⟨_, _, (x1.trans xb).trans z1, fun h => ?_⟩
      obtain ⟨h1, h2⟩ := harmless_mem h
      have h3 := (harmless_mem h1).2
      obtain ⟨n1, n2⟩ := yb h3
      have hon : (exec b (enter s id).1).1.on = s.on := by rw [n2, x2]
      refine ⟨fun st => ?_, by rw [z2, hon]⟩
      have hll : ll = made s.on (.exit id) := by
        rcases z3 with ⟨w1, w2, -⟩ | ⟨w1, -⟩ | ⟨w1, -⟩
        · exact absurd (Or.inr rfl) (h2 ⟨.leaving, some id⟩ (by rw [w2]; exact List.mem_singleton.2 rfl))
        · rw [w1, hon]
        · rw [w1, hon]
      rw [nest_append, nest_append, y1, hll]
      cases s.on with
      | true =>
        have : nest st (made true (.entry id)) = some (id :: st) := rfl
        rw [this, Option.bind_some, n1, Option.bind_some]
        simp [made, nest]
      | false =>
        have : nest st (made false (.entry id)) = some st := rfl
        rw [this, Option.bind_some, n1, Option.bind_some]
        rfl
    · rw [if_pos y3]
      refine ⟨l, hs, x1, fun h => ?_⟩
      exact absurd (Or.inl rfl) (h ⟨.entered, some id⟩ (by rw [y2]; exact List.mem_singleton.2 rfl))
  | off b ih =>
    rw [exec_off]
    obtain ⟨hs, x1, x3⟩ : ∃ hs, Ext s (switch s).1 [] hs ∧ ((hs = [⟨.entering, none⟩] ∧ (switch s).2 = true ∧ (switch s).1.on = s.on) ∨ (hs = [] ∧ (switch s).2 = false ∧ (switch s).1.on = false) ∨
        (hs = [⟨.entered, none⟩] ∧ (switch s).2 = true ∧ (switch s).1.on = false)) := set_cases s _ _ _
    rcases x3 with ⟨y1, y2, y3⟩ | ⟨y1, y2, y3⟩ | ⟨y1, y2, y3⟩
    · rw [if_pos y2]
      exact ⟨[], hs, x1, fun _ => ⟨fun st => rfl, y3⟩⟩
    · rw [if_neg (by simp [y2])]
      obtain ⟨lb, hb, xb, yb⟩ := ih (switch s).1
      obtain ⟨hl, z1, z3⟩ : ∃ hs, Ext (exec b (switch s).1).1 (restore (exec b (switch s).1).1 s.on).1 [] hs ∧
        ((hs = [⟨.leaving, none⟩] ∧ (restore (exec b (switch s).1).1 s.on).2 = true ∧ (restore (exec b (switch s).1).1 s.on).1.on = (exec b (switch s).1).1.on) ∨
          (hs = [] ∧ (restore (exec b (switch s).1).1 s.on).2 = false ∧ (restore (exec b (switch s).1).1 s.on).1.on = s.on) ∨
          (hs = [⟨.left, none⟩] ∧ (restore (exec b (switch s).1).1 s.on).2 = true ∧ (restore (exec b (switch s).1).1 s.on).1.on = s.on)) := set_cases _ _ _ _
      refine ⟨_, _, (x1.trans xb).trans z1, fun h => ?_⟩
      obtain ⟨h1, h2⟩ := harmless_mem h
      obtain ⟨n1, n2⟩ := yb (harmless_mem h1).2
      refine ⟨fun st => by simpa using n1 st, ?_⟩
      rcases z3 with ⟨w1, -⟩ | ⟨-, -, w⟩ | ⟨-, -, w⟩
      · exact absurd (Or.inr rfl) (h2 ⟨.leaving, none⟩ (by rw [w1]; exact List.mem_singleton.2 rfl))
      · exact w
      · exact w
    · rw [if_pos y2]
      refine ⟨[], hs, x1, fun h => ?_⟩
      exact absurd (Or.inl rfl) (h ⟨.entered, none⟩ (by rw [y1]; exact List.mem_singleton.2 rfl))

/-- **C160, partial.** It holds if no handler raises after the call in an `__enter__` or before the one in an `__exit__`, whatever else happens and how often. Missing: handlers that do. -/
theorem orderly_partial (p : Stmt) (s : State) :
    ∃ l hs, (exec p s).1.events = s.events ++ l ∧ (exec p s).1.hits = s.hits ++ hs ∧ ((∀ h ∈ hs, ¬ Harmful h) → Closed l ∧ (exec p s).1.on = s.on) := by
  obtain ⟨l, hs, x, y⟩ := orderly_aux p s
  exact ⟨l, hs, x.1, x.2, fun h => ⟨(y h).1 [], (y h).2⟩⟩

private theorem harmed_append (id : Nat) (a b : List Hit) : harmed id (a ++ b) = harmed id a + harmed id b := by simp [harmed]

/-- **C160 fails, exactly so often:** in a program without switchers, each section lacks as many exits as handlers raised in its methods after it was entered and before it was left. -/
theorem each_leaves_one_open (p : Stmt) (s : State) (hp : NoSwitch p) (hon : s.on = true) :
    ∃ l hs, (exec p s).1.events = s.events ++ l ∧ (exec p s).1.hits = s.hits ++ hs ∧ (exec p s).1.on = true ∧ ∀ id, l.count (.entry id) = l.count (.exit id) + harmed id hs := by
  suffices h : ∃ l hs, Ext s (exec p s).1 l hs ∧ (exec p s).1.on = true ∧ ∀ id, l.count (.entry id) = l.count (.exit id) + harmed id hs by
    obtain ⟨l, hs, x, y, z⟩ := h
    exact ⟨l, hs, x.1, x.2, y, z⟩
  have add : ∀ (l l' : List Event) (hs hs' : List Hit), (∀ id, l.count (.entry id) = l.count (.exit id) + harmed id hs) → (∀ id, l'.count (.entry id) = l'.count (.exit id) + harmed id hs') →
      ∀ id, (l ++ l').count (.entry id) = (l ++ l').count (.exit id) + harmed id (hs ++ hs') := by
    intro l l' hs hs' h h' id
    rw [List.count_append, List.count_append, harmed_append, h id, h' id]
    omega
  induction p generalizing s with
  | skip => exact ⟨[], [], Ext.refl s, hon, fun _ => rfl⟩
  | raise => exact ⟨[], [], Ext.refl s, hon, fun _ => rfl⟩
  | mark id =>
    obtain ⟨l, hs, x1, x2, x3⟩ := emit_cases s ⟨.body, none⟩ ⟨.body, none⟩ (.mark id)
    refine ⟨l, hs, x1, by rw [← hon]; exact x2, fun j => ?_⟩
    rcases x3 with ⟨y, z, -⟩ | ⟨y, z, -⟩ | ⟨y, z, -⟩ <;> rw [y, z] <;> simp [made, hon, harmed, Harmful]
  | seq a b iha ihb =>
    rw [exec_seq]
    obtain ⟨l, hs, xa, ya, za⟩ := iha s hp.1 hon
    split
    · exact ⟨l, hs, xa, ya, za⟩
    · obtain ⟨l', hs', xb, yb, zb⟩ := ihb (exec a s).1 hp.2 ya
      exact ⟨_, _, xa.trans xb, yb, add _ _ _ _ za zb⟩
  | attempt a b iha ihb =>
    rw [exec_attempt]
    obtain ⟨l, hs, xa, ya, za⟩ := iha s hp.1 hon
    split
    · obtain ⟨l', hs', xb, yb, zb⟩ := ihb (exec a s).1 hp.2 ya
      exact ⟨_, _, xa.trans xb, yb, add _ _ _ _ za zb⟩
    · exact ⟨l, hs, xa, ya, za⟩
  | off b ih => exact hp.elim
  | trace id b ih =>
    rw [exec_trace]
    obtain ⟨l, hs, x1, x2, x3⟩ : ∃ l hs, Ext s (enter s id).1 l hs ∧ (enter s id).1.on = s.on ∧
        ((l = [] ∧ hs = [⟨.entering, some id⟩] ∧ (enter s id).2 = true) ∨ (l = made s.on (.entry id) ∧ hs = [] ∧ (enter s id).2 = false) ∨
          (l = made s.on (.entry id) ∧ hs = [⟨.entered, some id⟩] ∧ (enter s id).2 = true)) := emit_cases s _ _ _
    rw [hon] at x2 x3
    rcases x3 with ⟨y1, y2, y3⟩ | ⟨y1, y2, y3⟩ | ⟨y1, y2, y3⟩
    · rw [if_pos y3]
      exact ⟨l, hs, x1, x2, fun j => by rw [y1, y2]; simp [harmed, Harmful]⟩
    · rw [if_neg (by simp [y3])]
      obtain ⟨lb, hb, xb, yb, zb⟩ := ih (enter s id).1 hp x2
      obtain ⟨ll, hl, z1, z2, z3⟩ : ∃ l hs, Ext (exec b (enter s id).1).1 (leave (exec b (enter s id).1).1 id).1 l hs ∧ (leave (exec b (enter s id).1).1 id).1.on = (exec b (enter s id).1).1.on ∧
        ((l = [] ∧ hs = [⟨.leaving, some id⟩] ∧ (leave (exec b (enter s id).1).1 id).2 = true) ∨ (l = made (exec b (enter s id).1).1.on (.exit id) ∧ hs = [] ∧ (leave (exec b (enter s id).1).1 id).2 = false) ∨
          (l = made (exec b (enter s id).1).1.on (.exit id) ∧ hs = [⟨.left, some id⟩] ∧ (leave (exec b (enter s id).1).1 id).2 = true)) := emit_cases _ _ _ _
      rw [yb] at z2 z3
      refine ⟨_, _, (x1.trans xb).trans z1, z2, fun j => ?_⟩
      have hj := zb j
      simp only [List.count_append, harmed_append, y1, y2]
      rcases z3 with ⟨w1, w2, -⟩ | ⟨w1, w2, -⟩ | ⟨w1, w2, -⟩ <;> rw [w1, w2] <;> by_cases hij : id = j <;>
        simp [made, harmed, Harmful, hij, List.count_cons] at hj ⊢ <;> omega
    · rw [if_pos y3]
      refine ⟨l, hs, x1, x2, fun j => ?_⟩
      rw [y1, y2]
      by_cases hij : id = j <;> simp [made, harmed, Harmful, hij, List.count_cons]

private theorem closed_counts (l : List Event) (st st' : List Nat) (h : nest st l = some st') (id : Nat) : l.count (.entry id) + st.count id = l.count (.exit id) + st'.count id := by
  induction l generalizing st with
  | nil => simp [nest] at h; simp [h]
  | cons e l ih =>
    cases e with
    | mark j => simpa [nest] using ih st (by simpa [nest] using h)
    | entry j =>
      have := ih (j :: st) (by simpa [nest] using h)
      by_cases hj : j = id <;> simp [hj, List.count_cons] at this ⊢ <;> omega
    | exit j =>
      cases st with
      | nil => simp [nest] at h
      | cons t st =>
        simp only [nest] at h
        split at h
        · rename_i htj
          have := ih st h
          by_cases hj : j = id <;> simp [htj, hj, List.count_cons] at this ⊢ <;> omega
        · cases h

private theorem harm_has_section (p : Stmt) (s : State) (hp : NoSwitch p) (hs : List Hit) (h : (exec p s).1.hits = s.hits ++ hs) : ∀ k ∈ hs, Harmful k → ∃ id, k.section? = some id := by
  suffices hx : ∃ hs, (exec p s).1.hits = s.hits ++ hs ∧ ∀ k ∈ hs, Harmful k → ∃ id, k.section? = some id by
    obtain ⟨hs', x, y⟩ := hx
    rw [h] at x
    rw [List.append_cancel_left x]
    exact y
  clear h hs
  have app : ∀ (a b : List Hit), (∀ k ∈ a, Harmful k → ∃ id, k.section? = some id) → (∀ k ∈ b, Harmful k → ∃ id, k.section? = some id) → ∀ k ∈ a ++ b, Harmful k → ∃ id, k.section? = some id := by
    intro a b ha hb k hk
    rcases List.mem_append.1 hk with hk | hk
    · exact ha k hk
    · exact hb k hk
  have em : ∀ (s : State) (b a : Hit) (e : Event), (∀ k, k = b ∨ k = a → Harmful k → ∃ id, k.section? = some id) →
      ∃ hs, (call s b a (emit · e)).1.hits = s.hits ++ hs ∧ ∀ k ∈ hs, Harmful k → ∃ id, k.section? = some id := by
    intro s b a e hk
    obtain ⟨l, hs, ⟨-, x⟩, -, y⟩ := emit_cases s b a e
    refine ⟨hs, x, fun k hm => hk k ?_⟩
    rcases y with ⟨-, y, -⟩ | ⟨-, y, -⟩ | ⟨-, y, -⟩ <;> rw [y] at hm
    · exact .inl (List.mem_singleton.1 hm)
    · cases hm
    · exact .inr (List.mem_singleton.1 hm)
  induction p generalizing s with
  | skip => exact ⟨[], by simp [exec], by simp⟩
  | raise => exact ⟨[], by simp [exec], by simp⟩
  | mark id => exact em s _ _ _ (by rintro k (rfl | rfl) <;> simp [Harmful])
  | seq a b iha ihb =>
    rw [exec_seq]
    obtain ⟨hs, xa, ya⟩ := iha s hp.1
    split
    · exact ⟨hs, xa, ya⟩
    · obtain ⟨hs', xb, yb⟩ := ihb (exec a s).1 hp.2
      exact ⟨hs ++ hs', by rw [xb, xa, List.append_assoc], app _ _ ya yb⟩
  | attempt a b iha ihb =>
    rw [exec_attempt]
    obtain ⟨hs, xa, ya⟩ := iha s hp.1
    split
    · obtain ⟨hs', xb, yb⟩ := ihb (exec a s).1 hp.2
      exact ⟨hs ++ hs', by rw [xb, xa, List.append_assoc], app _ _ ya yb⟩
    · exact ⟨hs, xa, ya⟩
  | off b ih => exact hp.elim
  | trace id b ih =>
    rw [exec_trace]
    obtain ⟨hs, xe, ye⟩ : ∃ hs, (enter s id).1.hits = s.hits ++ hs ∧ ∀ k ∈ hs, Harmful k → ∃ id, k.section? = some id := em s _ _ _ (by rintro k (rfl | rfl) _ <;> exact ⟨id, rfl⟩)
    split
    · exact ⟨hs, xe, ye⟩
    · obtain ⟨hb, xb, yb⟩ := ih (enter s id).1 hp
      obtain ⟨hl, xl, yl⟩ : ∃ hs, (leave (exec b (enter s id).1).1 id).1.hits = (exec b (enter s id).1).1.hits ++ hs ∧ ∀ k ∈ hs, Harmful k → ∃ id, k.section? = some id :=
        em _ _ _ _ (by rintro k (rfl | rfl) _ <;> exact ⟨id, rfl⟩)
      exact ⟨hs ++ hb ++ hl, by rw [xl, xb, xe]; simp, app _ _ (app _ _ ye yb) yl⟩

/-- Exactly when the sections of a program without switchers are closed: if no handler raised in a section's methods after it was entered and before it was left. -/
theorem closed_iff (p : Stmt) (s : State) (hp : NoSwitch p) (hon : s.on = true) :
    ∃ l hs, (exec p s).1.events = s.events ++ l ∧ (exec p s).1.hits = s.hits ++ hs ∧ (Closed l ↔ ∀ id, harmed id hs = 0) := by
  obtain ⟨l, hs, x, y, -, z⟩ := each_leaves_one_open p s hp hon
  refine ⟨l, hs, x, y, fun h id => ?_, fun h => ?_⟩
  · have := closed_counts l [] [] h id
    have := z id
    simp at *
    omega
  · obtain ⟨l', hs', ⟨x', y'⟩, z'⟩ := orderly_aux p s
    have hl : l' = l := by rw [x] at x'; exact (List.append_cancel_left x').symm
    have hh : hs' = hs := by rw [y] at y'; exact (List.append_cancel_left y').symm
    subst hl hh
    refine (z' fun k hk hb => ?_).1 []
    have noSec : ∀ k ∈ hs', Harmful k → ∃ id, k.section? = some id := by
      intro k hk hb
      exact harm_has_section p s hp hs' y k hk hb
    obtain ⟨id, hid⟩ := noSec k hk hb
    have h0 := h id
    rw [harmed, List.countP_eq_zero] at h0
    exact h0 k hk (by simp [hb, hid])

private theorem noSwitch_on (p : Stmt) (s : State) (hp : NoSwitch p) : (exec p s).1.on = s.on := by
  cases h : s.on with
  | false => exact (off_is_silent p s h).2
  | true =>
    obtain ⟨-, -, -, -, x, -⟩ := each_leaves_one_open p s hp h
    exact x

/-- Exactly when the switch is as before, in programs without switchers inside of switchers: if no handler raised in a switcher's methods after it had switched off and before it switched back. -/
theorem restored_iff (p : Stmt) (s : State) (hp : Flat p) (hon : s.on = true) :
    ∃ hs, (exec p s).1.hits = s.hits ++ hs ∧ ((exec p s).1.on = true ↔ ∀ h ∈ hs, Harmful h → h.section? ≠ none) := by
  have both : ∀ (a b : State × Bool) (hs hs' : List Hit), (a.1.on = true ↔ ∀ h ∈ hs, Harmful h → h.section? ≠ none) → (a.1.on = true → (b.1.on = true ↔ ∀ h ∈ hs', Harmful h → h.section? ≠ none)) →
      (a.1.on = false → b.1.on = false) → (b.1.on = true ↔ ∀ h ∈ hs ++ hs', Harmful h → h.section? ≠ none) := by
    intro a b hs hs' h1 h2 h3
    constructor
    · intro hb
      have ha : a.1.on = true := by
        cases h : a.1.on with
        | true => rfl
        | false => rw [h3 h] at hb; cases hb
      intro h hm
      rcases List.mem_append.1 hm with hm | hm
      · exact h1.1 ha h hm
      · exact (h2 ha).1 hb h hm
    · intro hh
      have ha := h1.2 fun h hm => hh h (List.mem_append_left _ hm)
      exact (h2 ha).2 fun h hm => hh h (List.mem_append_right _ hm)
  have em : ∀ (s : State) (b a : Hit) (e : Event), s.on = true → (∀ k, k = b ∨ k = a → Harmful k → k.section? ≠ none) →
      ∃ hs, (call s b a (emit · e)).1.hits = s.hits ++ hs ∧ (call s b a (emit · e)).1.on = true ∧ ∀ k ∈ hs, Harmful k → k.section? ≠ none := by
    intro s b a e h hk
    obtain ⟨l, hs, ⟨-, x⟩, xo, y⟩ := emit_cases s b a e
    refine ⟨hs, x, by rw [xo, h], fun k hm => hk k ?_⟩
    rcases y with ⟨-, y, -⟩ | ⟨-, y, -⟩ | ⟨-, y, -⟩ <;> rw [y] at hm
    · exact .inl (List.mem_singleton.1 hm)
    · cases hm
    · exact .inr (List.mem_singleton.1 hm)
  induction p generalizing s with
  | skip => exact ⟨[], by simp [exec], by simp [exec, hon]⟩
  | raise => exact ⟨[], by simp [exec], by simp [exec, hon]⟩
  | mark id =>
    obtain ⟨hs, x, y, z⟩ := em s ⟨.body, none⟩ ⟨.body, none⟩ (.mark id) hon (by rintro k (rfl | rfl) <;> simp [Harmful])
    exact ⟨hs, x, iff_of_true y z⟩
  | seq a b iha ihb =>
    rw [exec_seq]
    obtain ⟨hs, xa, ya⟩ := iha s hp.1 hon
    split
    · exact ⟨hs, xa, ya⟩
    · cases ha : (exec a s).1.on with
      | true =>
        obtain ⟨hs', xb, yb⟩ := ihb (exec a s).1 hp.2 ha
        exact ⟨hs ++ hs', by rw [xb, xa, List.append_assoc], both (exec a s) _ _ _ ya (fun _ => yb) (fun h => by rw [ha] at h; cases h)⟩
      | false =>
        obtain ⟨-, hs', ⟨-, xb⟩, -⟩ := orderly_aux b (exec a s).1
        exact ⟨hs ++ hs', by rw [xb, xa, List.append_assoc], both (exec a s) _ _ _ ya (fun h => by rw [ha] at h; cases h) (fun h => (off_is_silent b _ h).2)⟩
  | attempt a b iha ihb =>
    rw [exec_attempt]
    obtain ⟨hs, xa, ya⟩ := iha s hp.1 hon
    split
    · cases ha : (exec a s).1.on with
      | true =>
        obtain ⟨hs', xb, yb⟩ := ihb (exec a s).1 hp.2 ha
        exact ⟨hs ++ hs', by rw [xb, xa, List.append_assoc], both (exec a s) _ _ _ ya (fun _ => yb) (fun h => by rw [ha] at h; cases h)⟩
      | false =>
        obtain ⟨-, hs', ⟨-, xb⟩, -⟩ := orderly_aux b (exec a s).1
        exact ⟨hs ++ hs', by rw [xb, xa, List.append_assoc], both (exec a s) _ _ _ ya (fun h => by rw [ha] at h; cases h) (fun h => (off_is_silent b _ h).2)⟩
    · exact ⟨hs, xa, ya⟩
  | trace id b ih =>
    rw [exec_trace]
    obtain ⟨hs, xe, oe, ye⟩ : ∃ hs, (enter s id).1.hits = s.hits ++ hs ∧ (enter s id).1.on = true ∧ ∀ k ∈ hs, Harmful k → k.section? ≠ none := em s _ _ _ hon (by rintro k (rfl | rfl) _ <;> simp)
    split
    · exact ⟨hs, xe, iff_of_true oe ye⟩
    · obtain ⟨hb, xb, yb⟩ := ih (enter s id).1 hp oe
      obtain ⟨l, hl, ⟨-, xl⟩, ol, zl⟩ : ∃ l hs, Ext (exec b (enter s id).1).1 (leave (exec b (enter s id).1).1 id).1 l hs ∧ (leave (exec b (enter s id).1).1 id).1.on = (exec b (enter s id).1).1.on ∧
        ((l = [] ∧ hs = [⟨.leaving, some id⟩] ∧ (leave (exec b (enter s id).1).1 id).2 = true) ∨ (l = made (exec b (enter s id).1).1.on (.exit id) ∧ hs = [] ∧ (leave (exec b (enter s id).1).1 id).2 = false) ∨
          (l = made (exec b (enter s id).1).1.on (.exit id) ∧ hs = [⟨.left, some id⟩] ∧ (leave (exec b (enter s id).1).1 id).2 = true)) := emit_cases _ _ _ _
      have yl : ∀ k ∈ hl, Harmful k → k.section? ≠ none := by
        rcases zl with ⟨-, y, -⟩ | ⟨-, y, -⟩ | ⟨-, y, -⟩ <;> rw [y] <;> simp
      refine ⟨hs ++ hb ++ hl, by rw [xl, xb, xe]; simp, ?_⟩
      show (leave (exec b (enter s id).1).1 id).1.on = true ↔ _
      rw [ol, yb]
      constructor
      · intro h k hk
        rcases List.mem_append.1 hk with hk | hk
        · rcases List.mem_append.1 hk with hk | hk
          · exact ye k hk
          · exact h k hk
        · exact yl k hk
      · intro h k hk
        exact h k (List.mem_append_left _ (List.mem_append_right _ hk))
  | off b _ =>
    rw [exec_off]
    obtain ⟨hs, ⟨-, x1⟩, x3⟩ : ∃ hs, Ext s (switch s).1 [] hs ∧ ((hs = [⟨.entering, none⟩] ∧ (switch s).2 = true ∧ (switch s).1.on = s.on) ∨ (hs = [] ∧ (switch s).2 = false ∧ (switch s).1.on = false) ∨
        (hs = [⟨.entered, none⟩] ∧ (switch s).2 = true ∧ (switch s).1.on = false)) := set_cases s _ _ _
    rcases x3 with ⟨y1, y2, y3⟩ | ⟨y1, y2, y3⟩ | ⟨y1, y2, y3⟩
    · rw [if_pos y2]
      refine ⟨hs, x1, iff_of_true (by rw [← hon]; exact y3) ?_⟩
      rw [y1]; simp [Harmful]
    · rw [if_neg (by simp [y2])]
      obtain ⟨-, hb, ⟨-, xb⟩, -⟩ := orderly_aux b (switch s).1
      have yb := harm_has_section b (switch s).1 hp hb xb
      have ob : (exec b (switch s).1).1.on = false := by rw [noSwitch_on b _ hp, y3]
      obtain ⟨hl, ⟨-, z1⟩, z3⟩ : ∃ hs, Ext (exec b (switch s).1).1 (restore (exec b (switch s).1).1 s.on).1 [] hs ∧
        ((hs = [⟨.leaving, none⟩] ∧ (restore (exec b (switch s).1).1 s.on).2 = true ∧ (restore (exec b (switch s).1).1 s.on).1.on = (exec b (switch s).1).1.on) ∨
          (hs = [] ∧ (restore (exec b (switch s).1).1 s.on).2 = false ∧ (restore (exec b (switch s).1).1 s.on).1.on = s.on) ∨
          (hs = [⟨.left, none⟩] ∧ (restore (exec b (switch s).1).1 s.on).2 = true ∧ (restore (exec b (switch s).1).1 s.on).1.on = s.on)) := set_cases _ _ _ _
      refine ⟨hs ++ hb ++ hl, by rw [z1, xb, x1]; simp, ?_⟩
      show (restore (exec b (switch s).1).1 s.on).1.on = true ↔ _
      have hbn : ∀ h ∈ hb, Harmful h → h.section? ≠ none := by
        intro h hm hh hn
        obtain ⟨id, hid⟩ := yb h hm hh
        rw [hn] at hid; cases hid
      rcases z3 with ⟨w1, -, w3⟩ | ⟨w1, -, w3⟩ | ⟨w1, -, w3⟩
      · rw [w3, ob, w1]
        refine iff_of_false (by simp) fun h => ?_
        exact h ⟨.leaving, none⟩ (List.mem_append_right _ (List.mem_singleton.2 rfl)) (.inr rfl) rfl
      · rw [w3, hon, w1, y1]
        refine iff_of_true rfl ?_
        simpa using hbn
      · rw [w3, hon, w1, y1]
        refine iff_of_true rfl fun h hm => ?_
        rcases List.mem_append.1 hm with hm | hm
        · exact hbn h (by simpa using hm)
        · rw [List.mem_singleton.1 hm]; simp [Harmful]
    · rw [if_pos y2]
      refine ⟨hs, x1, iff_of_false (by simp [y3]) fun h => ?_⟩
      exact h ⟨.entered, none⟩ (by rw [y1]; exact List.mem_singleton.2 rfl) (.inl rfl) rfl

/-- **C160 fails, every time:** whatever was recorded before and whatever the section contains, a handler that raises as soon as the section is entered leaves it open: its body does not run and no exit is recorded. -/
theorem entered_stays_open (id : Nat) (b : Stmt) (s : State) (r : List Bool) (hon : s.on = true) (hs : s.signals = false :: true :: r) :
    (exec (.trace id b) s).1.events = s.events ++ [.entry id] ∧ (exec (.trace id b) s).2 = true ∧ (exec (.trace id b) s).1.on = true := by
  simp [exec, enter, call, poll, hs, emit, hon]

/-- **C160 fails, every time:** a handler that raises as soon as a switcher has switched off leaves the thread off, and then nothing of any program that the thread runs afterwards is recorded, handlers or not. -/
theorem switched_off_for_good (b q : Stmt) (s : State) (r : List Bool) (hs : s.signals = false :: true :: r) :
    (exec (.off b) s).1.on = false ∧ (exec (.off b) s).2 = true ∧ (exec (.attempt (.off b) q) s).1.events = s.events ∧ (exec (.attempt (.off b) q) s).1.on = false := by
  have h1 : exec (.off b) s = ({ s with on := false, signals := r, hits := s.hits ++ [⟨.entered, none⟩] }, true) := by
    simp [exec, switch, call, poll, hs]
  rw [exec_attempt, h1]
  have := off_is_silent q { s with on := false, signals := r, hits := s.hits ++ [⟨.entered, none⟩] } rfl
  exact ⟨rfl, rfl, this.1, this.2⟩

/-- No handler raises for the first `n` points that a program has. -/
private theorem quiet (p : Stmt) (on : Bool) : ∃ n r, ∀ (s : State) (rest : List Bool), s.on = on → s.signals = List.replicate n false ++ rest →
    (exec p s).1.signals = rest ∧ (exec p s).1.hits = s.hits ∧ (exec p s).1.on = on ∧ (exec p s).2 = r := by
  have two : ∀ (s : State) (b a : Hit) (f : State → State) (rest : List Bool), (∀ s, (f s).signals = s.signals ∧ (f s).hits = s.hits) → s.signals = false :: false :: rest →
      call s b a f = ({ f { s with signals := false :: rest } with signals := rest }, false) := by
    intro s b a f rest hf hs
    unfold call
    simp only [poll, hs]
    rw [(hf _).1]
  have emitOk : ∀ e s, (emit s e).signals = s.signals ∧ (emit s e).hits = s.hits := by
    intro e s; unfold emit; split <;> exact ⟨rfl, rfl⟩
  have emitOn : ∀ e s, (emit s e).on = s.on := by
    intro e s; unfold emit; split <;> rfl
  induction p generalizing on with
  | skip => exact ⟨0, false, fun s rest h0 h => ⟨by simpa [exec] using h, rfl, h0, rfl⟩⟩
  | raise => exact ⟨0, true, fun s rest h0 h => ⟨by simpa [exec] using h, rfl, h0, rfl⟩⟩
  | mark id =>
    refine ⟨2, false, fun s rest h0 h => ?_⟩
    have h2 := two s ⟨.body, none⟩ ⟨.body, none⟩ (emit · (.mark id)) rest (emitOk _) h
    rw [exec, h2]
    exact ⟨rfl, (emitOk _ _).2, by rw [← h0]; exact emitOn _ _, rfl⟩
  | seq a b iha ihb =>
    obtain ⟨n, r, ha⟩ := iha on
    obtain ⟨m, r', hb⟩ := ihb on
    cases r with
    | true =>
      refine ⟨n, true, fun s rest h0 h => ?_⟩
      obtain ⟨a1, a2, a3, a4⟩ := ha s rest h0 h
      rw [exec_seq, if_pos a4]
      exact ⟨a1, a2, a3, rfl⟩
    | false =>
      refine ⟨n + m, r', fun s rest h0 h => ?_⟩
      obtain ⟨a1, a2, a3, a4⟩ := ha s (List.replicate m false ++ rest) h0 (by rw [h, ← List.replicate_append_replicate, List.append_assoc])
      rw [exec_seq, if_neg (by simp [a4])]
      obtain ⟨b1, b2, b3, b4⟩ := hb _ rest a3 a1
      exact ⟨b1, by rw [b2, a2], b3, b4⟩
  | attempt a b iha ihb =>
    obtain ⟨n, r, ha⟩ := iha on
    obtain ⟨m, r', hb⟩ := ihb on
    cases r with
    | false =>
      refine ⟨n, false, fun s rest h0 h => ?_⟩
      obtain ⟨a1, a2, a3, a4⟩ := ha s rest h0 h
      rw [exec_attempt, if_neg (by simp [a4])]
      exact ⟨a1, a2, a3, rfl⟩
    | true =>
      refine ⟨n + m, r', fun s rest h0 h => ?_⟩
      obtain ⟨a1, a2, a3, a4⟩ := ha s (List.replicate m false ++ rest) h0 (by rw [h, ← List.replicate_append_replicate, List.append_assoc])
      rw [exec_attempt, if_pos a4]
      obtain ⟨b1, b2, b3, b4⟩ := hb _ rest a3 a1
      exact ⟨b1, by rw [b2, a2], b3, b4⟩
  | trace id b ih =>
    obtain ⟨n, r, hb⟩ := ih on
    refine ⟨2 + n + 2, r, fun s rest h0 h => ?_⟩
    have e := two s ⟨.entering, some id⟩ ⟨.entered, some id⟩ (emit · (.entry id)) (List.replicate n false ++ (false :: false :: rest)) (emitOk _)
      (by rw [h, ← List.replicate_append_replicate, ← List.replicate_append_replicate]; simp [List.replicate])
    obtain ⟨b1, b2, b3, b4⟩ := hb (enter s id).1 (false :: false :: rest) (by rw [enter, e]; rw [← h0]; exact emitOn _ _) (by rw [enter, e])
    have l := two (exec b (enter s id).1).1 ⟨.leaving, some id⟩ ⟨.left, some id⟩ (emit · (.exit id)) rest (emitOk _) b1
    rw [exec_trace, if_neg (by rw [enter, e]; simp), leave, l]
    refine ⟨rfl, ?_, ?_, by simp [b4]⟩
    · refine (emitOk _ _).2.trans ?_
      refine b2.trans ?_
      rw [enter, e]
      exact (emitOk _ _).2
    · exact (emitOn _ _).trans b3
  | off b ih =>
    obtain ⟨n, r, hb⟩ := ih false
    refine ⟨2 + n + 2, r, fun s rest h0 h => ?_⟩
    have e := two s ⟨.entering, none⟩ ⟨.entered, none⟩ ({ · with on := false }) (List.replicate n false ++ (false :: false :: rest)) (fun _ => ⟨rfl, rfl⟩)
      (by rw [h, ← List.replicate_append_replicate, ← List.replicate_append_replicate]; simp [List.replicate])
    obtain ⟨b1, b2, b3, b4⟩ := hb (switch s).1 (false :: false :: rest) (by rw [switch, e]) (by rw [switch, e])
    have l := two (exec b (switch s).1).1 ⟨.leaving, none⟩ ⟨.left, none⟩ ({ · with on := s.on }) rest (fun _ => ⟨rfl, rfl⟩) b1
    rw [exec_off, if_neg (by rw [switch, e]; simp), restore, l]
    refine ⟨rfl, ?_, h0, by simp [b4]⟩
    refine Eq.trans (b := (exec b (switch s).1).1.hits) rfl ?_
    rw [b2, switch, e]

/-- **C160 fails, for every section and for every switcher, also where they are left:** whatever they contain, there is a number of points such that a handler that raises at the next one leaves the section open and the switch off. -/
theorem any_can_stay_open (id : Nat) (b : Stmt) :
    (∃ n, ∀ (s : State) (rest : List Bool), s.on = true → s.signals = List.replicate n false ++ true :: rest →
      ∃ l, (exec (.trace id b) s).1.events = s.events ++ [.entry id] ++ l ∧ Closed l ∧ (exec (.trace id b) s).2 = true ∧ (exec (.trace id b) s).1.on = true) ∧
    (∃ n, ∀ (s : State) (rest : List Bool), s.signals = List.replicate n false ++ true :: rest → (exec (.off b) s).1.on = false ∧ (exec (.off b) s).2 = true ∧ (exec (.off b) s).1.events = s.events) := by
  constructor
  · obtain ⟨n, r, hq⟩ := quiet b true
    refine ⟨2 + n, fun s rest hon hs => ?_⟩
    have e : enter s id = ({ s with events := s.events ++ [.entry id], signals := List.replicate n false ++ true :: rest }, false) := by
      have : s.signals = false :: false :: (List.replicate n false ++ true :: rest) := by rw [hs, ← List.replicate_append_replicate]; simp [List.replicate]
      simp [enter, call, poll, this, emit, hon]
    obtain ⟨b1, b2, b3, b4⟩ := hq (enter s id).1 (true :: rest) (by rw [e]; exact hon) (by rw [e])
    obtain ⟨l, hs', ⟨x1, x2⟩, y⟩ := orderly_aux b (enter s id).1
    have hh : hs' = [] := by rw [b2] at x2; simpa using x2
    have hc := (y (by rw [hh]; intro _ h; cases h)).1 []
    have hl : leave (exec b (enter s id).1).1 id = ({ (exec b (enter s id).1).1 with signals := rest, hits := (exec b (enter s id).1).1.hits ++ [⟨.leaving, some id⟩] }, true) := by
      simp [leave, call, poll, b1]
    rw [exec_trace, if_neg (by rw [e]; simp), hl]
    refine ⟨l, ?_, hc, by simp, b3⟩
    show (exec b (enter s id).1).1.events = _
    rw [x1, e]
  · obtain ⟨n, r, hq⟩ := quiet b false
    refine ⟨2 + n, fun s rest hs => ?_⟩
    have e : switch s = ({ s with on := false, signals := List.replicate n false ++ true :: rest }, false) := by
      have : s.signals = false :: false :: (List.replicate n false ++ true :: rest) := by rw [hs, ← List.replicate_append_replicate]; simp [List.replicate]
      simp [switch, call, poll, this]
    obtain ⟨b1, b2, b3, b4⟩ := hq (switch s).1 (true :: rest) (by rw [e]) (by rw [e])
    have hl : restore (exec b (switch s).1).1 s.on = ({ (exec b (switch s).1).1 with signals := rest, hits := (exec b (switch s).1).1.hits ++ [⟨.leaving, none⟩] }, true) := by
      simp [restore, call, poll, b1]
    rw [exec_off, if_neg (by rw [e]; simp), hl]
    refine ⟨b3, by simp, ?_⟩
    show (exec b (switch s).1).1.events = _
    rw [(off_is_silent b (switch s).1 (by rw [e])).1, e]

private theorem plain_off (p : Stmt) : (plain p false).1 = [] := by
  induction p with
  | seq a b iha ihb => rw [plain]; split <;> simp [iha, ihb]
  | attempt a b iha ihb => rw [plain]; split <;> simp [iha, ihb]
  | _ => rfl

/-- A program that is not interrupted does what its text says. -/
theorem undisturbed (p : Stmt) (s : State) (hs : s.signals = []) : exec p s = ({ s with events := s.events ++ (plain p s.on).1 }, (plain p s.on).2) := by
  have em : ∀ (s : State) (b a : Hit) (e : Event), s.signals = [] → call s b a (emit · e) = ({ s with events := s.events ++ made s.on e }, false) := by
    intro ⟨on, ev, sg, hi⟩ b a e h
    cases on <;> simp_all [call, poll, emit, made]
  have st : ∀ (s : State) (b a : Hit) (v : Bool), s.signals = [] → call s b a ({ · with on := v }) = ({ s with on := v }, false) := by
    intro ⟨on, ev, sg, hi⟩ b a v h
    simp_all [call, poll]
  induction p generalizing s with
  | skip => simp [exec, plain]
  | raise => simp [exec, plain]
  | mark id => rw [exec, em s _ _ _ hs]; rfl
  | seq a b iha ihb =>
    rw [exec_seq, iha s hs, plain]
    by_cases h : (plain a s.on).2 = true
    · simp [h]
    · simp only [h]
      rw [if_neg (by simp), ihb { s with events := s.events ++ (plain a s.on).1 } hs]
      simp
  | attempt a b iha ihb =>
    rw [exec_attempt, iha s hs, plain]
    by_cases h : (plain a s.on).2 = true
    · simp only [h]
      rw [if_pos trivial, ihb { s with events := s.events ++ (plain a s.on).1 } hs]
      simp
    · simp [h]
  | trace id b ih =>
    have he : enter s id = ({ s with events := s.events ++ made s.on (.entry id) }, false) := em s _ _ _ hs
    rw [exec_trace, he]
    have hb := ih { s with events := s.events ++ made s.on (.entry id) } hs
    simp only [hb]
    rw [leave, em _ _ _ _ (by exact hs), plain]
    cases h : s.on <;> simp [made, plain_off]
  | off b ih =>
    have he : switch s = ({ s with on := false }, false) := st s _ _ _ hs
    rw [exec_off, he]
    have hb := ih { s with on := false } hs
    simp only [hb]
    rw [restore, st _ _ _ _ (by exact hs), plain]
    simp [plain_off]

/-- A handler's exception is passed on by sections and switchers: a program that catches none ends with an exception if a handler raised, and, unless it raises itself, only then. -/
theorem passed_on (p : Stmt) (s : State) (hp : NoCatch p) :
    ∃ hs, (exec p s).1.hits = s.hits ++ hs ∧ (hs ≠ [] → (exec p s).2 = true) ∧ (NoRaise p → hs = [] → (exec p s).2 = false) := by
  have em : ∀ (s : State) (b a : Hit) (f : State → State), (∀ s, (f s).hits = s.hits) →
      ∃ hs, (call s b a f).1.hits = s.hits ++ hs ∧ (hs ≠ [] → (call s b a f).2 = true) ∧ (hs = [] → (call s b a f).2 = false) := by
    intro s b a f hf
    have h1 : ∀ (s : State) (h : Hit), ∃ hs, (poll s h).1.hits = s.hits ++ hs ∧ (hs ≠ [] → (poll s h).2 = true) ∧ (hs = [] → (poll s h).2 = false) := by
      intro s h
      unfold poll
      split
      · exact ⟨[], by simp⟩
      · exact ⟨[], by simp⟩
      · exact ⟨[h], by simp⟩
    obtain ⟨hs, x, y, z⟩ := h1 s b
    have hc : call s b a f = if (poll s b).2 then ((poll s b).1, true) else poll (f (poll s b).1) a := by
      unfold call; rcases poll s b with ⟨s', _ | _⟩ <;> simp
    rw [hc]
    split
    · rename_i h
      refine ⟨hs, x, fun _ => rfl, fun h0 => ?_⟩
      rw [z h0] at h; cases h
    · rename_i h
      have h0 : hs = [] := by
        cases hs with
        | nil => rfl
        | cons k l => exact absurd (y (by simp)) h
      obtain ⟨hs', x', y', z'⟩ := h1 (f (poll s b).1) a
      exact ⟨hs', by rw [x', hf, x, h0, List.append_nil], y', z'⟩
  have emitHits : ∀ e s, (emit s e).hits = s.hits := by
    intro e s; unfold emit; split <;> rfl
  have wth : ∀ (s : State) (en le : State × Bool) (bd : State × Bool) (nr : Prop) (h1 h2 h3 : List Hit), en.1.hits = s.hits ++ h1 → bd.1.hits = en.1.hits ++ h2 → le.1.hits = bd.1.hits ++ h3 →
      (h1 = [] → en.2 = false) → en.2 = false → (h1 ≠ [] → en.2 = true) → (h2 ≠ [] → bd.2 = true) → (nr → h2 = [] → bd.2 = false) → (h3 ≠ [] → le.2 = true) → (h3 = [] → le.2 = false) →
      ∃ hs, le.1.hits = s.hits ++ hs ∧ (hs ≠ [] → (bd.2 || le.2) = true) ∧ (nr → hs = [] → (bd.2 || le.2) = false) := by
    intro s en le bd nr h1 h2 h3 e1 e2 e3 _ a2 a3 b1 b2 c1 c2
    have h10 : h1 = [] := by
      cases h1 with
      | nil => rfl
      | cons k l => rw [a3 (by simp)] at a2; cases a2
    refine ⟨h2 ++ h3, by rw [e3, e2, e1, h10]; simp, fun h => ?_, fun hn h => ?_⟩
    · cases h2 with
      | nil => simp at h; simp [c1 h]
      | cons k l => simp [b1 (by simp)]
    · obtain ⟨x, y⟩ := List.append_eq_nil_iff.1 h
      simp [b2 hn x, c2 y]
  induction p generalizing s with
  | skip => exact ⟨[], by simp [exec]⟩
  | raise => exact ⟨[], by simp [exec, NoRaise]⟩
  | mark id =>
    obtain ⟨hs, x, y, z⟩ := em s ⟨.body, none⟩ ⟨.body, none⟩ (emit · (.mark id)) (emitHits _)
    exact ⟨hs, x, y, fun _ => z⟩
  | seq a b iha ihb =>
    rw [exec_seq]
    obtain ⟨hs, x, y, z⟩ := iha s hp.1
    split
    · rename_i h
      refine ⟨hs, x, fun _ => rfl, fun hn h0 => ?_⟩
      rw [z hn.1 h0] at h; cases h
    · rename_i h
      have h0 : hs = [] := by
        cases hs with
        | nil => rfl
        | cons k l => exact absurd (y (by simp)) h
      obtain ⟨hs', x', y', z'⟩ := ihb (exec a s).1 hp.2
      exact ⟨hs', by rw [x', x, h0, List.append_nil], y', fun hn => z' hn.2⟩
  | attempt a b _ _ => exact hp.elim
  | trace id b ih =>
    rw [exec_trace]
    obtain ⟨h1, x1, y1, z1⟩ : ∃ hs, (enter s id).1.hits = s.hits ++ hs ∧ (hs ≠ [] → (enter s id).2 = true) ∧ (hs = [] → (enter s id).2 = false) := em s _ _ _ (emitHits _)
    split
    · rename_i h
      refine ⟨h1, x1, fun _ => rfl, fun _ h0 => ?_⟩
      rw [z1 h0] at h; cases h
    · rename_i h
      obtain ⟨h2, x2, y2, z2⟩ := ih (enter s id).1 hp
      obtain ⟨h3, x3, y3, z3⟩ : ∃ hs, (leave (exec b (enter s id).1).1 id).1.hits = (exec b (enter s id).1).1.hits ++ hs ∧ (hs ≠ [] → (leave (exec b (enter s id).1).1 id).2 = true) ∧
        (hs = [] → (leave (exec b (enter s id).1).1 id).2 = false) := em _ _ _ _ (emitHits _)
      exact wth s (enter s id) (leave (exec b (enter s id).1).1 id) (exec b (enter s id).1) (NoRaise b) h1 h2 h3 x1 x2 x3 z1 (by simpa using h) y1 y2 z2 y3 z3
  | off b ih =>
    rw [exec_off]
    obtain ⟨h1, x1, y1, z1⟩ : ∃ hs, (switch s).1.hits = s.hits ++ hs ∧ (hs ≠ [] → (switch s).2 = true) ∧ (hs = [] → (switch s).2 = false) := em s _ _ _ (fun _ => rfl)
    split
    · rename_i h
      refine ⟨h1, x1, fun _ => rfl, fun _ h0 => ?_⟩
      rw [z1 h0] at h; cases h
    · rename_i h
      obtain ⟨h2, x2, y2, z2⟩ := ih (switch s).1 hp
      obtain ⟨h3, x3, y3, z3⟩ : ∃ hs, (restore (exec b (switch s).1).1 s.on).1.hits = (exec b (switch s).1).1.hits ++ hs ∧ (hs ≠ [] → (restore (exec b (switch s).1).1 s.on).2 = true) ∧
        (hs = [] → (restore (exec b (switch s).1).1 s.on).2 = false) := em _ _ _ _ (fun _ => rfl)
      exact wth s (switch s) (restore (exec b (switch s).1).1 s.on) (exec b (switch s).1) (NoRaise b) h1 h2 h3 x1 x2 x3 z1 (by simpa using h) y1 y2 z2 y3 z3

theorem not_Orderly : ¬ Orderly := by
  intro h
  obtain ⟨l, h1, h2, -⟩ := h (.trace 1 .skip) { signals := [false, true] }
  rw [(entered_stays_open 1 .skip { signals := [false, true] } [] rfl rfl).1] at h1
  have hl : l = [.entry 1] := by simpa using h1.symm
  rw [hl] at h2
  cases h2

/-- A suppressed function is left as it was entered, if no handler raises in its own two methods, whatever handlers do inside of it. -/
theorem inside_is_harmless (b : Stmt) (s s1 s2 : State) (h1 : switch s = (s1, false)) (h2 : restore (exec b s1).1 s.on = (s2, false)) :
    (exec (.off b) s).1 = s2 ∧ s2.on = s.on ∧ s2.events = s.events := by
  have hs1 : s1.on = false ∧ s1.events = s.events := by
    obtain ⟨hs, ⟨x1, -⟩, x3⟩ : ∃ hs, Ext s (switch s).1 [] hs ∧ ((hs = [⟨.entering, none⟩] ∧ (switch s).2 = true ∧ (switch s).1.on = s.on) ∨ (hs = [] ∧ (switch s).2 = false ∧ (switch s).1.on = false) ∨
        (hs = [⟨.entered, none⟩] ∧ (switch s).2 = true ∧ (switch s).1.on = false)) := set_cases s _ _ _
    rw [h1] at x1 x3
    simp at x1 x3
    exact ⟨x3.2, x1⟩
  have hs2 : s2.on = s.on ∧ s2.events = (exec b s1).1.events := by
    obtain ⟨hs, ⟨x1, -⟩, x3⟩ : ∃ hs, Ext (exec b s1).1 (restore (exec b s1).1 s.on).1 [] hs ∧
        ((hs = [⟨.leaving, none⟩] ∧ (restore (exec b s1).1 s.on).2 = true ∧ (restore (exec b s1).1 s.on).1.on = (exec b s1).1.on) ∨
          (hs = [] ∧ (restore (exec b s1).1 s.on).2 = false ∧ (restore (exec b s1).1 s.on).1.on = s.on) ∨
          (hs = [⟨.left, none⟩] ∧ (restore (exec b s1).1 s.on).2 = true ∧ (restore (exec b s1).1 s.on).1.on = s.on)) := set_cases _ _ _ _
    rw [h2] at x1 x3
    simp at x1 x3
    exact ⟨x3.2, x1⟩
  refine ⟨?_, hs2.1, by rw [hs2.2, (off_is_silent b s1 hs1.1).1, hs1.2]⟩
  rw [exec_off, h1]
  simp [h2]

/-- Two sections, a handler that raises in the inner one's marker and is caught there: all is closed, and one handler did raise. -/
example : (exec (.trace 1 (.attempt (.trace 2 (.mark 3)) (.mark 4))) { signals := [false, false, false, false, true] }).1 =
    { on := true, events := [.entry 1, .entry 2, .exit 2, .mark 4, .exit 1], signals := [], hits := [⟨.body, none⟩] } := by decide

/-- The same program, with a handler that raises as the inner section is left: its exit is missing, and that of the outer section comes while the inner one is open. -/
example : (exec (.trace 1 (.attempt (.trace 2 (.mark 3)) (.mark 4))) { signals := [false, false, false, false, false, false, true] }).1.events = [.entry 1, .entry 2, .mark 3, .mark 4, .exit 1] ∧
    NoSwitch (.trace 1 (.attempt (.trace 2 (.mark 3)) (.mark 4))) ∧ ¬ Closed [.entry 1, .entry 2, .mark 3, .mark 4, .exit 1] := by
  refine ⟨by decide, ⟨trivial, trivial⟩, by unfold Closed; decide⟩

/-- A program for `restored_iff`, with a handler that raises in a marker of the suppressed part and one that raises before the switch is on again. -/
example : Flat (.seq (.trace 1 (.off (.mark 2))) (.mark 3)) ∧
    (exec (.seq (.attempt (.trace 1 (.off (.mark 2))) .skip) (.mark 3)) { signals := [false, false, false, false, true] }).1.on = true ∧
    (exec (.seq (.attempt (.trace 1 (.off (.mark 2))) .skip) (.mark 3)) { signals := [false, false, false, false, false, false, true] }).1.on = false :=
  ⟨⟨trivial, trivial⟩, by decide, by decide⟩

/-- `passed_on` and `undisturbed` for a section with a suppressed part: it is not interrupted, and it is interrupted in the suppressed part. -/
example : NoCatch (.trace 1 (.seq (.off (.mark 2)) (.mark 3))) ∧ NoRaise (.trace 1 (.seq (.off (.mark 2)) (.mark 3))) ∧ plain (.trace 1 (.seq (.off (.mark 2)) (.mark 3))) true = ([.entry 1, .mark 3, .exit 1], false) ∧
    (exec (.trace 1 (.seq (.off (.mark 2)) (.mark 3))) { signals := [false, false, false, false, true] }).1 = { events := [.entry 1, .exit 1], hits := [⟨.body, none⟩] } :=
  ⟨⟨trivial, trivial⟩, ⟨trivial, trivial⟩, rfl, by decide⟩

/-- `inside_is_harmless` with a handler that raises inside, in another switcher. -/
example : switch { signals := [false, false, false, true] } = ({ on := false, signals := [false, true] }, false) ∧
    restore (exec (.attempt (.off (.mark 1)) .skip) { on := false, signals := [false, true] }).1 true = ({ on := true, hits := [⟨.entered, none⟩] }, false) := by decide

end Scalopus.C160
