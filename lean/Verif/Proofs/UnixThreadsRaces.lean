import Verif.Proofs.UnixThreadsProgress

/-!
# What the worker of a unix transport gets to

The worker can get to the end of its iteration, and from there to any step of an iteration, while threads that hold no mutex stay where they are.
-/

namespace Scalopus.UnixThreads

/-- A thread gets to a later step of what it has to do, if it neither waits for the worker nor decides whether to run before it. -/
theorem goes_to : ∀ (pre : List Op) (s : State) (t : Nat) (rest : List Op), s.ops t = pre ++ rest → .loop ∉ pre → .join ∉ pre → Good s →
    ∃ s', Path s s' ∧ Good s' ∧ s'.ops t = rest ∧ (∀ u, u ≠ t → hs s u = free → s'.ops u = s.ops u ∧ hs s' u = free) := by
  intro pre
  induction pre with
  | nil => intro s t rest e _ _ hg; exact ⟨s, .refl s, hg, e, fun _ _ h => ⟨rfl, h⟩⟩
  | cons o pre ih =>
    intro s t rest e hl hj hg
    have hl' : Op.loop ∉ pre := fun h => hl (List.mem_cons_of_mem _ h)
    have hj' : Op.join ∉ pre := fun h => hj (List.mem_cons_of_mem _ h)
    have go : o.goes s.running = true → ∃ s', Path s s' ∧ Good s' ∧ s'.ops t = rest ∧ (∀ u, u ≠ t → hs s u = free → s'.ops u = s.ops u ∧ hs s' u = free) := by
      intro ho
      obtain ⟨s1, e1, h1, k1, _, _⟩ := goes_step hg e ho
      obtain ⟨s2, p2, g2, f2, k2⟩ := ih s1 t rest h1 hl' hj' (good_step hg e1)
      refine ⟨s2, .head t e1 p2, g2, f2, fun u hu hf => ?_⟩
      obtain ⟨a, b⟩ := k2 u hu ((k1.held u hu).trans hf)
      exact ⟨a.trans (k1.ops u hu), b⟩
    cases o with
    | lock m =>
      have hr := hg.1 t
      rw [e] at hr
      rcases hr with ⟨_, hx⟩ | ⟨_, hr, _⟩
      · cases hx
      · obtain ⟨s1, p1, g1, f1, k1⟩ := frees _ m (Nat.le_refl _) s hg
        obtain ⟨s2, e2, h2, k2, _⟩ := lock_step g1 ((k1.ops t hr).trans e) f1
        obtain ⟨s3, p3, g3, f3, k3⟩ := ih s2 t rest h2 hl' hj' (good_step g1 e2)
        refine ⟨s3, p1.trans (.head t e2 p3), g3, f3, fun u hu hf => ?_⟩
        have hb : Below s m u := by intro m' hm'; rw [hf] at hm'; cases hm'
        have h1 := (k1.held u hb).trans hf
        obtain ⟨a, b⟩ := k3 u hu ((k2.held u hu).trans h1)
        exact ⟨a.trans ((k2.ops u hu).trans (k1.ops u hb)), b⟩
    | join => simp at hj
    | loop => simp at hl
    | _ => exact go rfl

/-! ## What the worker has to do ends with the condition of its loop -/

/-- The worker has ended, or has steps to do and then the condition of its loop. When it clears `running_` it marks the socket as closed next. -/
structure Shape (l : List Op) : Prop where
  ends : l = [] ∨ ∃ p, l = p ++ [.loop] ∧ .loop ∉ p
  lost : ∀ p q, l = p ++ .clearRunning :: q → ∃ q', q = .write .clientFd :: q'

theorem Shape.tail {o : Op} {l : List Op} (h : Shape (o :: l)) (ho : o ≠ .loop) : Shape l where
  ends := by
    rcases h.ends with h | ⟨p, h, hp⟩
    · cases h
    · cases p with
      | nil => simp at h; exact absurd h.1 ho
      | cons a p => simp at h; exact Or.inr ⟨p, h.2, fun hm => hp (by simp [hm])⟩
  lost := fun p q e => h.lost (o :: p) q (by rw [e]; rfl)

/-- Steps with neither may come first. -/
theorem Shape.append {a l : List Op} (ha : ∀ o ∈ a, o ≠ .loop ∧ o ≠ .clearRunning) (h : Shape l) (hn : l ≠ []) : Shape (a ++ l) where
  ends := by
    rcases h.ends with h | ⟨p, h, hp⟩
    · exact absurd h hn
    · refine Or.inr ⟨a ++ p, by rw [h, List.append_assoc], ?_⟩
      intro hm
      rcases List.mem_append.mp hm with hm | hm
      · exact (ha _ hm).1 rfl
      · exact hp hm
  lost := by
    intro p q e
    rcases List.append_eq_append_iff.mp e with ⟨c, h1, h2⟩ | ⟨c, h1, h2⟩
    · exact h.lost c q h2
    · cases c with
      | nil => exact h.lost [] q (by simpa using h2.symm)
      | cons x c => simp at h2; exact absurd h2.1.symm (ha x (by rw [h1]; simp)).2

theorem plain_call (c : Call) (hc : c.owner = false) : ∀ o ∈ callOps c, o ≠ .loop ∧ o ≠ .clearRunning := by
  cases c with
  | request sent => cases sent <;> simp [callOps]
  | destroy => simp [Call.owner] at hc
  | _ => simp [callOps]

theorem plain_calls (cs : List Call) (hc : ∀ c ∈ cs, c.owner = false) : ∀ o ∈ cs.flatMap callOps, o ≠ .loop ∧ o ≠ .clearRunning := by
  intro o ho
  obtain ⟨c, h1, h2⟩ := List.mem_flatMap.mp ho
  exact plain_call c (hc c h1) o h2

theorem plain_event (e : Event) : ∀ o ∈ eventOps e, o ≠ .loop ∧ o ≠ .clearRunning := by
  cases e with
  | message r => cases r <;> simp [eventOps, sendOps]
  | _ => simp [eventOps]

theorem plain_broadcast (n : Nat) : ∀ o ∈ broadcastOps n, o ≠ .loop ∧ o ≠ .clearRunning := by
  intro o ho
  simp only [broadcastOps, List.mem_append, List.mem_flatten, List.mem_replicate] at ho
  rcases ho with ho | ⟨l, ⟨_, rfl⟩, ho⟩
  · simp at ho; rcases ho with rfl | rfl | rfl | rfl | rfl | rfl | rfl <;> simp
  · simp [sendOps] at ho; rcases ho with rfl | rfl | rfl <;> simp

theorem plain_found (f : Found) : ∀ o ∈ foundOps f, o ≠ .loop ∧ o ≠ .clearRunning := by
  cases f with
  | endpoint r => cases r <;> simp [foundOps, sendOps]
  | _ => simp [foundOps]

theorem shape_loop : Shape [.loop] where
  ends := Or.inr ⟨[], rfl, by simp⟩
  lost := by
    intro p q e
    have : Op.clearRunning ∈ [Op.loop] := by rw [e]; simp
    simp at this

theorem shape_incoming (m : Incoming) {l : List Op} (h : Shape l) (hn : l ≠ []) : Shape (incomingOps m ++ l) := by
  have h1 : Shape ([Op.lock .request, .read .ongoing] ++ foundOps m.found ++ [.unlock .request] ++ l) := by
    refine Shape.append ?_ h hn
    intro o ho
    simp only [List.mem_append] at ho
    rcases ho with (ho | ho) | ho
    · simp at ho; rcases ho with rfl | rfl <;> simp
    · exact plain_found _ o ho
    · simp at ho; subst ho; simp
  cases hm : m.lost with
  | false => simpa [incomingOps, hm] using h1
  | true =>
    have e : incomingOps m ++ l = .clearRunning :: .write .clientFd :: ([Op.lock .request, .read .ongoing] ++ foundOps m.found ++ [.unlock .request] ++ l) := by
      simp [incomingOps, hm]
    rw [e]
    have h2 : Shape (Op.write .clientFd :: ([Op.lock .request, .read .ongoing] ++ foundOps m.found ++ [.unlock .request] ++ l)) :=
      Shape.append (a := [.write .clientFd]) (by simp) h1 (by simp)
    refine ⟨?_, ?_⟩
    · rcases h2.ends with h | ⟨p, h, hp⟩
      · cases h
      · exact Or.inr ⟨.clearRunning :: p, by rw [h]; rfl, by simp [hp]⟩
    · intro p q e
      cases p with
      | nil => simp only [List.nil_append, List.cons.injEq, true_and] at e; exact ⟨_, e.symm⟩
      | cons a p => simp only [List.cons_append, List.cons.injEq] at e; exact h2.lost p q e.2

theorem shape_round (r : Round) : Shape (roundOps r ++ [.loop]) := by
  have h1 : Shape (((if r.serverExcept then [Op.read .logger] else []) ++ [.read .connections] ++ r.events.flatMap eventOps ++
      r.broadcasts.flatMap broadcastOps ++ [.lock .broadcast, .read .broadcasts, .unlock .broadcast, .lock .request, .write .ongoing, .unlock .request]) ++ [.loop]) := by
    refine Shape.append ?_ shape_loop (by simp)
    intro o ho
    simp only [List.mem_append] at ho
    rcases ho with (((ho | ho) | ho) | ho) | ho
    · split at ho <;> simp at ho; subst ho; simp
    · simp at ho; subst ho; simp
    · obtain ⟨e, _, h⟩ := List.mem_flatMap.mp ho; exact plain_event e o h
    · obtain ⟨e, _, h⟩ := List.mem_flatMap.mp ho; exact plain_broadcast e o h
    · simp at ho; rcases ho with rfl | rfl | rfl | rfl | rfl | rfl <;> simp
  have h2 : Shape ((r.client.map incomingOps).getD [] ++ (((if r.serverExcept then [Op.read .logger] else []) ++ [.read .connections] ++ r.events.flatMap eventOps ++
      r.broadcasts.flatMap broadcastOps ++ [.lock .broadcast, .read .broadcasts, .unlock .broadcast, .lock .request, .write .ongoing, .unlock .request]) ++ [.loop])) := by
    cases r.client with
    | none => exact h1
    | some m => exact shape_incoming m h1 (by simp)
  by_cases hf : r.accept = .failed
  · refine Shape.append ?_ shape_loop (by simp)
    intro o ho
    simp only [roundOps, hf, if_true, List.mem_append] at ho
    rcases ho with (ho | ho) | ho
    · simp at ho; subst ho; simp
    · split at ho <;> simp at ho; subst ho; simp
    · simp at ho; subst ho; simp
  · have e : roundOps r ++ [.loop] = ([.read .connections] ++ (if r.selectFailed then [Op.read .logger] else []) ++ (if r.accept = .accepted then [.write .connections] else [])) ++
        ((r.client.map incomingOps).getD [] ++ (((if r.serverExcept then [Op.read .logger] else []) ++ [.read .connections] ++ r.events.flatMap eventOps ++
      r.broadcasts.flatMap broadcastOps ++ [.lock .broadcast, .read .broadcasts, .unlock .broadcast, .lock .request, .write .ongoing, .unlock .request]) ++ [.loop])) := by
      simp only [roundOps, hf, if_false, List.append_assoc]
    rw [e]
    refine Shape.append ?_ h2 (by simp)
    intro o ho
    simp only [List.mem_append] at ho
    rcases ho with (ho | ho) | ho
    · simp at ho; subst ho; simp
    · split at ho <;> simp at ho; subst ho; simp
    · split at ho <;> simp at ho; subst ho; simp

theorem shape {P : State → Nat → Call → Prop} {Q : Op → Call → Prop} (hQ : ∀ o c, Q o c → c.owner = false) {s : State} (h : Reachable P Q s) : Shape (s.ops 1) := by
  induction h with
  | init => exact shape_loop
  | @call s s' t c _ _ e ih =>
    simp only [step] at e
    split at e
    · rename_i hc
      simp only [Option.some.injEq] at e
      subst e
      show Shape (if 1 = t then _ else _)
      rw [if_neg (Ne.symm hc.2.1)]
      exact ih
    · cases e
  | @exec s s' t cs r _ hq e ih =>
    simp only [step] at e
    split at e
    · cases e
    · split at e
      · cases e
      · rename_i o rest ho
        rw [ho] at hq
        have hq' : ∀ c ∈ cs, c.owner = false := fun c hc => hQ o c (hq o (by simp) c hc)
        by_cases ht : t = 1
        · subst ht
          rw [ho] at ih
          have tl : ∀ s' : State, s'.ops 1 = rest → o ≠ .loop → Shape (s'.ops 1) := fun s' h hn => by rw [h]; exact ih.tail hn
          have nn : o ≠ .loop → rest ≠ [] := by
            rintro hn rfl
            rcases ih.ends with h | ⟨p, h, hp⟩
            · cases h
            · cases p with
              | nil => simp at h; exact hn h
              | cons a p => simp at h
          cases o with
          | lock m => simp only [exec] at e; split at e <;> simp at e; subst e; exact tl _ (by simp) (by simp)
          | handle => simp only [exec, Option.some.injEq] at e; subst e; simp only [set_ops, if_true]; exact Shape.append (plain_calls cs hq') (ih.tail (by simp)) (nn (by simp))
          | unsolicited => simp only [exec, Option.some.injEq] at e; subst e; simp only [set_ops, if_true]; exact Shape.append (plain_calls cs hq') (ih.tail (by simp)) (nn (by simp))
          | loop =>
            simp only [exec, Option.some.injEq] at e
            subst e
            simp only [set_ops, if_true]
            split
            · exact shape_round r
            · rcases ih.ends with h | ⟨p, h, hp⟩
              · cases h
              · cases p with
                | nil => simp at h; subst h; exact ⟨Or.inl rfl, by simp⟩
                | cons a p => simp at h; exact absurd (by rw [← h.1]; simp) hp
          | join => simp only [exec, if_true, Option.some.injEq] at e; subst e; show Shape (s.ops 1); rw [ho]; exact ih
          | clearRunning => simp only [exec, Option.some.injEq] at e; subst e; exact tl _ (by show (s.set 1 rest).ops 1 = rest; simp) (by simp)
          | _ => simp only [exec, Option.some.injEq] at e; subst e; exact tl _ (by simp) (by simp)
        · have keep : s'.ops 1 = s.ops 1 := by
            cases o with
            | lock m => simp only [exec] at e; split at e <;> simp at e; subst e; simp [Ne.symm ht]
            | join => simp only [exec, ht, if_false] at e; split at e <;> simp at e; subst e; simp [Ne.symm ht]
            | clearRunning => simp only [exec, Option.some.injEq] at e; subst e; show (if 1 = t then _ else _) = _; rw [if_neg (Ne.symm ht)]
            | _ => simp only [exec, Option.some.injEq] at e; subst e; simp [Ne.symm ht]
          rw [keep]; exact ih

/-! ## Nobody tells the worker to end -/

/-- No thread is about to clear `running_`. -/
def NoClear (s : State) : Prop := s.running = true ∧ ∀ u, .clearRunning ∉ s.ops u

theorem noClear_step {s s' : State} {t : Nat} (h : NoClear s) (e : step s (.exec t [] {}) = some s') : NoClear s' := by
  simp only [step] at e
  split at e
  · cases e
  · split at e
    · cases e
    · rename_i o rest ho
      have hr : Op.clearRunning ∉ rest := fun hm => h.2 t (by rw [ho]; simp [hm])
      have set : ∀ l, Op.clearRunning ∉ l → ∀ u, Op.clearRunning ∉ (s.set t l).ops u := by
        intro l hl u
        simp only [set_ops]
        split
        · exact hl
        · exact h.2 u
      cases o with
      | clearRunning => exact absurd (by rw [ho]; simp) (h.2 t)
      | lock m => simp only [exec] at e; split at e <;> simp at e; subst e; exact ⟨h.1, set _ hr⟩
      | join =>
        simp only [exec] at e
        split at e
        · simp at e; subst e; exact h
        · split at e <;> simp at e; subst e; exact ⟨h.1, set _ hr⟩
      | loop =>
        simp only [exec, Option.some.injEq] at e
        subst e
        refine ⟨h.1, set _ ?_⟩
        simp only [h.1, if_true]
        decide
      | _ => simp only [exec, Option.some.injEq] at e; subst e; exact ⟨h.1, set _ hr⟩

theorem noClear_path {s s' : State} (p : Path s s') (h : NoClear s) : NoClear s' := by
  induction p with
  | refl => exact h
  | head t e _ ih => exact ih (noClear_step h e)

/-- The worker ends only when it is told to. -/
theorem ended {P : State → Nat → Call → Prop} {Q : Op → Call → Prop} (hQ : ∀ o c, Q o c → c.owner = false) {s : State} (h : Reachable P Q s) : s.ops 1 = [] → s.running = false := by
  induction h with
  | init => intro h; cases h
  | @call s s' t c _ _ e ih =>
    simp only [step] at e
    split at e
    · rename_i hc
      simp only [Option.some.injEq] at e
      subst e
      intro h
      have : s.ops 1 = [] := by
        have h' : (if 1 = t then callOps c else s.ops 1) = [] := h
        rwa [if_neg (Ne.symm hc.2.1)] at h'
      exact ih this
    · cases e
  | @exec s s' t cs r hreach hq e ih =>
    have sh := shape hQ hreach
    simp only [step] at e
    split at e
    · cases e
    · split at e
      · cases e
      · rename_i o rest ho
        have other : t ≠ 1 → ∀ l, (s.set t l).ops 1 = s.ops 1 := fun ht l => by simp [Ne.symm ht]
        have nn : t = 1 → o ≠ .loop → rest ≠ [] := by
          rintro rfl hn rfl
          rw [ho] at sh
          rcases sh.ends with h | ⟨p, h, hp⟩
          · cases h
          · cases p with
            | nil => simp at h; exact hn h
            | cons a p => simp at h
        have tl : ∀ l, (t = 1 → l ≠ []) → (s.set t l).ops 1 = [] → s.running = false := by
          intro l hl h
          by_cases ht : t = 1
          · subst ht; simp at h; exact absurd h (hl rfl)
          · rw [other ht] at h; exact ih h
        cases o with
        | lock m => simp only [exec] at e; split at e <;> simp at e; subst e; exact tl _ (fun ht => nn ht (by simp))
        | join =>
          simp only [exec] at e
          split at e
          · simp at e; subst e; exact ih
          · split at e <;> simp at e; subst e; exact tl _ (fun ht => nn ht (by simp))
        | clearRunning => simp only [exec, Option.some.injEq] at e; subst e; intro _; rfl
        | loop =>
          simp only [exec, Option.some.injEq] at e
          subst e
          intro h
          by_cases ht : t = 1
          · subst ht
            simp only [set_ops, if_true] at h
            split at h
            · simp at h
            · rename_i hr; simpa using hr
          · rw [other ht] at h; exact ih h
        | handle => simp only [exec, Option.some.injEq] at e; subst e; exact tl _ (fun ht => by simp [nn ht])
        | unsolicited => simp only [exec, Option.some.injEq] at e; subst e; exact tl _ (fun ht => by simp [nn ht])
        | _ => simp only [exec, Option.some.injEq] at e; subst e; exact tl _ (fun ht => nn ht (by simp))

end Scalopus.UnixThreads
