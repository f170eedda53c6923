import Verif.Model.PySourceClass

/-!
# C137: classes of sources and providers written in Python may leave out methods

If every method that the classes define returns what it should, and every provider makes sources, the server runs on through every history of viewers. Each recording of a viewer calls each method of each of its sources once, and
the viewer gets the events of all sources, in the order of the providers; a class that leaves out a method behaves as if the method did nothing and gave no events, whichever base class is used. Only `makeSource` may not be left out, although the base class
has it: a server with such a provider is ended by the first viewer; and so is one with a source whose `startInterval` or `stopInterval` raises, by the first recording.
-/

namespace Scalopus.C137
open Scalopus.PySourceClass
open PyJson PySource

/-! ## Specification -/

/-- A method of sources that always returns, or is left out. -/
def Returns (m : Option (Nat → Bool)) : Prop := ∀ f, m = some f → ∀ n, f n = true

/-- The methods that the class defines return, and `finishInterval` gives events that can be converted. -/
def GoodSource (c : SourceClass) : Prop := Returns c.start ∧ Returns c.stop ∧ ∀ f, c.finish = some f → ∀ n, ∃ l, finishInterval (f n) = .ok l

/-- The class defines `makeSource`, which always gives a source of a good class. -/
def GoodProvider (p : ProviderClass) : Prop := ∃ f, p.make = some f ∧ ∀ n, ∃ c, f n = .source c ∧ GoodSource c

/-- The events that a source gives for its next `finishInterval`: none if the class leaves it out. -/
def given (o : Obj) : List Json :=
  match o.cls with
  | some c => (match c.finish with
    | some f => (match finishInterval (f o.finishes) with | .ok l => l | _ => [])
    | none => [])
  | none => []

/-- A method of all `n` sources of a viewer is called, in their order. -/
def calls (v : Nat) (k : Kind) (n : Nat) : List Ev := (List.range n).map fun i => .call v i k

/-! ## Good classes -/

theorem plain_ok {m : Option (Nat → Bool)} (h : Returns m) (n : Nat) : plain m n = .ok () := by
  cases m with
  | none => rfl
  | some f => simp [plain, h f rfl n]

theorem finishOf_good {o : Obj} {c : SourceClass} (hc : o.cls = some c) (h : GoodSource c) : finishOf c o.finishes = .ok (given o) := by
  simp only [finishOf, given, hc]
  cases hf : c.finish with
  | none => simp only []; split <;> rfl
  | some f =>
    obtain ⟨l, hl⟩ := h.2.2 f hf o.finishes
    simp [hl]

/-- All sources of a session are of good classes. -/
def AllGood (os : List Obj) : Prop := ∀ o ∈ os, ∃ c, o.cls = some c ∧ GoodSource c

theorem range_from (v : Nat) (k : Kind) (i n : Nat) : (List.range' i (n + 1)).map (fun j => Ev.call v j k) = .call v i k :: (List.range' (i + 1) n).map (fun j => Ev.call v j k) := by
  simp [List.range'_succ]

theorem callAll_good (k : Kind) (f : Obj → SourceClass → Res Unit) (v : Nat) (os : List Obj) (i : Nat)
    (h : ∀ o ∈ os, ∃ c, o.cls = some c ∧ f o c = .ok ()) : callAll k f v i os = ((List.range' i os.length).map (fun j => Ev.call v j k), .ok ()) := by
  induction os generalizing i with
  | nil => rfl
  | cons o os ih =>
    obtain ⟨c, hc, hf⟩ := h o (List.mem_cons_self ..)
    simp only [callAll, hc, hf, ih (i + 1) (fun o ho => h o (List.mem_cons_of_mem _ ho)), List.length_cons, range_from]

theorem finishAll_good (v : Nat) (os : List Obj) (i : Nat) (h : AllGood os) :
    finishAll v i os = ((List.range' i os.length).map (fun j => Ev.call v j .finish), .ok (os.flatMap given)) := by
  induction os generalizing i with
  | nil => rfl
  | cons o os ih =>
    obtain ⟨c, hc, hg⟩ := h o (List.mem_cons_self ..)
    simp only [finishAll, hc, finishOf_good hc hg, ih (i + 1) (fun o ho => h o (List.mem_cons_of_mem _ ho)), List.length_cons, range_from, Res.bind, List.flatMap_cons]

theorem makeAll_good (v : Nat) (ps : List (ProviderClass × Nat)) (i : Nat) (h : ∀ p ∈ ps, GoodProvider p.1) :
    ∃ os, makeAll v i ps = ((List.range' i ps.length).map (fun j => Ev.ask v j), .ok os) ∧ AllGood os ∧ os.length = ps.length ∧
      ∀ (j : Nat) (o : Obj), os[j]? = some o → o.starts = 0 ∧ o.stops = 0 ∧ o.finishes = 0 ∧
        ∃ (p : ProviderClass) (n : Nat) (c : SourceClass) (f : Nat → Makes), ps[j]? = some (p, n) ∧ p.make = some f ∧ f n = .source c ∧ o.cls = some c := by
  induction ps generalizing i with
  | nil => exact ⟨[], rfl, by simp [AllGood], rfl, by simp⟩
  | cons q ps ih =>
    obtain ⟨p, n⟩ := q
    obtain ⟨f, hf, hs⟩ := h (p, n) (List.mem_cons_self ..)
    obtain ⟨c, hc, hg⟩ := hs n
    obtain ⟨os, h1, h2, h3, h4⟩ := ih (i + 1) (fun p hp => h p (List.mem_cons_of_mem _ hp))
    refine ⟨{ cls := some c } :: os, ?_, ?_, by simp [h3], ?_⟩
    · have : makeOf p n = .ok (some c) := by
        simp only at hf
        simp [makeOf, hf, hc]
      simp [makeAll, this, h1, Res.bind, List.range'_succ]
    · intro o ho
      rcases List.mem_cons.1 ho with rfl | ho
      · exact ⟨c, rfl, hg⟩
      · exact h2 o ho
    · intro j o hj
      cases j with
      | zero =>
        simp only [List.getElem?_cons_zero, Option.some.injEq] at hj
        subst hj
        exact ⟨rfl, rfl, rfl, p, n, c, f, rfl, hf, hc, rfl⟩
      | succ j =>
        simp only [List.getElem?_cons_succ] at hj ⊢
        exact h4 j o hj

/-! ## Every history -/

structure Inv (s : State) : Prop where
  runs : s.status = .ok ()
  providers : ∀ p ∈ s.providers, GoodProvider p.1
  sessions : ∀ v os, s.sessions v = some os → AllGood os ∧ os.length = s.providers.length

theorem allGood_map {os : List Obj} (h : AllGood os) (f : Obj → Obj) (hf : ∀ o, (f o).cls = o.cls) : AllGood (os.map f) := by
  intro o ho
  obtain ⟨x, hx, rfl⟩ := List.mem_map.1 ho
  rw [hf]
  exact h x hx

theorem onStart_good {s : State} (v : Nat) (os : List Obj) (h : AllGood os) (hs : s.status = .ok ()) :
    onStart s v os = { s with sessions := fun w => if w = v then some (os.map fun o => { o with starts := o.starts + 1 }) else s.sessions w, log := s.log ++ calls v .start os.length ++ [.reply v] } := by
  have := callAll_good .start (fun o c => plain c.start o.starts) v os 0 (fun o ho => (h o ho).imp fun c hc => ⟨hc.1, plain_ok hc.2.1 _⟩)
  simp [onStart, this, uncaught, calls, List.range_eq_range', hs]

theorem onEnd_good {s : State} (v : Nat) (os : List Obj) (h : AllGood os) :
    onEnd s v os = { s with sessions := fun w => if w = v then some (os.map fun o => { o with stops := o.stops + 1, finishes := o.finishes + 1 }) else s.sessions w, log := s.log ++ calls v .stop os.length ++ [.reply v] ++ calls v .finish os.length ++ [.events v (os.flatMap given), .complete v] } := by
  have h1 := callAll_good .stop (fun o c => plain c.stop o.stops) v os 0 (fun o ho => (h o ho).imp fun c hc => ⟨hc.1, plain_ok hc.2.2.1 _⟩)
  have h2 := finishAll_good v os 0 h
  simp [onEnd, h1, h2, calls, List.range_eq_range']

theorem sessions_update {s : State} (h : Inv s) (v : Nat) (os : List Obj) (ho : AllGood os) (hl : os.length = s.providers.length) (w : Nat) (l : List Obj)
    (hw : (if w = v then some os else s.sessions w) = some l) : AllGood l ∧ l.length = s.providers.length := by
  split at hw
  · cases hw; exact ⟨ho, hl⟩
  · exact h.sessions w l hw

theorem inv_step {s : State} (h : Inv s) (a : Act) : Inv (step s a) := by
  simp only [step, h.runs]
  cases a with
  | connect v =>
    simp only []
    split
    · exact h
    · obtain ⟨os, h1, h2, h3, _⟩ := makeAll_good v s.providers 0 h.providers
      simp only [h1]
      refine ⟨rfl, ?_, ?_⟩
      · intro p hp
        obtain ⟨q, hq, rfl⟩ := List.mem_map.1 hp
        exact h.providers q hq
      · intro w l hw
        simp only [List.length_map]
        exact sessions_update h v os h2 h3 w l hw
  | start v =>
    simp only []
    split
    · rename_i os ho
      obtain ⟨hg, hl⟩ := h.sessions v os ho
      rw [onStart_good v os hg h.runs]
      exact ⟨h.runs, h.providers, fun w l hw => sessions_update h v _ (allGood_map hg (fun o => { o with starts := o.starts + 1 }) (fun _ => rfl)) (by simp [hl]) w l hw⟩
    · exact h
  | stop v =>
    simp only []
    split
    · rename_i os ho
      obtain ⟨hg, hl⟩ := h.sessions v os ho
      rw [onEnd_good v os hg]
      exact ⟨h.runs, h.providers, fun w l hw => sessions_update h v _ (allGood_map hg (fun o => { o with stops := o.stops + 1, finishes := o.finishes + 1 }) (fun _ => rfl)) (by simp [hl]) w l hw⟩
    · exact h
  | work v =>
    simp only []
    split
    · rename_i os ho
      obtain ⟨hg, _⟩ := h.sessions v os ho
      have : os.any (·.cls.isNone) = false := by
        rw [List.any_eq_false]
        intro o hm
        obtain ⟨c, hc, _⟩ := hg o hm
        simp [hc]
      rw [this]
      exact h
    · exact h
  | disconnect v =>
    refine ⟨rfl, h.providers, ?_⟩
    intro w l hw
    simp only at hw
    split at hw
    · cases hw
    · exact h.sessions w l hw

theorem inv_run (ps : List ProviderClass) (hp : ∀ p ∈ ps, GoodProvider p) (as : List Act) : Inv (run (init ps) as) := by
  have key : ∀ (as : List Act) (s : State), Inv s → Inv (run s as) := by
    intro as
    induction as with
    | nil => intro s h; exact h
    | cons a as ih => intro s h; exact ih _ (inv_step h a)
  refine key as _ ⟨rfl, ?_, by simp [init]⟩
  intro p hm
  obtain ⟨q, hq, rfl⟩ := List.mem_map.1 hm
  exact hp q hq

/-- **The server runs on** through every history of viewers, whatever methods the classes leave out. -/
theorem runs_on_partial (ps : List ProviderClass) (hp : ∀ p ∈ ps, GoodProvider p) (as : List Act) : (run (init ps) as).status = .ok () := (inv_run ps hp as).runs

theorem providers_run (ps : List ProviderClass) (hp : ∀ p ∈ ps, GoodProvider p) (as : List Act) : (run (init ps) as).providers.map (·.1) = ps := by
  have key : ∀ (as : List Act) (s : State), Inv s → (run s as).providers.map (·.1) = s.providers.map (·.1) := by
    intro as
    induction as with
    | nil => intro s _; rfl
    | cons a as ih =>
      intro s h
      refine (ih _ (inv_step h a)).trans ?_
      simp only [step, h.runs]
      cases a with
      | connect v =>
        simp only []
        repeat' split
        all_goals simp
      | start v => simp only []; split <;> simp [onStart]
      | stop v =>
        simp only []
        split
        · rename_i os ho
          rw [onEnd_good v os (h.sessions v os ho).1]
        · rfl
      | work v =>
        simp only []
        repeat' split
        all_goals rfl
      | disconnect v => rfl
  rw [key as (init ps) (inv_run ps hp [])]
  simp [init, Function.comp_def]

/-- How often provider `i` was asked for a source. -/
def asked (log : List Ev) (i : Nat) : Nat := log.countP fun
  | .ask _ j => j == i
  | _ => false

theorem asked_append (a b : List Ev) (i : Nat) : asked (a ++ b) i = asked a i + asked b i := by simp [asked]

theorem asked_calls (v : Nat) (k : Kind) (n i : Nat) : asked (calls v k n) i = 0 := by
  simp [asked, calls, List.countP_eq_zero]

theorem asked_range (v i : Nat) : ∀ n k : Nat, asked ((List.range' k n).map fun j => Ev.ask v j) i = if k ≤ i ∧ i < k + n then 1 else 0
  | 0, k => by simp [asked]
  | n + 1, k => by
    have := asked_range v i n (k + 1)
    simp only [asked, List.range'_succ, List.map_cons, List.countP_cons] at this ⊢
    rw [this]
    by_cases hk : k = i
    · subst hk; simp; omega
    · simp only [beq_iff_eq, hk, if_false]
      split <;> split <;> omega

theorem asked_run (ps : List ProviderClass) (hp : ∀ p ∈ ps, GoodProvider p) (as : List Act) (i : Nat) (p : ProviderClass) (n : Nat)
    (h : (run (init ps) as).providers[i]? = some (p, n)) : n = asked (run (init ps) as).log i := by
  suffices key : ∀ (as : List Act) (s : State), Inv s → (∀ (i : Nat) (p : ProviderClass) (n : Nat), s.providers[i]? = some (p, n) → n = asked s.log i) →
      ∀ (i : Nat) (p : ProviderClass) (n : Nat), (run s as).providers[i]? = some (p, n) → n = asked (run s as).log i by
    refine key as (init ps) (inv_run ps hp []) ?_ i p n h
    intro i p n h
    simp only [init, List.getElem?_map] at h
    cases hq : ps[i]? <;> simp [hq] at h
    simp [init, asked, h.2]
  intro as
  induction as with
  | nil => intro s _ h; exact h
  | cons a as ih =>
    intro s hs h
    refine ih (step s a) (inv_step hs a) ?_
    intro i p n hi
    cases a with
    | connect v =>
      simp only [step, hs.runs] at hi ⊢
      cases hv : s.sessions v with
      | some os => simp only [hv] at hi ⊢; exact h i p n hi
      | none =>
        obtain ⟨os, h1, _⟩ := makeAll_good v s.providers 0 hs.providers
        simp only [hv, h1, List.getElem?_map] at hi ⊢
        cases hq : s.providers[i]? with
        | none => simp [hq] at hi
        | some q =>
          obtain ⟨q1, q2⟩ := q
          have hlt : i < s.providers.length := (List.getElem?_eq_some_iff.1 hq).1
          simp only [hq, Option.map_some, Option.some.injEq, Prod.mk.injEq] at hi
          rw [asked_append, asked_range, ← h i q1 q2 hq]
          simp [hlt, ← hi.2]
    | start v =>
      simp only [step, hs.runs] at hi ⊢
      cases hv : s.sessions v with
      | none => simp only [hv] at hi ⊢; exact h i p n hi
      | some os =>
        simp only [hv, onStart_good v os (hs.sessions v os hv).1 hs.runs] at hi ⊢
        rw [asked_append, asked_append, asked_calls, h i p n hi]
        simp [asked]
    | stop v =>
      simp only [step, hs.runs] at hi ⊢
      cases hv : s.sessions v with
      | none => simp only [hv] at hi ⊢; exact h i p n hi
      | some os =>
        simp only [hv, onEnd_good v os (hs.sessions v os hv).1] at hi ⊢
        simp only [asked_append, asked_calls, h i p n hi]
        simp [asked]
    | work v =>
      simp only [step, hs.runs] at hi ⊢
      cases hv : s.sessions v with
      | none => simp only [hv] at hi ⊢; exact h i p n hi
      | some os =>
        simp only [hv] at hi ⊢
        by_cases hc : os.any (·.cls.isNone) = true
        · rw [if_pos hc] at hi ⊢; exact h i p n hi
        · rw [if_neg hc] at hi ⊢; exact h i p n hi
    | disconnect v =>
      simp only [step, hs.runs] at hi ⊢
      exact h i p n hi

/-- **A viewer that connects gets one source of each provider**, in their order, which nobody has used: what the call of `makeSource` returns, the first time it is called,
    the second time, and so on. -/
theorem one_source_each (ps : List ProviderClass) (hp : ∀ p ∈ ps, GoodProvider p) (as : List Act) (v : Nat) (hv : (run (init ps) as).sessions v = none) :
    ∃ os, (step (run (init ps) as) (.connect v)).sessions v = some os ∧ os.length = ps.length ∧
      (step (run (init ps) as) (.connect v)).log = (run (init ps) as).log ++ (List.range ps.length).map (fun i => .ask v i) ∧
      ∀ (i : Nat) (o : Obj), os[i]? = some o → o.starts = 0 ∧ o.stops = 0 ∧ o.finishes = 0 ∧
        ∃ (p : ProviderClass) (c : SourceClass) (f : Nat → Makes), ps[i]? = some p ∧ p.make = some f ∧ f (asked (run (init ps) as).log i) = .source c ∧ o.cls = some c := by
  have h := inv_run ps hp as
  have hps := providers_run ps hp as
  have hlen : (run (init ps) as).providers.length = ps.length := by simpa using congrArg List.length hps
  obtain ⟨os, h1, h2, h3, h4⟩ := makeAll_good v (run (init ps) as).providers 0 h.providers
  refine ⟨os, ?_, ?_, ?_, ?_⟩
  · simp [step, h.runs, hv, h1]
  · omega
  · simp [step, h.runs, hv, h1, hlen, List.range_eq_range']
  · intro i o hi
    obtain ⟨a, b, c, p, n, k, f, e1, e2⟩ := h4 i o hi
    rw [asked_run ps hp as i p n e1] at e2
    refine ⟨a, b, c, p, k, f, ?_, e2⟩
    have := congrArg (fun l : List ProviderClass => l[i]?) hps
    simp only [List.getElem?_map, e1, Option.map_some] at this
    exact this.symm

/-- **The start of a recording** calls `startInterval` of each source once, in their order, and then the viewer gets its reply. -/
theorem start_calls (ps : List ProviderClass) (hp : ∀ p ∈ ps, GoodProvider p) (as : List Act) (v : Nat) (os : List Obj) (hv : (run (init ps) as).sessions v = some os) :
    os.length = ps.length ∧ (step (run (init ps) as) (.start v)).log = (run (init ps) as).log ++ calls v .start ps.length ++ [.reply v] := by
  have h := inv_run ps hp as
  obtain ⟨hg, hl⟩ := h.sessions v os hv
  have hlen : os.length = ps.length := hl.trans (by simpa using congrArg List.length (providers_run ps hp as))
  refine ⟨hlen, ?_⟩
  simp [step, h.runs, hv, onStart_good v os hg h.runs, hlen]

/-- **The end of a recording**: all sources are stopped, then all are asked for their events, each once and in their order; the viewer gets what all sources give, in this order. -/
theorem end_calls (ps : List ProviderClass) (hp : ∀ p ∈ ps, GoodProvider p) (as : List Act) (v : Nat) (os : List Obj) (hv : (run (init ps) as).sessions v = some os) :
    (step (run (init ps) as) (.stop v)).log = (run (init ps) as).log ++ calls v .stop ps.length ++ [.reply v] ++ calls v .finish ps.length ++ [.events v (os.flatMap given), .complete v] := by
  have h := inv_run ps hp as
  obtain ⟨hg, hl⟩ := h.sessions v os hv
  have hlen : os.length = ps.length := hl.trans (by simpa using congrArg List.length (providers_run ps hp as))
  simp [step, h.runs, hv, onEnd_good v os hg, hlen]

/-- The number of a source's next call of `finishInterval` is the number of recordings that its viewer has ended: each result is given to the viewer once. -/
theorem end_counts (ps : List ProviderClass) (hp : ∀ p ∈ ps, GoodProvider p) (as : List Act) (v : Nat) (os : List Obj) (hv : (run (init ps) as).sessions v = some os) :
    (step (run (init ps) as) (.stop v)).sessions v = some (os.map fun o => { o with stops := o.stops + 1, finishes := o.finishes + 1 }) ∧
      (∀ w ≠ v, (step (run (init ps) as) (.stop v)).sessions w = (run (init ps) as).sessions w) ∧
      (step (run (init ps) as) (.start v)).sessions v = some (os.map fun o => { o with starts := o.starts + 1 }) ∧
      (∀ w ≠ v, (step (run (init ps) as) (.start v)).sessions w = (run (init ps) as).sessions w) := by
  have h := inv_run ps hp as
  obtain ⟨hg, hl⟩ := h.sessions v os hv
  refine ⟨?_, ?_, ?_, ?_⟩
  · simp [step, h.runs, hv, onEnd_good v os hg]
  · intro w hw; simp [step, h.runs, hv, onEnd_good v os hg, hw]
  · simp [step, h.runs, hv, onStart_good v os hg h.runs]
  · intro w hw; simp [step, h.runs, hv, onStart_good v os hg h.runs, hw]

/-- **Leaving out a method is the same as defining one that does nothing**, for both base classes: for every call. -/
theorem left_out (c : SourceClass) (n : Nat) :
    (c.start = none → plain c.start n = plain (some fun _ => true) n) ∧ (c.stop = none → plain c.stop n = plain (some fun _ => true) n) ∧
      (c.finish = none → finishOf c n = finishOf { c with finish := some fun _ => .returns (.list []) } n ∧ finishOf c n = .ok []) := by
  refine ⟨fun h => by simp [h, plain], fun h => by simp [h, plain], fun h => ?_⟩
  have hl : finishInterval (.returns (.list [])) = .ok [] := rfl
  have hm : finishInterval .missing = .ok [] := rfl
  simp only [finishOf, h, hl, hm]
  simp

/-! ## What may not be left out, and what may not raise -/

theorem makeAll_bad (v : Nat) (good : List (ProviderClass × Nat)) (hg : ∀ p ∈ good, GoodProvider p.1) (p : ProviderClass) (n : Nat) (w : String) (hb : makeOf p n = .throws w) (rest : List (ProviderClass × Nat)) (i : Nat) :
    makeAll v i (good ++ (p, n) :: rest) = ((List.range' i (good.length + 1)).map (fun j => Ev.ask v j), .throws w) := by
  induction good generalizing i with
  | nil => simp [makeAll, hb]
  | cons q good ih =>
    obtain ⟨p', n'⟩ := q
    obtain ⟨f, hf, hs⟩ := hg (p', n') (List.mem_cons_self ..)
    obtain ⟨c, hc, _⟩ := hs n'
    have hok : makeOf p' n' = .ok (some c) := by
      simp only at hf
      simp [makeOf, hf, hc]
    have := ih (fun p hp => hg p (List.mem_cons_of_mem _ hp)) (i + 1)
    simp only [List.cons_append, makeAll, hok, this, Res.bind, List.length_cons]
    rw [List.range'_succ (n := good.length + 1), List.map_cons]

/-- **`makeSource` may not be left out**, whichever base class is used: the first viewer ends the program, whatever the other providers do. -/
theorem no_makeSource (good rest : List ProviderClass) (hg : ∀ p ∈ good, GoodProvider p) (p : ProviderClass) (hp : p.make = none) (v : Nat) :
    (run (init (good ++ p :: rest)) [.connect v]).status = .terminate := by
  have := makeAll_bad v (good.map fun p => (p, 0)) (by intro q hq; obtain ⟨x, hx, rfl⟩ := List.mem_map.1 hq; exact hg x hx) p 0
    (if p.python then "TypeError" else "RuntimeError") (by simp [makeOf, hp]) (rest.map fun p => (p, 0)) 0
  simp [run, step, init, this]

theorem callAll_bad (k : Kind) (f : Obj → SourceClass → Res Unit) (v : Nat) (good : List Obj) (hg : ∀ o ∈ good, ∃ c, o.cls = some c ∧ f o c = .ok ()) (o : Obj) (c : SourceClass) (w : String)
    (hc : o.cls = some c) (hf : f o c = .throws w) (rest : List Obj) (i : Nat) :
    callAll k f v i (good ++ o :: rest) = ((List.range' i (good.length + 1)).map (fun j => Ev.call v j k), .throws w) := by
  induction good generalizing i with
  | nil => simp [callAll, hc, hf]
  | cons x good ih =>
    obtain ⟨c', hc', hf'⟩ := hg x (List.mem_cons_self ..)
    have := ih (fun o ho => hg o (List.mem_cons_of_mem _ ho)) (i + 1)
    simp only [List.cons_append, callAll, hc', hf', this, List.length_cons]
    rw [List.range'_succ (n := good.length + 1), List.map_cons]

/-- **A `startInterval` that raises ends the program**: the sources after it are not started and the viewer gets no reply. -/
theorem start_raises (s : State) (hs : s.status = .ok ()) (v : Nat) (good rest : List Obj) (hg : AllGood good) (o : Obj) (c : SourceClass) (f : Nat → Bool) (hc : o.cls = some c)
    (hf : c.start = some f) (hn : f o.starts = false) (hv : s.sessions v = some (good ++ o :: rest)) :
    (step s (.start v)).status = .terminate ∧ (step s (.start v)).log = s.log ++ calls v .start (good.length + 1) := by
  have := callAll_bad .start (fun o c => plain c.start o.starts) v good (fun o ho => (hg o ho).imp fun c hc => ⟨hc.1, plain_ok hc.2.1 _⟩) o c "error_already_set" hc (by simp [plain, hf, hn]) rest 0
  simp [step, hs, hv, onStart, this, uncaught, calls, List.range_eq_range']

/-- **A `stopInterval` that raises ends the program**: the viewer gets no reply and the events of no source. -/
theorem stop_raises (s : State) (hs : s.status = .ok ()) (v : Nat) (good rest : List Obj) (hg : AllGood good) (o : Obj) (c : SourceClass) (f : Nat → Bool) (hc : o.cls = some c)
    (hf : c.stop = some f) (hn : f o.stops = false) (hv : s.sessions v = some (good ++ o :: rest)) :
    (step s (.stop v)).status = .terminate ∧ (step s (.stop v)).log = s.log ++ calls v .stop (good.length + 1) := by
  have := callAll_bad .stop (fun o c => plain c.stop o.stops) v good (fun o ho => (hg o ho).imp fun c hc => ⟨hc.1, plain_ok hc.2.2.1 _⟩) o c "error_already_set" hc (by simp [plain, hf, hn]) rest 0
  simp [step, hs, hv, onEnd, this, uncaught, calls, List.range_eq_range']

theorem finishAll_bad (v : Nat) (good : List Obj) (hg : AllGood good) (o : Obj) (c : SourceClass) (w : String) (hc : o.cls = some c) (hf : finishOf c o.finishes = .throws w) (rest : List Obj) (i : Nat) :
    finishAll v i (good ++ o :: rest) = ((List.range' i (good.length + 1)).map (fun j => Ev.call v j .finish), .throws w) := by
  induction good generalizing i with
  | nil => simp [finishAll, hc, hf]
  | cons x good ih =>
    obtain ⟨c', hc', hg'⟩ := hg x (List.mem_cons_self ..)
    simp only [List.cons_append, finishAll, hc', finishOf_good hc' hg', ih (fun o ho => hg o (List.mem_cons_of_mem _ ho)) (i + 1), List.length_cons, range_from, Res.bind]

/-- **A `finishInterval` that raises, or returns what is not a list of events, ends the program**: the viewer gets the reply, but the events of no source. -/
theorem finish_raises (s : State) (hs : s.status = .ok ()) (v : Nat) (good rest : List Obj) (hg : AllGood good) (o : Obj) (c : SourceClass) (f : Nat → Outcome) (w : String) (hc : o.cls = some c)
    (hstop : ∀ x ∈ o :: rest, ∃ c, x.cls = some c ∧ Returns c.stop) (hf : c.finish = some f) (hn : finishInterval (f o.finishes) = .throws w) (hv : s.sessions v = some (good ++ o :: rest)) :
    (step s (.stop v)).status = .terminate ∧ (step s (.stop v)).log = s.log ++ calls v .stop (good.length + 1 + rest.length) ++ [.reply v] ++ calls v .finish (good.length + 1) := by
  have h1 := callAll_good .stop (fun o c => plain c.stop o.stops) v (good ++ o :: rest) 0 (fun x hx => by
    rcases List.mem_append.1 hx with hx | hx
    · exact (hg x hx).imp fun c hc => ⟨hc.1, plain_ok hc.2.2.1 _⟩
    · exact (hstop x hx).imp fun c hc => ⟨hc.1, plain_ok hc.2 _⟩)
  have h2 := finishAll_bad v good hg o c w hc (by simp [finishOf, hf, hn]) rest 0
  have hl : (good ++ o :: rest).length = good.length + 1 + rest.length := by simp only [List.length_append, List.length_cons]; omega
  rw [hl] at h1
  simp [step, hs, hv, onEnd, h1, h2, calls, List.range_eq_range']

/-- A `makeSource` that raises, or returns what is not a source. -/
def FailsToMake (p : ProviderClass) (n : Nat) : Prop := p.make = none ∨ ∃ f, p.make = some f ∧ (f n = .raises ∨ f n = .notASource)

/-- **A `makeSource` that fails ends the program** when a viewer connects: the providers after it are not asked. -/
theorem make_fails (s : State) (hs : s.status = .ok ()) (v : Nat) (good rest : List (ProviderClass × Nat)) (hg : ∀ p ∈ good, GoodProvider p.1) (p : ProviderClass) (n : Nat) (hp : FailsToMake p n)
    (hv : s.sessions v = none) (hps : s.providers = good ++ (p, n) :: rest) :
    (step s (.connect v)).status = .terminate ∧ (step s (.connect v)).log = s.log ++ (List.range (good.length + 1)).map (fun i => .ask v i) := by
  obtain ⟨w, hw⟩ : ∃ w, makeOf p n = .throws w := by
    rcases hp with h | ⟨f, hf, h | h⟩
    · exact ⟨_, by simp only [makeOf, h]; rfl⟩
    · exact ⟨_, by simp only [makeOf, hf, h]; rfl⟩
    · exact ⟨_, by simp only [makeOf, hf, h]; rfl⟩
  have := makeAll_bad v good hg p n w hw rest 0
  simp [step, hs, hv, hps, this, List.range_eq_range']

/-- **A `makeSource` that returns `None`** is noticed only when the session first uses it: the call through the null pointer is undefined. -/
theorem none_source (s : State) (hs : s.status = .ok ()) (v : Nat) (os : List Obj) (o : Obj) (ho : o ∈ os) (hc : o.cls = none) (hv : s.sessions v = some os) : (step s (.work v)).status = .ub := by
  have : os.any (·.cls.isNone) = true := List.any_eq_true.2 ⟨o, ho, by rw [hc]; rfl⟩
  simp [step, hs, hv, this]

theorem none_made (p : ProviderClass) (n v : Nat) (f : Nat → Makes) (hp : p.make = some f) (hn : f n = .none) (s : State) (hs : s.status = .ok ()) (hps : s.providers = [(p, n)]) (hv : s.sessions v = none) :
    (step s (.connect v)).status = .ok () ∧ (step (step s (.connect v)) (.work v)).status = .ub := by
  simp [step, hs, hv, hps, makeAll, makeOf, hp, hn, Res.bind]

/-- The viewer that an action is about. -/
def viewerOf : Act → Nat
  | .connect v | .start v | .stop v | .work v | .disconnect v => v

/-- What a viewer does leaves the sources of the others as they are, and one that leaves has none afterwards. -/
theorem others_kept (s : State) (a : Act) (w : Nat) (hw : w ≠ viewerOf a) : (step s a).sessions w = s.sessions w := by
  unfold step
  split
  · cases a with
    | connect v =>
      simp only [viewerOf] at hw
      simp only []
      split
      · rfl
      · split <;> simp [hw]
    | start v =>
      simp only [viewerOf] at hw
      simp only []
      split
      · simp [onStart, hw]
      · rfl
    | stop v =>
      simp only [viewerOf] at hw
      simp only []
      split
      · simp only [onEnd]
        split
        · split <;> simp [hw]
        · simp [hw]
      · rfl
    | work v =>
      simp only []
      split
      · split <;> rfl
      · rfl
    | disconnect v =>
      simp only [viewerOf] at hw
      simp [hw]
  · rfl

theorem leaves (s : State) (hs : s.status = .ok ()) (v : Nat) : (step s (.disconnect v)).sessions v = none ∧ (step s (.disconnect v)).log = s.log ∧ (step s (.disconnect v)).status = .ok () := by
  simp [step, hs]

/-- The full statement: a class may leave out any method that its base class has. -/
def AnyMethodLeftOut : Prop := ∀ (ps : List ProviderClass), (∀ p ∈ ps, p.python = true ∧ ∀ f, p.make = some f → ∀ n, ∃ c, f n = .source c ∧ GoodSource c) →
  ∀ as : List Act, (run (init ps) as).status = .ok ()

theorem not_AnyMethodLeftOut : ¬ AnyMethodLeftOut := by
  intro h
  have h1 := h [{}] (by intro p hp; simp at hp; subst hp; exact ⟨rfl, by simp⟩) [.connect 0]
  have h2 := no_makeSource [] [] (by simp) {} rfl 0
  simp only [List.nil_append] at h2
  rw [h2] at h1
  cases h1

/-- A provider whose sources define `startInterval` and `finishInterval`, and one whose sources define nothing: the hypotheses are met, and the viewer gets what the first gives. -/
def example1 : ProviderClass := { make := some fun _ => .source { start := some fun _ => true, finish := some fun n => .returns (.list [.bool (n == 0)]) } }
def example2 : ProviderClass := { python := false, make := some fun _ => .source { python := false } }

example : (∀ p ∈ [example1, example2], GoodProvider p) ∧
    (run (init [example1, example2]) [.connect 5, .start 5, .work 5, .stop 5, .start 5, .stop 5]).log.filterMap (fun e => match e with | .events v l => some (v, l) | _ => none) = [(5, [.bool true]), (5, [.bool false])] := by
  refine ⟨?_, ?_⟩
  · intro p hp
    rcases List.mem_cons.1 hp with rfl | hp
    · refine ⟨_, rfl, fun n => ⟨_, rfl, ?_, ?_, ?_⟩⟩
      · intro f hf; cases hf; simp
      · intro f hf; cases hf
      · intro f hf n; cases hf; exact ⟨_, rfl⟩
    · rcases List.mem_cons.1 hp with rfl | hp
      · refine ⟨_, rfl, fun n => ⟨_, rfl, ?_, ?_, ?_⟩⟩
        · intro f hf; cases hf
        · intro f hf; cases hf
        · intro f hf; cases hf
      · cases hp
  · rfl

-- The second of two sources raises in `finishInterval`; the second provider of three makes no source, or `None`.
example : (run (init [example1, { make := some fun _ => .source { finish := some fun _ => .raises } }]) [.connect 5, .start 5, .stop 5]).status = .terminate := rfl
example : FailsToMake { make := some fun _ => .raises } 0 ∧ FailsToMake { make := some fun _ => .notASource } 3 ∧ FailsToMake {} 1 := ⟨.inr ⟨_, rfl, .inl rfl⟩, .inr ⟨_, rfl, .inr rfl⟩, .inl rfl⟩
example : (run (init [example1, { make := some fun _ => .none }]) [.connect 5]).status = .ok () ∧ (run (init [example1, { make := some fun _ => .none }]) [.connect 5, .work 5]).status = .ub := ⟨rfl, rfl⟩

end Scalopus.C137
