import Verif.Spec.LttngSessions

/-!
# Invariants of recording sessions
-/

namespace Scalopus.LttngSessions

open Ctf (Event Text)

/-- The sessions that the parser has still to pass the event to. -/
def pend : Parser → List Nat
  | .wait => []
  | .line _ => []
  | .scan _ todo => todo
  | .test _ c todo => c :: todo
  | .call _ c todo => c :: todo
  | .run _ c todo => c :: todo

/-- The session the parser is at. -/
def atc : Parser → Option Nat
  | .test _ c _ => some c
  | .call _ c _ => some c
  | .run _ c _ => some c
  | _ => none

/-- The event. -/
def ev : Parser → List Event
  | .wait => []
  | .line _ => []
  | .scan e _ => [e]
  | .test e _ _ => [e]
  | .call e _ _ => [e]
  | .run e _ _ => [e]

/-- What session `c` is still to receive. -/
def due (p : Parser) (c : Nat) : List Event := if c ∈ pend p then ev p else []

theorem due_scan {e : Event} {c d : Nat} {todo : List Nat} (h : d ≠ c) (p : Parser) (hp : pend p = c :: todo) (he : ev p = [e]) : due p d = due (.scan e todo) d := by
  unfold due
  rw [hp, he]
  by_cases hd : d ∈ todo
  · rw [if_pos (List.mem_cons_of_mem _ hd), if_pos (show d ∈ pend (.scan e todo) from hd)]; rfl
  · rw [if_neg (by simp [h, hd]), if_neg (show d ∉ pend (.scan e todo) from hd)]

/-- What a session that was added after `n` lines is to receive of the lines. -/
def full (keyFirst : Bool) (s : State) (n : Nat) : List (Res Event) := (s.passed.drop n).map (Ctf.parse keyFirst)

structure SessInv (keyFirst : Bool) (s : State) (c : Nat) (x : Session) : Prop where
  since : x.since ≤ s.passed.length
  mem : x.active = true → c ∈ s.recording
  cb : x.callback = false → x.active = false
  pre : x.received.map Res.ok <+: full keyFirst s x.since
  ex : x.active = true ∨ atc s.parser = some c → (x.received ++ due s.parser c).map Res.ok = full keyFirst s x.since
  src : ∃ y, s.sources[x.source]? = some y

/-- The state of the session of a source, by where the thread of the source is. -/
def UserOk (u : User) (x : Session) : Prop :=
  match u with
  | .idle => x.active = true ∧ x.callback = true
  | .disable _ => x.active = true ∧ x.callback = true
  | .null _ => x.active = false ∧ x.callback = true
  | .clear => False
  | .insert => False

structure Inv (keyFirst : Bool) (s : State) : Prop where
  nodup : s.recording.Nodup
  bound : ∀ c ∈ s.recording, c < s.sessions.length
  sub : ∀ c ∈ pend s.parser, c ∈ s.recording
  pnodup : (pend s.parser).Nodup
  sess : ∀ c x, s.sessions[c]? = some x → SessInv keyFirst s c x
  cur : ∀ (i : Nat) (y : Source) (c : Nat), s.sources[i]? = some y → y.current = some c → ∃ x, s.sessions[c]? = some x ∧ x.source = i ∧ UserOk y.user x

theorem inv_init (keyFirst : Bool) : Inv keyFirst {} := by
  constructor <;> simp [pend]

theorem full_snoc {keyFirst : Bool} {s : State} {n : Nat} (hn : n ≤ s.passed.length) (l : Text) (s' : State) (h : s'.passed = s.passed ++ [l]) :
    full keyFirst s' n = full keyFirst s n ++ [Ctf.parse keyFirst l] := by
  unfold full
  rw [h, List.drop_append_of_le_length hn]
  simp

/-- Steps that change only the parser or the sources, with the sessions as they are. -/
theorem inv_parser {keyFirst : Bool} {s : State} (h : Inv keyFirst s) {s' : State} (hs : parserStep keyFirst s = some s') (hf : s'.fate = .running) : Inv keyFirst s' := by
  unfold parserStep at hs
  split at hs
  · cases hs
  · rename_i l hp
    split at hs
    · rename_i hr
      cases hs
      refine ⟨h.nodup, h.bound, by simp [pend], by simp [pend], ?_, h.cur⟩
      intro c x hx
      have hi := h.sess c x hx
      have hc : x.active = false := by
        by_contra hc
        have := hi.mem (by simpa using hc)
        rw [hr] at this; cases this
      have hfull := full_snoc (keyFirst := keyFirst) hi.since l { s with parser := .wait, passed := s.passed ++ [l] } rfl
      exact ⟨by have := hi.since; simp; omega, hi.mem, hi.cb, by rw [hfull]; exact hi.pre.trans (List.prefix_append _ _), by simp [hc, atc], hi.src⟩
    · split at hs
      · rename_i e he
        cases hs
        refine ⟨h.nodup, h.bound, by simp [pend], by simpa [pend] using h.nodup, ?_, h.cur⟩
        intro c x hx
        have hi := h.sess c x hx
        have hfull := full_snoc (keyFirst := keyFirst) hi.since l { s with parser := .scan e s.recording, passed := s.passed ++ [l] } rfl
        refine ⟨by have := hi.since; simp; omega, hi.mem, hi.cb, by rw [hfull]; exact hi.pre.trans (List.prefix_append _ _), ?_, hi.src⟩
        intro ha
        simp only [atc, reduceCtorEq, or_false] at ha
        have hex := hi.ex (.inl ha)
        rw [hfull, he, ← hex]
        simp [due, pend, ev, hp, hi.mem ha]
      · cases hs; cases hf
      · cases hs; cases hf
  · rename_i e hp
    cases hs
    refine ⟨h.nodup, h.bound, by simp [pend], by simp [pend], ?_, h.cur⟩
    intro c x hx
    have hi := h.sess c x hx
    refine ⟨hi.since, hi.mem, hi.cb, hi.pre, ?_, hi.src⟩
    intro ha
    simp only [atc, reduceCtorEq, or_false] at ha
    have hex := hi.ex (.inl ha)
    rw [hp] at hex
    exact hex
  · rename_i e c todo hp
    split at hs
    · cases hs
    · rename_i x hx
      have hsub := h.sub
      have hpn := h.pnodup
      rw [hp] at hsub hpn
      simp only [pend, List.nodup_cons, List.mem_cons] at hsub hpn
      split at hs
      · rename_i hact
        cases hs
        refine ⟨h.nodup.filter _, fun d hd => h.bound d (List.mem_filter.mp hd).1, ?_, hpn.2, ?_, h.cur⟩
        · intro d hd
          simp only [pend] at hd
          refine List.mem_filter.mpr ⟨hsub d (.inr hd), ?_⟩
          simp only [ne_eq, decide_not, Bool.not_eq_eq_eq_not, Bool.not_true, decide_eq_false_iff_not]
          rintro rfl
          exact hpn.1 hd
        · intro d y hy
          have hi := h.sess d y hy
          have hne : y.active = true → d ≠ c := by
            rintro ha rfl
            rw [hy] at hx
            cases hx
            rw [hact] at ha
            cases ha
          refine ⟨hi.since, ?_, hi.cb, hi.pre, ?_, hi.src⟩
          · intro ha
            exact List.mem_filter.mpr ⟨hi.mem ha, by simpa using hne ha⟩
          · intro ha
            simp only [atc, reduceCtorEq, or_false] at ha
            have hex := hi.ex (.inl ha)
            rw [hp] at hex
            have : due (.scan e (c :: todo)) d = due (.scan e todo) d := due_scan (hne ha) _ rfl rfl
            rw [this] at hex
            exact hex
      · rename_i hact
        cases hs
        refine ⟨h.nodup, h.bound, by simpa [pend] using hsub, by simpa [pend] using hpn, ?_, h.cur⟩
        intro d y hy
        have hi := h.sess d y hy
        refine ⟨hi.since, hi.mem, hi.cb, hi.pre, ?_, hi.src⟩
        intro ha
        have hex := hi.ex (by
          left
          rcases ha with ha | ha
          · exact ha
          · simp only [atc, Option.some.injEq] at ha
            subst ha
            rw [hy] at hx
            cases hx
            simpa using hact)
        rw [hp] at hex
        exact hex
  · rename_i e c todo hp
    split at hs
    · cases hs
    · rename_i x hx
      have hsub := h.sub
      have hpn := h.pnodup
      rw [hp] at hsub hpn
      simp only [pend, List.nodup_cons, List.mem_cons] at hsub hpn
      split at hs
      · cases hs
        refine ⟨h.nodup, h.bound, by simpa [pend] using hsub, by simpa [pend] using hpn, ?_, h.cur⟩
        intro d y hy
        have hi := h.sess d y hy
        refine ⟨hi.since, hi.mem, hi.cb, hi.pre, ?_, hi.src⟩
        intro ha
        have hex := hi.ex (by rw [hp]; exact ha)
        rw [hp] at hex
        exact hex
      · rename_i hcb
        cases hs
        refine ⟨h.nodup, h.bound, fun d hd => hsub d (.inr hd), hpn.2, ?_, h.cur⟩
        intro d y hy
        have hi := h.sess d y hy
        refine ⟨hi.since, hi.mem, hi.cb, hi.pre, ?_, hi.src⟩
        intro ha
        simp only [atc, reduceCtorEq, or_false] at ha
        have hne : d ≠ c := by
          rintro rfl
          rw [hy] at hx
          cases hx
          have := hi.cb (by simpa using hcb)
          rw [this] at ha
          cases ha
        have hex := hi.ex (.inl ha)
        rw [hp] at hex
        have : due (.test e c todo) d = due (.scan e todo) d := due_scan (hne) _ rfl rfl
        rw [this] at hex
        exact hex
  · rename_i e c todo hp
    split at hs
    · cases hs
    · rename_i x hx
      have hsub := h.sub
      have hpn := h.pnodup
      rw [hp] at hsub hpn
      simp only [pend, List.nodup_cons, List.mem_cons] at hsub hpn
      split at hs
      · cases hs
        refine ⟨h.nodup, h.bound, by simpa [pend] using hsub, by simpa [pend] using hpn, ?_, h.cur⟩
        intro d y hy
        have hi := h.sess d y hy
        refine ⟨hi.since, hi.mem, hi.cb, hi.pre, ?_, hi.src⟩
        intro ha
        have hex := hi.ex (by rw [hp]; exact ha)
        rw [hp] at hex
        exact hex
      · cases hs; cases hf
  · rename_i e c todo hp
    split at hs
    · cases hs
    · rename_i x hx
      have hsub := h.sub
      have hpn := h.pnodup
      rw [hp] at hsub hpn
      simp only [pend, List.nodup_cons, List.mem_cons] at hsub hpn
      split at hs
      · cases hs
      · rename_i y hy
        split at hs
        · cases hs
          have hlt : c < s.sessions.length := by
            rw [List.getElem?_eq_some_iff] at hx
            exact hx.1
          refine ⟨h.nodup, by simpa using h.bound, fun d hd => hsub d (.inr hd), hpn.2, ?_, ?_⟩
          · intro d z hz
            simp only [List.getElem?_set] at hz
            by_cases hdc : c = d
            · subst hdc
              rw [if_pos rfl, if_pos hlt] at hz
              cases hz
              have hi := h.sess c x hx
              have hex := hi.ex (.inr (by rw [hp]; rfl))
              rw [hp] at hex
              have hd : due (.run e c todo) c = [e] := by simp [due, pend, ev]
              rw [hd] at hex
              refine ⟨hi.since, hi.mem, hi.cb, ?_, ?_, ?_⟩
              · show _ <+: full keyFirst s x.since
                exact hex ▸ List.prefix_refl _
              · intro _
                have : due (.scan e todo) c = [] := by simp [due, pend, hpn.1]
                show (_ ++ due (.scan e todo) c).map _ = full keyFirst s x.since
                rw [this, ← hex]
                simp
              · exact ⟨_, by rw [List.getElem?_set, if_pos rfl, if_pos]; rw [List.getElem?_eq_some_iff] at hy; exact hy.1⟩
            · rw [if_neg hdc] at hz
              have hi := h.sess d z hz
              refine ⟨hi.since, hi.mem, hi.cb, hi.pre, ?_, ?_⟩
              · intro ha
                simp only [atc, reduceCtorEq, or_false] at ha
                have hex := hi.ex (.inl ha)
                rw [hp] at hex
                have : due (.run e c todo) d = due (.scan e todo) d := due_scan (Ne.symm hdc) _ rfl rfl
                rw [this] at hex
                exact hex
              · obtain ⟨w, hw⟩ := hi.src
                simp only [List.getElem?_set]
                split
                · split
                  · exact ⟨_, rfl⟩
                  · rename_i h1 h2
                    rw [← h1, List.getElem?_eq_some_iff] at hw
                    exact absurd hw.1 h2
                · exact ⟨w, hw⟩
          · intro i z d hz hd
            obtain ⟨w, hw, hw2⟩ : ∃ x, s.sessions[d]? = some x ∧ x.source = i ∧ UserOk z.user x := by
              simp only [List.getElem?_set] at hz
              split at hz
              · split at hz
                · rename_i h1 _
                  cases hz
                  exact h.cur i y d (h1 ▸ hy) hd
                · cases hz
              · exact h.cur i z d hz hd
            simp only [List.getElem?_set]
            by_cases hcd : c = d
            · subst hcd
              rw [hx] at hw
              cases hw
              rw [if_pos rfl, if_pos hlt]
              exact ⟨_, rfl, hw2⟩
            · rw [if_neg hcd]
              exact ⟨w, hw, hw2⟩
        · cases hs; cases hf

/-- Replacing a session by one that differs only in that it is switched off. -/
theorem inv_off {keyFirst : Bool} {s : State} (h : Inv keyFirst s) {c : Nat} {x x' : Session} (hx : s.sessions[c]? = some x) (h1 : x'.source = x.source)
    (h2 : x'.active = false) (h4 : x'.since = x.since) (h5 : x'.received = x.received) {k : Nat} {y y' : Source} (hk : s.sources[k]? = some y) (hyc : y.current = some c)
    (hy' : y'.current = none ∨ y'.current = some c ∧ UserOk y'.user x') :
    Inv keyFirst { s with sessions := s.sessions.set c x', sources := s.sources.set k y' } := by
  have hlt : c < s.sessions.length := by
    rw [List.getElem?_eq_some_iff] at hx
    exact hx.1
  have hsrc : ∀ i : Nat, (∃ y, s.sources[i]? = some y) → ∃ z, (s.sources.set k y')[i]? = some z := by
    rintro i ⟨y, hy⟩
    rw [List.getElem?_eq_some_iff] at hy
    exact ⟨_, List.getElem?_eq_getElem (by simpa using hy.1)⟩
  have hsc : x.source = k := by
    obtain ⟨w, hw, hw2, _⟩ := h.cur k y c hk hyc
    rw [hx] at hw
    cases hw
    exact hw2
  refine ⟨h.nodup, by simpa using h.bound, h.sub, h.pnodup, ?_, ?_⟩
  · intro d z hz
    simp only [List.getElem?_set] at hz
    by_cases hdc : c = d
    · subst hdc
      rw [if_pos rfl, if_pos hlt] at hz
      cases hz
      have hi := h.sess c x hx
      refine ⟨h4 ▸ hi.since, by simp [h2], fun _ => h2, ?_, ?_, ?_⟩
      · rw [h4, h5]; exact hi.pre
      · rw [h4, h5, h2]
        intro ha
        simp only [Bool.false_eq_true, false_or] at ha
        exact hi.ex (.inr ha)
      · rw [h1]; exact hsrc _ hi.src
    · rw [if_neg hdc] at hz
      have hi := h.sess d z hz
      exact ⟨hi.since, hi.mem, hi.cb, hi.pre, hi.ex, hsrc _ hi.src⟩
  · intro i z d hz hd
    simp only [List.getElem?_set] at hz ⊢
    by_cases hki : k = i
    · subst hki
      rw [if_pos rfl] at hz
      split at hz
      · cases hz
        rcases hy' with hy' | ⟨hy', hu⟩
        · rw [hy'] at hd; cases hd
        · rw [hy'] at hd
          cases hd
          rw [if_pos rfl, if_pos hlt]
          exact ⟨x', rfl, by rw [h1, hsc], hu⟩
      · cases hz
    · rw [if_neg hki] at hz
      obtain ⟨w, hw, hw2⟩ := h.cur i z d hz hd
      by_cases hcd : c = d
      · subst hcd
        rw [hx] at hw
        cases hw
        exact absurd (hsc.symm.trans hw2.1) hki
      · rw [if_neg hcd]
        exact ⟨w, hw, hw2⟩

/-- Steps that change only one source. -/
theorem inv_source {keyFirst : Bool} {s : State} (h : Inv keyFirst s) {k : Nat} {y y' : Source} (hk : s.sources[k]? = some y)
    (hc : ∀ d, y'.current = some d → y.current = some d ∧ ∀ x, UserOk y.user x → UserOk y'.user x) :
    Inv keyFirst { s with sources := s.sources.set k y' } := by
  refine ⟨h.nodup, h.bound, h.sub, h.pnodup, ?_, ?_⟩
  · intro d z hz
    have hi := h.sess d z hz
    refine ⟨hi.since, hi.mem, hi.cb, hi.pre, hi.ex, ?_⟩
    obtain ⟨y, hy⟩ := hi.src
    rw [List.getElem?_eq_some_iff] at hy
    exact ⟨_, List.getElem?_eq_getElem (by simpa using hy.1)⟩
  · intro i z d hz hd
    simp only [List.getElem?_set] at hz
    by_cases hki : k = i
    · subst hki
      rw [if_pos rfl] at hz
      split at hz
      · cases hz
        obtain ⟨h1, h2⟩ := hc d hd
        obtain ⟨w, hw, hw2, hw3⟩ := h.cur k y d hk h1
        exact ⟨w, hw, hw2, h2 w hw3⟩
      · cases hz
    · rw [if_neg hki] at hz
      exact h.cur i z d hz hd

theorem next_current (y : Source) (a : After) : (next y a).current = y.current := by cases a <;> rfl

theorem mem_insertIdx {l : List Nat} {p x d : Nat} (hp : p ≤ l.length) : d ∈ l.insertIdx p x ↔ d = x ∨ d ∈ l := by
  rw [List.mem_insertIdx hp]

theorem inv_user {keyFirst : Bool} {s : State} (h : Inv keyFirst s) {src pos : Nat} {s' : State} (hs : userStep s src pos = some s') : Inv keyFirst s' := by
  unfold userStep at hs
  split at hs
  · cases hs
  · rename_i y hy
    split at hs
    · cases hs
    · rename_i a hu
      split at hs
      · cases hs
      · rename_i c hc
        split at hs
        · cases hs
        · rename_i x hx
          cases hs
          refine inv_off (x' := { x with active := false }) (y' := { y with user := .null a }) h hx rfl rfl rfl rfl hy hc (.inr ⟨hc, rfl, ?_⟩)
          obtain ⟨w, hw, hw2, hw3⟩ := h.cur src y c hy hc
          rw [hx] at hw
          cases hw
          rw [hu] at hw3
          exact hw3.2
    · rename_i a hu
      split at hs
      · cases hs
      · rename_i c hc
        split at hs
        · cases hs
        · rename_i x hx
          cases hs
          have hact : x.active = false := by
            obtain ⟨w, hw, hw2, hw3⟩ := h.cur src y c hy hc
            rw [hx] at hw
            cases hw
            rw [hu] at hw3
            exact hw3.1
          exact inv_off (x' := { x with callback := false }) (y' := next { y with current := none } a) h hx rfl hact rfl rfl hy hc (.inl (next_current _ _))
    · rename_i hu
      cases hs
      refine inv_source h hy ?_
      intro d hd
      obtain ⟨w, hw, hw2, hw3⟩ := h.cur src y d hy hd
      rw [hu] at hw3
      exact hw3.elim
    · rename_i hu
      split at hs
      · cases hs
      · rename_i hlock
        cases hs
        have hnot : s.sessions.length ∉ s.recording := fun hm => Nat.lt_irrefl _ (h.bound _ hm)
        have hpend : pend s.parser = [] ∧ atc s.parser = none := by
          cases hp : s.parser <;> rw [hp] at hlock <;> simp [Parser.locked, pend, atc] at hlock ⊢
        have hlen : src < s.sources.length := by
          rw [List.getElem?_eq_some_iff] at hy
          exact hy.1
        have hdue : ∀ d, due s.parser d = [] := by intro d; simp [due, hpend.1]
        refine ⟨?_, ?_, ?_, h.pnodup, ?_, ?_⟩
        · rw [(List.perm_insertIdx _ _ (Nat.min_le_right _ _)).nodup_iff]
          exact List.nodup_cons.mpr ⟨hnot, h.nodup⟩
        · intro d hd
          rcases (mem_insertIdx (Nat.min_le_right _ _)).mp hd with rfl | hd
          · simp
          · have := h.bound d hd
            simp; omega
        · simp [hpend.1]
        · intro d z hz
          have hsrc : ∀ i : Nat, (∃ y, s.sources[i]? = some y) → ∃ z, (s.sources.set src { y with current := some s.sessions.length, user := .idle })[i]? = some z := by
            rintro i ⟨y, hy⟩
            rw [List.getElem?_eq_some_iff] at hy
            exact ⟨_, List.getElem?_eq_getElem (by simpa using hy.1)⟩
          simp only [List.getElem?_append] at hz
          split at hz
          · have hi := h.sess d z hz
            refine ⟨hi.since, fun ha => (mem_insertIdx (Nat.min_le_right _ _)).mpr (.inr (hi.mem ha)), hi.cb, hi.pre, hi.ex, hsrc _ hi.src⟩
          · rename_i hd
            have hd0 : d - s.sessions.length = 0 := by
              by_contra hne
              obtain ⟨m, hm⟩ : ∃ m, d - s.sessions.length = m + 1 := ⟨d - s.sessions.length - 1, by omega⟩
              rw [hm] at hz
              simp at hz
            have hde : d = s.sessions.length := by omega
            rw [hd0] at hz
            simp only [List.getElem?_cons_zero, Option.some.injEq] at hz
            subst hz
            refine ⟨Nat.le_refl _, fun _ => (mem_insertIdx (Nat.min_le_right _ _)).mpr (.inl hde), by simp, by simp, ?_, hsrc _ ⟨_, hy⟩⟩
            intro _
            show List.map _ ([] ++ due s.parser d) = _
            rw [hdue]
            simp [full]
        · intro i z d hz hd
          simp only [List.getElem?_set] at hz
          split at hz
          · rename_i hi
            subst hi
            cases hz
            cases hd
            exact ⟨{ source := src, since := s.passed.length }, by simp, rfl, rfl, rfl⟩
          · obtain ⟨w, hw, hw2⟩ := h.cur i z d hz hd
            refine ⟨w, ?_, hw2⟩
            rw [List.getElem?_append_left]
            · exact hw
            · rw [List.getElem?_eq_some_iff] at hw
              exact hw.1

theorem inv_step {keyFirst : Bool} {s s' : State} {a : Act} (h : Inv keyFirst s) (hs : step keyFirst s a = some s') (hf : s'.fate = .running) : Inv keyFirst s' := by
  unfold step at hs
  split at hs
  · cases hs
  · split at hs
    · split at hs
      · rename_i hp
        cases hs
        have hpd : ∀ d, due s.parser d = [] := by intro d; simp [due, hp, pend]
        refine ⟨h.nodup, h.bound, by simp [pend], by simp [pend], ?_, h.cur⟩
        intro c x hx
        have hi := h.sess c x hx
        refine ⟨hi.since, hi.mem, hi.cb, hi.pre, ?_, hi.src⟩
        intro ha
        simp only [atc, reduceCtorEq, or_false] at ha
        have hex := hi.ex (.inl ha)
        rw [hpd] at hex
        exact hex
      · cases hs
    · exact inv_parser h hs hf
    · cases hs
      refine ⟨h.nodup, h.bound, h.sub, h.pnodup, ?_, ?_⟩
      · intro d z hz
        have hi := h.sess d z hz
        refine ⟨hi.since, hi.mem, hi.cb, hi.pre, hi.ex, ?_⟩
        obtain ⟨y, hy⟩ := hi.src
        rw [List.getElem?_eq_some_iff] at hy
        exact ⟨_, List.getElem?_eq_getElem (by have := hy.1; simp; omega)⟩
      · intro i y d hy hd
        simp only [List.getElem?_append] at hy
        split at hy
        · exact h.cur i y d hy hd
        · cases hk : i - s.sources.length with
          | zero => rw [hk] at hy; simp at hy; subst hy; cases hd
          | succ m => rw [hk] at hy; simp at hy
    · split at hs
      · cases hs
      · rename_i src a y hy
        split at hs
        · rename_i hu
          cases hs
          refine inv_source h hy ?_
          intro d hd
          split at hd
          · refine ⟨hd, ?_⟩
            rename_i hc
            rw [if_pos hc, hu.2]
            exact fun x hx => hx
          · rename_i hc
            rw [next_current] at hd
            rw [hd] at hc
            exact absurd rfl hc
        · cases hs
    · exact inv_user h hs

theorem fate_running {keyFirst : Bool} {s s' : State} {a : Act} (hs : step keyFirst s a = some s') : s.fate = .running := by
  unfold step at hs
  split at hs
  · cases hs
  · rename_i h
    simpa using h

theorem inv_reachable {keyFirst : Bool} {P : State → Act → Prop} {s : State} (h : ReachableBy keyFirst P s) (hf : s.fate = .running) : Inv keyFirst s := by
  induction h with
  | init => exact inv_init keyFirst
  | step _ _ hs ih => exact inv_step (ih (fate_running hs)) hs hf

/-- What holds in quiet executions, in addition. -/
structure QInv (keyFirst : Bool) (s : State) : Prop where
  inv : Inv keyFirst s
  act : ∀ c, atc s.parser = some c → ∃ x, s.sessions[c]? = some x ∧ x.active = true ∧ x.callback = true
  own : ∀ (c : Nat) (x : Session), s.sessions[c]? = some x → x.active = true → ∃ y, s.sources[x.source]? = some y ∧ y.current = some c ∧ y.alive = true
  eve : ∀ (i : Nat) (y : Source) (c : Nat) (x : Session), s.sources[i]? = some y → y.current = some c → s.sessions[c]? = some x → y.events = x.received
  liv : ∀ (i : Nat) (y : Source), s.sources[i]? = some y → y.user ≠ .idle → y.alive = true
  ins : ∀ (i : Nat) (y : Source), s.sources[i]? = some y → y.user = .insert → y.events = []

theorem q_init (keyFirst : Bool) : QInv keyFirst {} := by
  constructor <;> simp [atc, inv_init]

theorem parserStep_cases {keyFirst : Bool} {s s' : State} (hs : parserStep keyFirst s = some s') :
    s'.sessions = s.sessions ∧ s'.sources = s.sources ∨
    ∃ e c todo x y, s.parser = .run e c todo ∧ s.sessions[c]? = some x ∧ s.sources[x.source]? = some y ∧
      s'.sessions = s.sessions.set c { x with received := x.received ++ [e] } ∧ s'.sources = s.sources.set x.source { y with events := y.events ++ [e] } := by
  unfold parserStep at hs
  grind

theorem q_parser {keyFirst : Bool} {s : State} (h : QInv keyFirst s) {s' : State} (hs : parserStep keyFirst s = some s') (hf : s'.fate = .running) : QInv keyFirst s' := by
  have hcl : ∀ (i : Nat) (y : Source) (c : Nat), s.sources[i]? = some y → y.current = some c → y.user ≠ .insert := by
    intro i y c hy hc hu
    obtain ⟨w, _, _, hw⟩ := h.inv.cur i y c hy hc
    rw [hu] at hw
    exact hw
  refine ⟨inv_parser h.inv hs hf, ?_, ?_, ?_, ?_, ?_⟩
  · unfold parserStep at hs
    have h1 := h.act
    have h2 : ∀ (c : Nat) (x : Session), s.sessions[c]? = some x → x.callback = false → x.active = false := fun c x hx => (h.inv.sess c x hx).cb
    grind [atc]
  · rcases parserStep_cases hs with ⟨h1, h2⟩ | ⟨e, c, todo, x, y, h1, h2, h3, h4, h5⟩
    · rw [h1, h2]; exact h.own
    · rw [h4, h5]
      intro d z hz ha
      have hz' : ∃ z', s.sessions[d]? = some z' ∧ z'.active = z.active ∧ z'.source = z.source := by grind
      obtain ⟨z', hz1, hz2, hz3⟩ := hz'
      obtain ⟨w, hw1, hw2, hw3⟩ := h.own d z' hz1 (by rw [hz2]; exact ha)
      rw [hz3] at hw1
      by_cases hxs : x.source = z.source
      · rw [hxs] at h3 ⊢
        rw [h3] at hw1
        cases hw1
        exact ⟨{ y with events := y.events ++ [e] }, by grind, hw2, hw3⟩
      · exact ⟨w, by grind, hw2, hw3⟩
  · rcases parserStep_cases hs with ⟨h1, h2⟩ | ⟨e, c, todo, x, y, h1, h2, h3, h4, h5⟩
    · rw [h1, h2]; exact h.eve
    · rw [h4, h5]
      intro i z d w hz hd hw
      obtain ⟨x', hx1, hx2, _⟩ := h.act c (by rw [h1]; rfl)
      rw [h2] at hx1
      cases hx1
      obtain ⟨y', hy1, hy2, _⟩ := h.own c x h2 hx2
      rw [h3] at hy1
      cases hy1
      have h6 := h.eve
      have h7 := h.inv.cur
      by_cases hi : x.source = i
      · subst hi
        have hz' : z = { y with events := y.events ++ [e] } := by grind
        subst hz'
        have hdc : d = c := by
          simp only at hd
          rw [hy2] at hd
          cases hd
          rfl
        subst hdc
        have := h6 x.source y d x h3 hy2 h2
        grind
      · have hz' : s.sources[i]? = some z := by grind
        obtain ⟨w', hw1, hw2, _⟩ := h7 i z d hz' hd
        have hdc : d ≠ c := by
          rintro rfl
          rw [h2] at hw1
          cases hw1
          exact hi hw2
        exact h6 i z d w hz' hd (by grind)
  · have h6 := h.liv
    rcases parserStep_cases hs with ⟨h1, h2⟩ | ⟨e, c, todo, x, y, h1, h2, h3, h4, h5⟩
    · rw [h2]; exact h6
    · rw [h5]; grind
  · have h6 := h.ins
    rcases parserStep_cases hs with ⟨h1, h2⟩ | ⟨e, c, todo, x, y, h1, h2, h3, h4, h5⟩
    · rw [h2]; exact h6
    · rw [h5]
      obtain ⟨x', hx1, hx2, _⟩ := h.act c (by rw [h1]; rfl)
      rw [h2] at hx1
      cases hx1
      obtain ⟨y', hy1, hy2, _⟩ := h.own c x h2 hx2
      rw [h3] at hy1
      cases hy1
      have := hcl x.source y c h3 hy2
      grind

theorem q_off {keyFirst : Bool} {s : State} (h : QInv keyFirst s) {c : Nat} {x x' : Session} {k : Nat} {y y' : Source}
    (h0 : Inv keyFirst { s with sessions := s.sessions.set c x', sources := s.sources.set k y' })
    (hact : ∀ d, atc s.parser = some d → ∃ z, (s.sessions.set c x')[d]? = some z ∧ z.active = true ∧ z.callback = true)
    (hx : s.sessions[c]? = some x) (h1 : x'.source = x.source) (h2 : x'.active = false) (h5 : x'.received = x.received)
    (hk : s.sources[k]? = some y) (hyc : y.current = some c) (hy' : y'.current = none ∨ y'.current = y.current) (hl : y'.user ≠ .idle → y'.alive = true) (hn : y'.user ≠ .insert)
    (he : y'.events = y.events) :
    QInv keyFirst { s with sessions := s.sessions.set c x', sources := s.sources.set k y' } := by
  have g1 := h.own
  have g2 := h.eve
  have g3 := h.liv
  have g4 := h.ins
  have g5 := h.inv.cur
  refine ⟨h0, hact, ?_, ?_, ?_, ?_⟩
  · intro d z hz ha
    simp only [List.getElem?_set] at hz
    split at hz
    · split at hz
      · cases hz
        rw [h2] at ha
        cases ha
      · cases hz
    · rename_i hcd
      obtain ⟨w, hw1, hw2, hw3⟩ := g1 d z hz ha
      refine ⟨w, ?_, hw2, hw3⟩
      rw [List.getElem?_set_ne]
      · exact hw1
      · rintro rfl
        rw [hk] at hw1
        cases hw1
        rw [hyc] at hw2
        cases hw2
        exact hcd rfl
  · intro i z d w hz hd hw
    simp only [List.getElem?_set] at hz hw
    grind
  · intro i z hz
    simp only [List.getElem?_set] at hz
    grind
  · intro i z hz
    simp only [List.getElem?_set] at hz
    grind

theorem q_user {keyFirst : Bool} {s : State} (h : QInv keyFirst s) {src pos : Nat} {s' : State} (hs : userStep s src pos = some s') (hq : s.parser.locked = false) : QInv keyFirst s' := by
  have hat : atc s.parser = none := by
    cases hp : s.parser <;> rw [hp] at hq <;> simp [Parser.locked, atc] at hq ⊢
  have hp' : s'.parser = s.parser := by
    unfold userStep at hs
    grind
  have h0 := inv_user h.inv hs
  have hact : ∀ c, atc s'.parser = some c → ∃ x, s'.sessions[c]? = some x ∧ x.active = true ∧ x.callback = true := by rw [hp', hat]; simp
  unfold userStep at hs
  split at hs
  · cases hs
  · rename_i y hy
    have hlen : src < s.sources.length := by
      rw [List.getElem?_eq_some_iff] at hy
      exact hy.1
    have hliv := h.liv src y hy
    have hins := h.ins src y hy
    split at hs
    · cases hs
    · rename_i a hu
      split at hs
      · cases hs
      · rename_i c hc
        split at hs
        · cases hs
        · rename_i x hx
          cases hs
          exact q_off h h0 hact hx rfl rfl rfl hy hc (.inr rfl) (by simp only [ne_eq, reduceCtorEq, not_false_eq_true, forall_const]; exact hliv (by simp [hu])) (by simp) rfl
    · rename_i a hu
      split at hs
      · cases hs
      · rename_i c hc
        split at hs
        · cases hs
        · rename_i x hx
          cases hs
          have hact' : x.active = false := by
            obtain ⟨w, hw, hw2, hw3⟩ := h.inv.cur src y c hy hc
            rw [hx] at hw
            cases hw
            rw [hu] at hw3
            exact hw3.1
          refine q_off h h0 hact hx rfl hact' rfl hy hc (.inl (next_current _ _)) ?_ ?_ ?_
          · cases a <;> simp [next, hliv, hu]
          · cases a <;> simp [next]
          · cases a <;> rfl
    · rename_i hu
      cases hs
      have hcur : y.current = none := by
        cases hc : y.current with
        | none => rfl
        | some c =>
          obtain ⟨w, _, _, hw⟩ := h.inv.cur src y c hy hc
          rw [hu] at hw
          exact hw.elim
      have h1 := h.own
      have h2 := h.eve
      have h3 := h.liv
      have h4 := h.ins
      have h5 := h.inv.cur
      refine ⟨h0, hact, ?_, ?_, ?_, ?_⟩
      · intro d z hz ha
        obtain ⟨w, hw1, hw2, hw3⟩ := h1 d z hz ha
        exact ⟨w, by grind, hw2, hw3⟩
      · intro i z d w hz hd hw
        simp only [List.getElem?_set] at hz
        grind
      · intro i z hz
        simp only [List.getElem?_set] at hz
        grind
      · intro i z hz
        simp only [List.getElem?_set] at hz
        grind
    · rename_i hu
      split at hs
      · cases hs
      · cases hs
        have hcur : y.current = none := by
          cases hc : y.current with
          | none => rfl
          | some c =>
            obtain ⟨w, _, _, hw⟩ := h.inv.cur src y c hy hc
            rw [hu] at hw
            exact hw.elim
        have h1 := h.own
        have h2 := h.eve
        have h3 := h.liv
        have h4 := h.ins
        have h5 := h.inv.cur
        refine ⟨h0, hact, ?_, ?_, ?_, ?_⟩
        · intro d z hz ha
          simp only [List.getElem?_append] at hz
          split at hz
          · obtain ⟨w, hw1, hw2, hw3⟩ := h1 d z hz ha
            exact ⟨w, by grind, hw2, hw3⟩
          · have hd : d = s.sessions.length ∧ z = { source := src, since := s.passed.length } := by grind
            obtain ⟨rfl, rfl⟩ := hd
            exact ⟨{ y with current := some s.sessions.length, user := .idle }, by grind, rfl, hliv (by simp [hu])⟩
        · intro i z d w hz hd hw
          simp only [List.getElem?_set] at hz
          split at hz
          · rename_i hi
            subst hi
            cases hz
            cases hd
            simp only [List.getElem?_append, Nat.lt_irrefl, if_false, Nat.sub_self, List.getElem?_cons_zero, Option.some.injEq] at hw
            subst hw
            exact hins hu
          · obtain ⟨x, hx, _⟩ := h5 i z d hz hd
            have hdl : d < s.sessions.length := by
              rw [List.getElem?_eq_some_iff] at hx
              exact hx.1
            simp only [List.getElem?_append_left hdl] at hw
            exact h2 i z d w hz hd hw
        · intro i z hz
          simp only [List.getElem?_set] at hz
          grind
        · intro i z hz
          simp only [List.getElem?_set] at hz
          grind

theorem q_step {keyFirst : Bool} {s s' : State} {a : Act} (h : QInv keyFirst s) (hs : step keyFirst s a = some s') (hf : s'.fate = .running) (hq : Quiet s a) : QInv keyFirst s' := by
  have hi := inv_step h.inv hs hf
  unfold step at hs
  split at hs
  · cases hs
  · split at hs
    · split at hs
      · cases hs
        exact ⟨hi, by simp [atc], h.own, h.eve, h.liv, h.ins⟩
      · cases hs
    · exact q_parser h hs hf
    · cases hs
      have h1 := h.own
      have h2 := h.eve
      have h3 := h.liv
      have h4 := h.ins
      refine ⟨hi, h.act, ?_, ?_, ?_, ?_⟩
      · intro d z hz ha
        obtain ⟨w, hw1, hw2, hw3⟩ := h1 d z hz ha
        exact ⟨w, by grind, hw2, hw3⟩
      · intro i z d w hz hd hw
        simp only [List.getElem?_append] at hz
        grind
      · intro i z hz
        simp only [List.getElem?_append] at hz
        grind
      · intro i z hz
        simp only [List.getElem?_append] at hz
        grind
    · have h1 := h.own
      have h2 := h.eve
      have h3 := h.act
      have h4 := h.inv.cur
      split at hs
      · cases hs
      · split at hs
        · cases hs
          rename_i src a _ y hy hu
          have h5 := h.liv
          have h6 := h.ins
          refine ⟨hi, h.act, ?_, ?_, ?_, ?_⟩
          · intro d z hz ha
            obtain ⟨w, hw1, hw2, hw3⟩ := h1 d z hz ha
            by_cases hsrc : src = z.source
            · subst hsrc
              rw [hy] at hw1
              cases hw1
              exact ⟨{ y with user := .disable a }, by grind, hw2, hw3⟩
            · exact ⟨w, by grind, hw2, hw3⟩
          · intro i z d w hz hd hw
            simp only [List.getElem?_set] at hz
            have hn := next_current y a
            cases a <;> grind [next]
          · intro i z hz
            simp only [List.getElem?_set] at hz
            cases a <;> grind [next]
          · intro i z hz
            simp only [List.getElem?_set] at hz
            cases a <;> grind [next]
        · cases hs
    · exact q_user h hs hq

theorem q_reachable {keyFirst : Bool} {P : State → Act → Prop} {s : State} (h : ReachableBy keyFirst P s) (hP : ∀ s a, P s a → Quiet s a) (hf : s.fate = .running) :
    QInv keyFirst s := by
  induction h with
  | init => exact q_init keyFirst
  | step _ hp hs ih => exact q_step (ih (fate_running hs)) hs hf (hP _ _ hp)

end Scalopus.LttngSessions
