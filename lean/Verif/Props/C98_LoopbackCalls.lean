import Verif.Model.LoopbackCalls

/-!
# C98: endpoints may use loopback clients
-/

namespace Scalopus.C98

open LoopbackCalls

/-- A step of the workers; `uses j n` are the clients that the handler uses which client `j` calls when it has `n` further requests to handle. -/
def Works (uses : Nat → Nat → List Nat) (s : State) : Act → Prop
  | .handle j u => u = uses j ((s j).todo - 1)
  | .call _ | .ret _ | .finish _ | .start _ => True
  | .request _ => False

/-- A run in which only the workers take steps. -/
inductive Path (uses : Nat → Nat → List Nat) : State → State → Prop
  | refl (s : State) : Path uses s s
  | tail {s s1 s2 : State} {a : Act} : Path uses s s1 → Works uses s1 a → step s1 a = some s2 → Path uses s s2

/-- The full property: whatever endpoints call, a worker that handles requests can finish, so that every `request` and every destructor can return. -/
def NeverHangs : Prop := ∀ as s, run init as = some s → ∀ (uses : Nat → Nat → List Nat) (j : Nat), ∃ s', Path uses s s' ∧ (s' j).busy = false

theorem Path.trans {uses : Nat → Nat → List Nat} {s s1 s2 : State} (h1 : Path uses s s1) (h2 : Path uses s1 s2) : Path uses s s2 := by
  induction h2 with
  | refl => exact h1
  | tail _ hw he ih => exact .tail ih hw he

theorem Path.one {uses : Nat → Nat → List Nat} {s s1 : State} {a : Act} (hw : Works uses s a) (he : step s a = some s1) : Path uses s s1 := .tail (.refl s) hw he

/-! ### The property does not hold -/

/-- A set of clients whose workers wait for each other, or for themselves. -/
def Stuck (s : State) (c : Nat → Prop) : Prop := ∀ j, c j → (s j).busy = true ∧ ∃ k rest, (s j).calls = some (k :: rest) ∧ c k

theorem stuck_step {s s' : State} {c : Nat → Prop} (h : Stuck s c) {a : Act} (e : step s a = some s') : ∀ j, c j → s' j = s j := by
  intro j hj
  obtain ⟨hb, k, rest, hcl, hk⟩ := h j hj
  have hkb := (h k hk).1
  cases a with
  | request i =>
    simp only [step] at e; split at e
    · cases e
    · rename_i hi
      simp only [Option.some.injEq] at e; subst e
      have : j ≠ i := fun hji => hi (by rw [← hji]; exact hb)
      simp [upd, this]
  | start i =>
    simp only [step] at e; split at e
    · cases e
    · rename_i hi
      simp only [Option.some.injEq] at e; subst e
      have : j ≠ i := fun hji => hi (by rw [← hji]; exact hb)
      simp [upd, this]
  | handle i u =>
    simp only [step] at e; split at e
    · rename_i hi
      simp only [Option.some.injEq] at e; subst e
      have : j ≠ i := fun hji => by rw [← hji, hcl] at hi; simp at hi
      simp [upd, this]
    · cases e
  | call i =>
    simp only [step] at e; split at e
    · rename_i k' rest' hi
      split at e
      · cases e
      · rename_i hb'
        simp only [Option.some.injEq] at e; subst e
        have h1 : j ≠ i := fun hji => by
          rw [← hji, hcl] at hi
          simp only [Option.some.injEq, List.cons.injEq] at hi
          rw [← hi.1] at hb'; exact hb' hkb
        have h2 : j ≠ k' := fun hji => hb' (by rw [← hji]; exact hb)
        simp [upd, h1, h2]
    · cases e
  | ret i =>
    simp only [step] at e; split at e
    · rename_i hi
      simp only [Option.some.injEq] at e; subst e
      have : j ≠ i := fun hji => by rw [← hji, hcl] at hi; simp at hi
      simp [upd, this]
    · cases e
  | finish i =>
    simp only [step] at e; split at e
    · rename_i hi
      simp only [Option.some.injEq] at e; subst e
      have : j ≠ i := fun hji => by rw [← hji, hcl] at hi; simp at hi
      simp [upd, this]
    · cases e

/-- **C98 (negation).** Endpoints that wait for a client whose worker waits for them, in particular an endpoint that uses the client that its request came through, hang for good, whatever happens:
the workers hold their mutexes, and every call of `request` has to wait. -/
theorem waits_forever (s : State) (c : Nat → Prop) (h : Stuck s c) (bs : List Act) (s' : State) (e : run s bs = some s') (j : Nat) (hj : c j) :
    (s' j).busy = true ∧ step s' (.request j) = none ∧ step s' (.finish j) = none := by
  have hsame : ∀ (bs : List Act) (s : State), Stuck s c → run s bs = some s' → Stuck s' c := by
    intro bs
    induction bs with
    | nil => intro s h e; simp only [run, List.foldlM_nil, Option.pure_def, Option.some.injEq] at e; subst e; exact h
    | cons a bs ih =>
      intro s h e
      simp only [run, List.foldlM_cons] at e
      cases h1 : step s a with
      | none => rw [h1] at e; cases e
      | some s1 =>
        rw [h1] at e
        refine ih s1 (fun i hi => ?_) e
        rw [stuck_step h h1 i hi]; exact h i hi
  obtain ⟨hb, k, rest, hcl, _⟩ := hsame bs s h e j hj
  exact ⟨hb, by simp [step, hb], by simp [step, hcl]⟩

/-- Such a state is reached by one request whose endpoint uses the client it was called through, and by two clients whose endpoints use the other. -/
theorem self_call : ∃ s, run init [.request 0, .start 0, .handle 0 [0]] = some s ∧ Stuck s (· = 0) := by
  refine ⟨_, rfl, ?_⟩
  rintro j rfl
  exact ⟨rfl, 0, [], rfl, rfl⟩

theorem mutual_calls : ∃ s, run init [.request 0, .request 1, .start 0, .start 1, .handle 0 [1], .handle 1 [0]] = some s ∧ Stuck s (· < 2) := by
  refine ⟨_, rfl, ?_⟩
  intro j hj
  have : j = 0 ∨ j = 1 := by omega
  rcases this with rfl | rfl
  · exact ⟨rfl, 1, [], rfl, by decide⟩
  · exact ⟨rfl, 0, [], rfl, by decide⟩

/-- **C98 (negation), every time.** Whatever the clients do, and for every client whose worker is not at work: if a request is made, and the endpoint first uses the client that the request came through, then the worker
holds the mutex for good: no request is ever accepted again, and the worker does not finish. -/
theorem self_call_always (s : State) (j : Nat) (hb : (s j).busy = false) (rest : List Nat) :
    ∃ s', run s [.request j, .start j, .handle j (j :: rest)] = some s' ∧
      ∀ bs s'', run s' bs = some s'' → (s'' j).busy = true ∧ step s'' (.request j) = none ∧ step s'' (.finish j) = none := by
  let s1 : State := upd s j { s j with queue := (s j).queue + 1 }
  let s2 : State := upd s1 j { s1 j with busy := true, todo := (s1 j).queue, calls := none }
  let s3 : State := upd s2 j { s2 j with todo := (s2 j).todo - 1, calls := some (j :: rest) }
  have e1 : step s (.request j) = some s1 := by simp [step, hb, s1]
  have e2 : step s1 (.start j) = some s2 := by simp [step, hb, s1, s2, upd]
  have e3 : step s2 (.handle j (j :: rest)) = some s3 := by
    have h1 : (s2 j).busy = true := by simp [s2, upd]
    have h2 : (s2 j).calls = none := by simp [s2, upd]
    have h3 : 0 < (s2 j).todo := by simp [s2, s1, upd]
    simp only [step, h1, h2, h3, and_self, if_true, s3]
  refine ⟨s3, by simp [run, e1, e2, e3], fun bs s'' e => waits_forever s3 (· = j) ?_ bs s'' e j rfl⟩
  rintro i rfl
  exact ⟨by simp [s3, s2, upd], i, rest, by simp [s3, upd], rfl⟩

/-- It happens also while a handler of the client already ran, as soon as the handler comes to use its own client. -/
theorem own_client_blocks (s : State) (j : Nat) (rest : List Nat) (hb : (s j).busy = true) (hc : (s j).calls = some (j :: rest)) (bs : List Act) (s' : State) (e : run s bs = some s') :
    (s' j).busy = true ∧ step s' (.request j) = none ∧ step s' (.finish j) = none := by
  refine waits_forever s (· = j) ?_ bs s' e j rfl
  rintro i rfl
  exact ⟨hb, i, rest, hc, rfl⟩

/-- Two handlers that use each other's client, in the same way. -/
theorem crossed_clients_block (s : State) (j k : Nat) (r r' : List Nat) (hj : (s j).busy = true) (hk : (s k).busy = true) (cj : (s j).calls = some (k :: r)) (ck : (s k).calls = some (j :: r')) (bs : List Act)
    (s' : State) (e : run s bs = some s') : ((s' j).busy = true ∧ step s' (.request j) = none) ∧ (s' k).busy = true ∧ step s' (.request k) = none := by
  have hs : Stuck s (fun i => i = j ∨ i = k) := by
    rintro i (rfl | rfl)
    · exact ⟨hj, k, r, cj, .inr rfl⟩
    · exact ⟨hk, j, r', ck, .inl rfl⟩
  have h1 := waits_forever s _ hs bs s' e j (.inl rfl)
  have h2 := waits_forever s _ hs bs s' e k (.inr rfl)
  exact ⟨⟨h1.1, h1.2.1⟩, h2.1, h2.2.1⟩

/-- A client that has been used before, by an endpoint of another client. -/
example : ∃ s, run init [.request 0, .start 0, .handle 0 [1], .call 0, .start 1] = some s ∧ (s 0).busy = true ∧ (s 1).busy = true ∧ (s 2).busy = false := ⟨_, rfl, rfl, rfl, rfl⟩

example : ∃ s, run init [.request 0, .request 1, .start 0, .start 1, .handle 0 [1], .handle 1 [0, 2]] = some s ∧ (s 0).busy = true ∧ (s 1).busy = true ∧ (s 0).calls = some [1] ∧ (s 1).calls = some [0, 2] :=
  ⟨_, rfl, rfl, rfl, rfl, rfl⟩

theorem path_run {uses : Nat → Nat → List Nat} {s s' : State} (h : Path uses s s') : ∃ bs, run s bs = some s' := by
  induction h with
  | refl => exact ⟨[], rfl⟩
  | tail _ _ he ih =>
    rename_i a _ _
    obtain ⟨bs, hb⟩ := ih
    refine ⟨bs ++ [a], ?_⟩
    simp only [run, List.foldlM_append] at *
    rw [hb]
    simp only [List.foldlM_cons, List.foldlM_nil, Option.bind_eq_bind, Option.bind_some]
    rw [he]; rfl

theorem not_NeverHangs : ¬ NeverHangs := fun h => by
  obtain ⟨s, hs, hst⟩ := self_call
  obtain ⟨s', hp, hb⟩ := h _ s hs (fun _ _ => []) 0
  obtain ⟨bs, hr⟩ := path_run hp
  have := (waits_forever s _ hst bs s' hr 0 rfl).1
  rw [hb] at this; cases this

/-! ### What holds -/

/-- The clients in use are numbered below `n` in such an order that endpoints called through one use only later ones. -/
def Ordered (n : Nat) (uses : Nat → Nat → List Nat) : Prop := ∀ j m k, k ∈ uses j m → j < k ∧ k < n

structure Inv (n : Nat) (s : State) : Prop where
  calls : ∀ j l k, (s j).calls = some l → k ∈ l → j < k ∧ k < n

theorem inv_init (n : Nat) : Inv n init := ⟨fun _ _ _ h => by cases h⟩

theorem inv_step {n : Nat} {s s' : State} (h : Inv n s) {a : Act} (ha : ∀ j u k, a = .handle j u → k ∈ u → j < k ∧ k < n) (e : step s a = some s') : Inv n s' := by
  refine ⟨fun j l k hl hk => ?_⟩
  cases a with
  | request i =>
    simp only [step] at e; split at e
    · cases e
    · simp only [Option.some.injEq] at e; subst e
      simp only [upd] at hl; split at hl
      · rename_i hji; subst hji; exact h.calls _ l k hl hk
      · exact h.calls j l k hl hk
  | start i =>
    simp only [step] at e; split at e
    · cases e
    · simp only [Option.some.injEq] at e; subst e
      simp only [upd] at hl; split at hl
      · cases hl
      · exact h.calls j l k hl hk
  | handle i u =>
    simp only [step] at e; split at e
    · simp only [Option.some.injEq] at e; subst e
      simp only [upd] at hl; split at hl
      · rename_i hji; subst hji
        simp only [Option.some.injEq] at hl; subst hl
        exact ha _ _ k rfl hk
      · exact h.calls j l k hl hk
    · cases e
  | call i =>
    simp only [step] at e; split at e
    · rename_i k' rest' hi
      split at e
      · cases e
      · simp only [Option.some.injEq] at e; subst e
        simp only [upd] at hl; split at hl
        · rename_i hji; subst hji
          simp only [Option.some.injEq] at hl; subst hl
          exact h.calls _ _ k hi (List.mem_cons_of_mem _ hk)
        · split at hl
          · rename_i hjk; subst hjk; exact h.calls _ l k hl hk
          · exact h.calls j l k hl hk
    · cases e
  | ret i =>
    simp only [step] at e; split at e
    · simp only [Option.some.injEq] at e; subst e
      simp only [upd] at hl; split at hl
      · cases hl
      · exact h.calls j l k hl hk
    · cases e
  | finish i =>
    simp only [step] at e; split at e
    · simp only [Option.some.injEq] at e; subst e
      simp only [upd] at hl; split at hl
      · rename_i hji; subst hji; exact h.calls _ l k hl hk
      · exact h.calls j l k hl hk
    · cases e

theorem inv_run {n : Nat} (as : List Act) : ∀ {s s' : State}, Inv n s → (∀ j u k, .handle j u ∈ as → k ∈ u → j < k ∧ k < n) → run s as = some s' → Inv n s' := by
  induction as with
  | nil => intro s s' h _ e; simp only [run, List.foldlM_nil, Option.pure_def, Option.some.injEq] at e; subst e; exact h
  | cons a as ih =>
    intro s s' h ha e
    simp only [run, List.foldlM_cons] at e
    cases h1 : step s a with
    | none => rw [h1] at e; cases e
    | some s1 =>
      rw [h1] at e
      exact ih (inv_step h (fun j u k hj => ha j u k (by simp [hj])) h1) (fun j u k hj => ha j u k (by simp [hj])) e

theorem inv_path {n : Nat} {uses : Nat → Nat → List Nat} (ho : Ordered n uses) {s s' : State} (h : Inv n s) (hp : Path uses s s') : Inv n s' := by
  induction hp with
  | refl => exact h
  | tail _ hw he ih =>
    refine inv_step ih (fun j u k hj hk => ?_) he
    subst hj
    rw [hw] at hk
    exact ho _ _ k hk

/-- The workers of earlier clients are where they were. -/
def Same (j : Nat) (s s' : State) : Prop := ∀ i, i < j → (s' i).busy = (s i).busy ∧ (s' i).todo = (s i).todo ∧ (s' i).calls = (s i).calls

theorem Same.trans {j : Nat} {s s1 s2 : State} (h1 : Same j s s1) (h2 : Same j s1 s2) : Same j s s2 :=
  fun i hi => ⟨(h2 i hi).1.trans (h1 i hi).1, (h2 i hi).2.1.trans (h1 i hi).2.1, (h2 i hi).2.2.trans (h1 i hi).2.2⟩

theorem Same.mono {j k : Nat} (hjk : j ≤ k) {s s1 : State} (h : Same k s s1) : Same j s s1 := fun i hi => h i (Nat.lt_of_lt_of_le hi hjk)

/-- A handler returns, if the clients that it uses can be made free. -/
theorem handler_returns {n : Nat} {uses : Nat → Nat → List Nat} (ho : Ordered n uses) (j : Nat)
    (free : ∀ k, j < k → k < n → ∀ s, Inv n s → ∃ s', Path uses s s' ∧ (s' k).busy = false ∧ Same k s s') :
    ∀ (l : List Nat) (s : State), Inv n s → (s j).busy = true → (s j).calls = some l →
      ∃ s', Path uses s s' ∧ (s' j).busy = true ∧ (s' j).todo = (s j).todo ∧ (s' j).calls = none ∧ Same j s s' := by
  intro l
  induction l with
  | nil =>
    intro s hi hb hl
    refine ⟨upd s j { s j with calls := none }, .one (a := .ret j) trivial (by simp [step, hl]), by simp [upd, hb], by simp [upd], by simp [upd], fun i hi => ?_⟩
    simp [upd, Nat.ne_of_lt hi]
  | cons k rest ih =>
    intro s hi hb hl
    obtain ⟨hjk, hkn⟩ := hi.calls j _ k hl (by simp)
    obtain ⟨s1, p1, b1, m1⟩ := free k hjk hkn s hi
    have hl1 : (s1 j).calls = some (k :: rest) := (m1 j hjk).2.2.trans hl
    let s2 : State := upd (upd s1 k { s1 k with queue := (s1 k).queue + 1 }) j { s1 j with calls := some rest }
    have hne : j ≠ k := Nat.ne_of_lt hjk
    have e2 : step s1 (.call j) = some s2 := by
      simp only [step, hl1, b1, Bool.false_eq_true, if_false, s2]
      simp [upd, hne]
    have p2 : Path uses s s2 := .tail (a := .call j) p1 trivial e2
    have m2 : Same j s1 s2 := fun i hij => by
      have h1 : i ≠ j := by omega
      have h2 : i ≠ k := by omega
      simp [s2, upd, h1, h2]
    obtain ⟨s3, p3, b3, t3, c3, m3⟩ := ih s2 (inv_path ho hi p2) (by simp [s2, upd]; rw [(m1 j hjk).1]; exact hb) (by simp [s2, upd])
    refine ⟨s3, p2.trans p3, b3, ?_, c3, ((m1.mono (Nat.le_of_lt hjk)).trans m2).trans m3⟩
    rw [t3]
    simp [s2, upd]
    exact (m1 j hjk).2.1

theorem worker_finishes {n : Nat} {uses : Nat → Nat → List Nat} (ho : Ordered n uses) (j : Nat)
    (free : ∀ k, j < k → k < n → ∀ s, Inv n s → ∃ s', Path uses s s' ∧ (s' k).busy = false ∧ Same k s s') :
    ∀ (t : Nat) (s : State), Inv n s → (s j).busy = true → (s j).todo = t → ∃ s', Path uses s s' ∧ (s' j).busy = false ∧ Same j s s' := by
  intro t
  induction t with
  | zero =>
    intro s hi hb ht
    obtain ⟨s1, p1, b1, t1, c1, m1⟩ : ∃ s', Path uses s s' ∧ (s' j).busy = true ∧ (s' j).todo = (s j).todo ∧ (s' j).calls = none ∧ Same j s s' := by
      cases hc : (s j).calls with
      | none => exact ⟨s, .refl s, hb, rfl, hc, fun _ _ => ⟨rfl, rfl, rfl⟩⟩
      | some l => exact handler_returns ho j free l s hi hb hc
    refine ⟨upd s1 j { s1 j with busy := false, queue := 0 }, .tail p1 (a := .finish j) trivial (by simp [step, b1, c1, t1, ht]), by simp [upd], m1.trans fun i hi => ?_⟩
    simp [upd, Nat.ne_of_lt hi]
  | succ t ih =>
    intro s hi hb ht
    obtain ⟨s1, p1, b1, t1, c1, m1⟩ : ∃ s', Path uses s s' ∧ (s' j).busy = true ∧ (s' j).todo = (s j).todo ∧ (s' j).calls = none ∧ Same j s s' := by
      cases hc : (s j).calls with
      | none => exact ⟨s, .refl s, hb, rfl, hc, fun _ _ => ⟨rfl, rfl, rfl⟩⟩
      | some l => exact handler_returns ho j free l s hi hb hc
    let s2 : State := upd s1 j { s1 j with todo := (s1 j).todo - 1, calls := some (uses j ((s1 j).todo - 1)) }
    have p2 : Path uses s s2 := .tail p1 (a := .handle j (uses j ((s1 j).todo - 1))) rfl (by simp [step, b1, c1, t1, ht, s2])
    have m2 : Same j s1 s2 := fun i hi => by simp [s2, upd, Nat.ne_of_lt hi]
    obtain ⟨s3, p3, b3, m3⟩ := ih s2 (inv_path ho hi p2) (by simp [s2, upd, b1]) (by simp [s2, upd, t1, ht])
    exact ⟨s3, p2.trans p3, b3, (m1.trans m2).trans m3⟩

theorem frees {n : Nat} {uses : Nat → Nat → List Nat} (ho : Ordered n uses) : ∀ (d j : Nat), n - j ≤ d → ∀ s, Inv n s → ∃ s', Path uses s s' ∧ (s' j).busy = false ∧ Same j s s' := by
  intro d
  induction d with
  | zero =>
    intro j hd s hi
    cases hb : (s j).busy with
    | false => exact ⟨s, .refl s, hb, fun _ _ => ⟨rfl, rfl, rfl⟩⟩
    | true => exact worker_finishes ho j (fun k h1 h2 => by omega) _ s hi hb rfl
  | succ d ih =>
    intro j hd s hi
    cases hb : (s j).busy with
    | false => exact ⟨s, .refl s, hb, fun _ _ => ⟨rfl, rfl, rfl⟩⟩
    | true => exact worker_finishes ho j (fun k h1 h2 => ih k (by omega)) _ s hi hb rfl

/-- **C98 (partial).** If endpoints use clients only in a fixed order (those called through one client use only later ones), then every worker can always finish, and every `request` be made, by steps of the
workers alone and whatever endpoints do within the order; in particular if endpoints use no client. -/
theorem never_hangs_partial (n : Nat) (as : List Act) (s : State) (h : run init as = some s) (ha : ∀ j u k, .handle j u ∈ as → k ∈ u → j < k ∧ k < n) (uses : Nat → Nat → List Nat) (ho : Ordered n uses)
    (j : Nat) : ∃ s', Path uses s s' ∧ (s' j).busy = false ∧ (step s' (.request j)).isSome = true := by
  obtain ⟨s', hp, hb, _⟩ := frees ho _ j (Nat.le_refl _) s (inv_run as (inv_init n) ha h)
  exact ⟨s', hp, hb, by simp [step, hb]⟩

/-- An endpoint called through client 0 uses client 1, which is busy. -/
example : ∃ s, run init [.request 0, .request 1, .request 0, .start 0, .start 1, .handle 0 [1]] = some s ∧ (s 0).busy = true ∧ (s 0).todo = 1 ∧ step s (.call 0) = none ∧
    Ordered 2 (fun j _ => if j = 0 then [1] else []) := by
  refine ⟨_, rfl, rfl, rfl, rfl, ?_⟩
  intro j m k hk
  simp only at hk
  split at hk
  · simp at hk; omega
  · cases hk

/-! ### What a round of a worker handles -/

/-- The invocations of handlers for client `j`. -/
def handles (j : Nat) : Act → Bool
  | .handle i _ => i = j
  | _ => false

theorem round_step {s s' : State} {a : Act} (j : Nat) (h : step s a = some s') (hb : (s j).busy = true) (ha : a ≠ .finish j) :
    (s' j).busy = true ∧ (s' j).queue = (s j).queue ∧ (if handles j a then 1 else 0) + (s' j).todo = (s j).todo := by
  cases a with
  | request k =>
    simp only [step] at h
    split at h
    · cases h
    · rename_i hk
      injection h with h
      subst h
      have : j ≠ k := fun e => hk (e ▸ hb)
      simp [upd, this, hb, handles]
  | start k =>
    simp only [step] at h
    split at h
    · cases h
    · rename_i hk
      injection h with h
      subst h
      have : j ≠ k := fun e => hk (e ▸ hb)
      simp [upd, this, hb, handles]
  | handle k uses =>
    simp only [step] at h
    split at h
    · rename_i hk
      injection h with h
      subst h
      by_cases e : j = k
      · subst e
        simp only [upd, if_true, hb, handles, decide_true, true_and]
        omega
      · have : ¬ k = j := fun e' => e e'.symm
        simp [upd, e, hb, handles, this]
    · cases h
  | call k =>
    simp only [step] at h
    split at h
    · rename_i m rest hc
      split at h
      · cases h
      · rename_i hk
        injection h with h
        subst h
        have h2 : j ≠ m := fun e => hk (e ▸ hb)
        by_cases e : j = k
        · subst e
          simp [upd, h2, hb, handles]
        · simp [upd, h2, e, hb, handles]
    · cases h
  | ret k =>
    simp only [step] at h
    split at h
    · injection h with h
      subst h
      by_cases e : j = k
      · subst e; simp [upd, hb, handles]
      · simp [upd, e, hb, handles]
    · cases h
  | finish k =>
    simp only [step] at h
    split at h
    · injection h with h
      subst h
      have : j ≠ k := fun e => ha (e ▸ rfl)
      simp [upd, this, hb, handles]
    · cases h

theorem round_run (j : Nat) : ∀ (as : List Act) (s s' : State), run s as = some s' → (s j).busy = true → .finish j ∉ as →
    (s' j).busy = true ∧ (s' j).queue = (s j).queue ∧ as.countP (handles j) + (s' j).todo = (s j).todo := by
  intro as
  induction as with
  | nil =>
    intro s s' h hb _
    simp only [run, List.foldlM_nil, Option.pure_def, Option.some.injEq] at h
    subst h
    exact ⟨hb, rfl, by simp⟩
  | cons a as ih =>
    intro s s' h hb hf
    simp only [run, List.foldlM_cons, Option.bind_eq_bind, Option.bind_eq_some_iff] at h
    obtain ⟨s1, e1, e2⟩ := h
    obtain ⟨g1, g2, g3⟩ := round_step j e1 hb (fun e => hf (by simp [e]))
    obtain ⟨k1, k2, k3⟩ := ih s1 s' e2 g1 (fun e => hf (by simp [e]))
    refine ⟨k1, by rw [k2, g2], ?_⟩
    rw [List.countP_cons]
    omega

/-- **C98, each once.** From the moment in which the worker of a client takes its requests to the moment in which it is done with them, exactly as many handlers are called for the client as there were requests, no request
is added, and after that none is left. -/
theorem round_exact (j : Nat) (as : List Act) (s s1 s2 s3 : State) (h1 : step s (.start j) = some s1) (h2 : run s1 as = some s2) (hf : .finish j ∉ as) (h3 : step s2 (.finish j) = some s3) :
    as.countP (handles j) = (s j).queue ∧ (s2 j).queue = (s j).queue ∧ (s3 j).queue = 0 ∧ (s3 j).busy = false := by
  simp only [step] at h1
  split at h1
  · cases h1
  · injection h1 with h1
    subst h1
    obtain ⟨_, g2, g3⟩ := round_run j as _ s2 h2 (by simp [upd]) hf
    simp only [upd, if_true] at g2 g3
    simp only [step] at h3
    split at h3
    · rename_i hc
      injection h3 with h3
      subst h3
      refine ⟨by omega, g2, by simp [upd], by simp [upd]⟩
    · cases h3

example : ∃ s s1 s2 s3, run init [.request 0, .request 0] = some s ∧ step s (.start 0) = some s1 ∧ run s1 [.handle 0 [1], .call 0, .ret 0, .handle 0 [], .ret 0] = some s2 ∧ step s2 (.finish 0) = some s3 ∧
    (s2 1).queue = 1 := ⟨_, _, _, _, rfl, rfl, rfl, rfl, rfl⟩

end Scalopus.C98
