import Verif.Model.Endpoints
import Verif.Props.C16_Registry
import Verif.Props.C46_ThreadNames
import Verif.Proofs.Json

/-!
# C47, C48, C49, C63: the queries of a consumer
-/

namespace Scalopus.Endpoints

theorem asULong_ok {k : Nat} (h : k < 2 ^ 64) : Json.asULong (.int k) = .ok k := by
  simp only [Json.asULong, Res.ok.injEq]
  omega

theorem asUInt32_ok {k : Nat} (h : k < 2 ^ 32) : Json.asUInt32 (.int k) = .ok k := by
  simp only [Json.asUInt32, Res.ok.injEq]
  omega

theorem asInt32_ok {n : Int} (h : -2 ^ 31 ≤ n ∧ n < 2 ^ 31) : Json.asInt32 (.int n) = .ok n := by
  simp only [Json.asInt32, Res.ok.injEq]
  omega

end Scalopus.Endpoints

namespace Scalopus.C47

open Endpoints Configurator

/-- **C47.** A process information query that is answered in time returns the process id, the process name and the thread names that the server had
    when it handled the query. -/
theorem info_exact (pid junk : Int) (name : String) (threads : List (Nat × String)) (hp : -2 ^ 31 ≤ pid ∧ pid < 2 ^ 31)
    (hn : (threads.map (·.1)).Nodup) (hb : ∀ x ∈ threads, x.1 < 2 ^ 64) :
    ∃ reply, infoHandle pid name threads (some infoRequest) = .ok (some reply) ∧
      processInfo true junk (.data (some reply)) = .ok { name := name, threads := threads, pid := pid } := by
  refine ⟨_, rfl, ?_⟩
  have ht : Json.toMap Json.asULong Json.asStr (Json.ofMap (fun k : Nat => .int k) .str threads) = .ok threads :=
    Json.map_round_trip _ _ _ _ _ (fun x hx => asULong_ok (hb x hx)) (fun _ _ => rfl) hn
  simp [processInfo, Answer.decode, Json.index, List.lookup, Json.asStr, ht, asInt32_ok hp]

/-- **C47 with C46.** The answer lists exactly the threads that exist and have named themselves, each with the name that it last set. -/
theorem info_lists_live_threads (acts : List ThreadNames.Act) (ho : ∀ a ∈ acts, a.own = true) (s : ThreadNames.State)
    (h : ThreadNames.run {} acts = .ok s) (hb : ∀ tid, .start tid ∈ acts → tid < 2 ^ 64)
    (pid junk : Int) (name : String) (hp : -2 ^ 31 ≤ pid ∧ pid < 2 ^ 31) :
    ∃ reply info, infoHandle pid name s.names (some infoRequest) = .ok (some reply) ∧
      processInfo true junk (.data (some reply)) = .ok info ∧ info.pid = pid ∧ info.name = name ∧
      ∀ tid n, (tid, n) ∈ info.threads ↔
        ∃ th ∈ ThreadNames.Spec.run [] acts, th.ended = false ∧ th.tid = tid ∧ th.name = some n := by
  obtain ⟨h1, h2⟩ := C46.names_exact_partial acts ho s h
  have hstart : ∀ (acts : List ThreadNames.Act) (ths : List ThreadNames.Spec.Thread), ∀ th ∈ ThreadNames.Spec.run ths acts,
      (∃ x ∈ ths, x.tid = th.tid) ∨ .start th.tid ∈ acts := by
    intro acts
    induction acts with
    | nil => intro ths th hth; exact .inl ⟨th, hth, rfl⟩
    | cons a as ih =>
      intro ths th hth
      rcases ih _ th hth with ⟨x, hx, e⟩ | hm
      · have hmod : ∀ (t : Nat) (f : ThreadNames.Spec.Thread → ThreadNames.Spec.Thread), (∀ y, (f y).tid = y.tid) → x ∈ ths.modify t f →
            ∃ x ∈ ths, x.tid = th.tid := by
          intro t f hf hx
          obtain ⟨i, hi⟩ := List.getElem?_of_mem hx
          rw [List.getElem?_modify] at hi
          cases hy : ths[i]? with
          | none => rw [hy] at hi; cases hi
          | some y =>
            rw [hy] at hi
            simp only [Option.map_eq_map, Option.map_some, Option.some.injEq] at hi
            refine ⟨y, List.mem_of_getElem? hy, ?_⟩
            rw [← e, ← hi]
            split
            · exact (hf y).symm
            · rfl
        cases a with
        | start tid =>
          simp only [ThreadNames.Spec.step] at hx
          split at hx
          · exact .inl ⟨x, hx, e⟩
          · simp only [List.mem_append, List.mem_singleton] at hx
            rcases hx with hx | rfl
            · exact .inl ⟨x, hx, e⟩
            · exact .inr (by simp only at e; rw [e]; simp)
        | setCurrent t n => exact .inl (hmod t (fun th => { th with name := some n }) (fun _ => rfl) hx)
        | pass t k n =>
          exact .inl (hmod t (fun th => if k ∈ th.passed then th else { th with name := some n, passed := k :: th.passed })
            (fun y => by split <;> rfl) hx)
        | setOther tid n => exact .inl ⟨x, hx, e⟩
        | exit t => exact .inl (hmod t (fun th => { th with ended := true }) (fun _ => rfl) hx)
      · exact .inr (by simp [hm])
  obtain ⟨reply, e1, e2⟩ := info_exact pid junk name s.names hp h1 (by
    rintro ⟨tid, n⟩ hx
    obtain ⟨th, hth, _, e, _⟩ := (h2 tid n).mp hx
    rcases hstart acts [] th hth with ⟨x, hx, _⟩ | hm
    · cases hx
    · exact hb tid (e ▸ hm))
  exact ⟨reply, _, e1, e2, rfl, rfl, h2⟩

/-- Without a transport the query fails with an error, whatever else happens. -/
theorem info_needs_transport (junk : Int) (a : Answer) : processInfo false junk a = .throws "communication_error" := rfl

/-- Part of the full property C47: a result that comes from a timeout differs from the answer of every process. -/
def TimeoutRecognisable : Prop := ∀ (junk pid : Int) (name : String) (threads : List (Nat × String)) (reply : Json),
  -2 ^ 31 ≤ junk ∧ junk < 2 ^ 31 → infoHandle pid name threads (some infoRequest) = .ok (some reply) →
  processInfo true junk .late ≠ processInfo true junk (.data (some reply))

/-- **C47 is violated** on a timeout: the process id of the result is not initialised, so that it can name any process. -/
theorem timeout_pid_arbitrary (pid : Int) (hp : -2 ^ 31 ≤ pid ∧ pid < 2 ^ 31) : ∃ junk, -2 ^ 31 ≤ junk ∧ junk < 2 ^ 31 ∧
    ∃ reply, infoHandle pid "" [] (some infoRequest) = .ok (some reply) ∧
      processInfo true junk .late = processInfo true junk (.data (some reply)) := by
  refine ⟨pid, hp.1, hp.2, _, rfl, ?_⟩
  simp [processInfo, Answer.decode, Json.index, List.lookup, Json.asStr, asInt32_ok hp, Json.toMap, Json.ofMap, Json.asArr, Res.mapM, Res.bind]

theorem timeout_not_recognisable : ¬ TimeoutRecognisable := by
  intro h
  obtain ⟨junk, h1, h2, reply, h3, h4⟩ := timeout_pid_arbitrary 1 (by decide)
  exact h junk 1 "" [] reply ⟨h1, h2⟩ h3 h4

/-- **C47, partial.** Name and thread names of the result of a timeout are empty. Missing: the process id. -/
theorem timeout_empty_partial (junk : Int) : ∃ p, processInfo true junk .late = .ok p ∧ p.name = "" ∧ p.threads = [] := ⟨_, rfl, rfl, rfl⟩

example : ∃ reply, infoHandle 77 "demo" [(140, "main"), (141, "worker")] (some infoRequest) = .ok (some reply) ∧
    processInfo true 0 (.data (some reply)) = .ok ⟨"demo", [(140, "main"), (141, "worker")], 77⟩ :=
  info_exact 77 0 "demo" _ (by decide) (by decide) (by decide)

end Scalopus.C47

namespace Scalopus.C48

open Endpoints

/-- **C48.** The introspection query that is answered in time returns exactly the names of the endpoints that were added to the server before it
    handled the query, each once. -/
theorem introspection_exact (text : Protocol.Bytes → String) (ht : ∀ a b, text a = text b → a = b) (getName : Nat → Protocol.Bytes)
    (h : List (Nat × Nat)) (t : Nat) :
    ∃ l, supported true (.data (some (introspectHandle text (Registry.run getName h) t))) = .ok l ∧ l.Nodup ∧
      ∀ n, n ∈ l ↔ ∃ e, (t, e) ∈ h ∧ text (getName e) = n := by
  refine ⟨(Registry.endpointNames (Registry.run getName h) t).map text, ?_, ?_, ?_⟩
  · simp only [supported, Bool.true_eq_false, ↓reduceIte, Answer.decode, introspectHandle, Json.index, List.lookup, beq_self_eq_true, Json.asArr,
      Option.getD, Res.bind_ok]
    exact Json.mapM_map _ _ text _ (fun _ _ => rfl)
  · have := (C16.endpoints_lists_added getName h t).1
    exact (this.map (f := text)) (fun a b hab he => hab (ht a b he))
  · intro n
    have := (C16.endpoints_lists_added getName h t).2
    simp only [List.mem_map]
    grind

/-- Without an answer in time it returns nothing, and without a transport it fails. -/
theorem introspection_otherwise (a : Answer) : supported true .late = .ok [] ∧ supported false a = .throws "communication_error" := ⟨rfl, rfl⟩

/-- An answer that cannot be decoded fails with an exception in the caller. -/
theorem introspection_fails : (supported true (.data none)) = .throws "parse_error" ∧ supported true .failed = .throws "future_error" := ⟨rfl, rfl⟩

example : ∃ l, supported true (.data (some (introspectHandle (fun b => String.ofList (b.map fun x => Char.ofNat x.toNat))
    (Registry.run (fun e => if e = 0 then [105] else [112]) [(3, 0), (3, 1), (4, 0), (3, 0)]) 3))) = .ok l ∧ l = ["i", "p"] := ⟨_, rfl, rfl⟩

end Scalopus.C48

namespace Scalopus.C49

open Endpoints

/-- **C49.** A mapping query that is answered in time returns exactly the names that were registered in the server's process when it handled the
    query, under its process id. -/
theorem mapping_exact (pid : Int) (names : List (Nat × String)) (hp : -2 ^ 31 ≤ pid ∧ pid < 2 ^ 31)
    (hn : (names.map (·.1)).Nodup) (hb : ∀ x ∈ names, x.1 < 2 ^ 32) :
    ∃ reply, mappingHandle pid names mappingRequest = .ok (some reply) ∧ mapping true (.data (some reply)) = .ok [(pid, names)] := by
  refine ⟨_, rfl, ?_⟩
  have ht : Json.toMap Json.asUInt32 Json.asStr (Json.ofMap (fun k : Nat => .int k) .str names) = .ok names :=
    Json.map_round_trip _ _ _ _ _ (fun x hx => asUInt32_ok (hb x hx)) (fun _ _ => rfl) hn
  simp only [mapping, Answer.decode, Json.index, List.lookup, Bool.true_eq_false, ↓reduceIte, beq_self_eq_true, Option.getD, Res.bind_ok]
  apply Json.map_round_trip
  · intro x hx; simp only [List.mem_singleton] at hx; subst hx; exact asInt32_ok hp
  · intro x hx; simp only [List.mem_singleton] at hx; subst hx; exact ht
  · simp

theorem mapM_mem {α β : Type} (f : α → Res β) : ∀ (l : List α) (ys : List β), Res.mapM f l = .ok ys → ∀ y ∈ ys, ∃ x ∈ l, f x = .ok y
  | [], ys, h, y, hy => by
    cases h
    cases hy
  | x :: l, ys, h, y, hy => by
    simp only [Res.mapM] at h
    cases hx : f x with
    | ok z =>
      rw [hx] at h
      cases hl : Res.mapM f l with
      | ok zs =>
        rw [hl] at h
        simp only [Res.bind, Res.ok.injEq] at h
        subst h
        rcases List.mem_cons.1 hy with rfl | hy
        · exact ⟨x, List.mem_cons_self, hx⟩
        · obtain ⟨w, hw, e⟩ := mapM_mem f l zs hl y hy
          exact ⟨w, List.mem_cons_of_mem _ hw, e⟩
      | throws w => rw [hl] at h; cases h
      | ub => rw [hl] at h; cases h
      | terminate => rw [hl] at h; cases h
    | throws w => rw [hx] at h; cases h
    | ub => rw [hx] at h; cases h
    | terminate => rw [hx] at h; cases h

/-- What is read as a map has no key twice, and its keys and values are what the keys and values in the JSON are read as. -/
theorem toMap_mem {κ ν : Type} [BEq κ] [LawfulBEq κ] (fk : Json → Res κ) (fv : Json → Res ν) (j : Json) (m : List (κ × ν)) (h : Json.toMap fk fv j = .ok m) :
    (m.map Prod.fst).Nodup ∧ ∀ p ∈ m, ∃ a b, fk a = .ok p.1 ∧ fv b = .ok p.2 := by
  unfold Json.toMap at h
  cases hj : j.asArr with
  | ok l =>
    rw [hj] at h
    simp only [Res.bind] at h
    cases hl : Res.mapM (Json.toPair fk fv) l with
    | ok ps =>
      rw [hl] at h
      simp only [Res.ok.injEq] at h
      have hps : ∀ p ∈ ps, ∃ a b, fk a = .ok p.1 ∧ fv b = .ok p.2 := by
        intro p hp
        obtain ⟨x, _, hx⟩ := mapM_mem _ _ _ hl p hp
        unfold Json.toPair at hx
        cases ha : x.asArr with
        | ok q =>
          rw [ha] at hx
          simp only [Res.bind] at hx
          match q, hx with
          | k :: v :: _, hx =>
            cases hk : fk k with
            | ok k' =>
              cases hv : fv v with
              | ok v' =>
                simp only [hk, hv, Res.ok.injEq] at hx
                subst hx
                exact ⟨k, v, hk, hv⟩
              | throws w => simp only [hk, hv] at hx; cases hx
              | ub => simp only [hk, hv] at hx; cases hx
              | terminate => simp only [hk, hv] at hx; cases hx
            | throws w => simp only [hk] at hx; cases hx
            | ub => simp only [hk] at hx; cases hx
            | terminate => simp only [hk] at hx; cases hx
        | throws w => rw [ha] at hx; cases hx
        | ub => rw [ha] at hx; cases hx
        | terminate => rw [ha] at hx; cases hx
      subst h
      have key : ∀ (qs acc : List (κ × ν)), (acc.map Prod.fst).Nodup → (∀ p ∈ acc, ∃ a b, fk a = .ok p.1 ∧ fv b = .ok p.2) → (∀ p ∈ qs, ∃ a b, fk a = .ok p.1 ∧ fv b = .ok p.2) →
          ((qs.foldl (fun m p => Json.emplace m p.1 p.2) acc).map Prod.fst).Nodup ∧ ∀ p ∈ qs.foldl (fun m p => Json.emplace m p.1 p.2) acc, ∃ a b, fk a = .ok p.1 ∧ fv b = .ok p.2 := by
        intro qs
        induction qs with
        | nil => intro acc h1 h2 _; exact ⟨h1, h2⟩
        | cons q qs ih =>
          intro acc h1 h2 h3
          refine ih _ ?_ ?_ (fun p hp => h3 p (List.mem_cons_of_mem _ hp))
          · change ((Json.emplace acc q.1 q.2).map Prod.fst).Nodup
            unfold Json.emplace
            cases hq : acc.lookup q.1 with
            | some _ => exact h1
            | none =>
              rw [List.map_append, List.nodup_append]
              refine ⟨h1, by simp, ?_⟩
              intro a ha b hb e
              simp only [List.map_cons, List.map_nil, List.mem_singleton] at hb
              subst hb
              subst e
              obtain ⟨p, hp, e⟩ := List.mem_map.1 ha
              have : (acc.lookup q.1).isSome := by
                rw [← e]
                clear hq ha h1 h2
                induction acc with
                | nil => cases hp
                | cons r rs ih2 =>
                  rw [List.lookup_cons]
                  cases hb : p.1 == r.1 with
                  | true => rfl
                  | false =>
                    rcases List.mem_cons.1 hp with rfl | hp
                    · simp at hb
                    · exact ih2 hp
              rw [hq] at this
              cases this
          · intro p hp
            change p ∈ Json.emplace acc q.1 q.2 at hp
            unfold Json.emplace at hp
            cases hq : acc.lookup q.1 with
            | some _ => rw [hq] at hp; exact h2 p hp
            | none =>
              rw [hq] at hp
              rcases List.mem_append.1 hp with hp | hp
              · exact h2 p hp
              · rw [List.mem_singleton.1 hp]
                exact h3 q List.mem_cons_self
      exact key ps [] (by simp) (by simp) hps
    | throws w => rw [hl] at h; cases h
    | ub => rw [hl] at h; cases h
    | terminate => rw [hl] at h; cases h
  | throws w => rw [hj] at h; cases h
  | ub => rw [hj] at h; cases h
  | terminate => rw [hj] at h; cases h

theorem castDouble_range {lo hi t : Int} {b : UInt64} (h : Json.castDouble lo hi b = .ok t) : lo ≤ t ∧ t < hi := by
  unfold Json.castDouble at h
  split at h
  · split at h
    · rename_i hr
      rw [← Res.ok.inj h]; exact hr
    · cases h
  · cases h

/-- **C49: whatever a peer answers**, a mapping that is returned has every process once, every scope of a process once, processes that are 32 bit numbers and scopes that are unsigned 32 bit numbers. -/
theorem mapping_well_formed (a : Answer) (m : TraceMap) (h : mapping true a = .ok m) :
    (m.map Prod.fst).Nodup ∧ ∀ p ∈ m, (-2 ^ 31 ≤ p.1 ∧ p.1 < 2 ^ 31) ∧ (p.2.map Prod.fst).Nodup ∧ ∀ q ∈ p.2, q.1 < 2 ^ 32 := by
  have key : ∀ j, Json.toMap Json.asInt32 (Json.toMap Json.asUInt32 Json.asStr) j = .ok m →
      (m.map Prod.fst).Nodup ∧ ∀ p ∈ m, (-2 ^ 31 ≤ p.1 ∧ p.1 < 2 ^ 31) ∧ (p.2.map Prod.fst).Nodup ∧ ∀ q ∈ p.2, q.1 < 2 ^ 32 := by
    intro j hj
    obtain ⟨h1, h2⟩ := toMap_mem _ _ _ _ hj
    refine ⟨h1, fun p hp => ?_⟩
    obtain ⟨x, y, hx, hy⟩ := h2 p hp
    obtain ⟨h3, h4⟩ := toMap_mem _ _ _ _ hy
    refine ⟨?_, h3, fun q hq => ?_⟩
    · unfold Json.asInt32 at hx
      split at hx
      · rw [← Res.ok.inj hx]; omega
      · exact castDouble_range hx
      · rw [← Res.ok.inj hx]; split <;> omega
      · cases hx
    · obtain ⟨x', y', hx', _⟩ := h4 q hq
      unfold Json.asUInt32 at hx'
      split at hx'
      · rw [← Res.ok.inj hx']; omega
      · rename_i b
        cases hc : Json.castDouble 0 (2 ^ 32) b with
        | ok t =>
          have := castDouble_range hc
          rw [hc] at hx'
          rw [← Res.ok.inj hx']; omega
        | throws w => rw [hc] at hx'; cases hx'
        | ub => rw [hc] at hx'; cases hx'
        | terminate => rw [hc] at hx'; cases hx'
      · rw [← Res.ok.inj hx']; split <;> omega
      · cases hx'
  unfold mapping at h
  rw [if_neg (by decide)] at h
  cases hd : a.decode with
  | none =>
    rw [hd] at h
    cases h
    exact ⟨by simp, by simp⟩
  | some r =>
    rw [hd] at h
    change (r.bind fun j => (j.index "mapping").bind fun x => _) = _ at h
    cases hr : r with
    | ok j =>
      rw [hr] at h
      simp only [Res.bind] at h
      cases hi : j.index "mapping" with
      | ok x => rw [hi] at h; exact key x h
      | throws w => rw [hi] at h; cases h
      | ub => rw [hi] at h; cases h
      | terminate => rw [hi] at h; cases h
    | throws w => rw [hr] at h; cases h
    | ub => rw [hr] at h; cases h
    | terminate => rw [hr] at h; cases h

/-- A peer that lists a process twice, with a scope number that is too large. -/
example : mapping true (.data (some (.obj [("mapping", .arr [.arr [.int 5, .arr [.arr [.int (2 ^ 32 + 1), .str "a"]]], .arr [.int 5, .arr []]])]))) = .ok [(5, [(1, "a")])] := by rfl


/-- Without an answer in time it returns nothing, and without a transport it fails. -/
theorem mapping_otherwise (a : Answer) : mapping true .late = .ok [] ∧ mapping false a = .throws "communication_error" := ⟨rfl, rfl⟩

/-- The full property C49 on other requests: none crashes the server. -/
def EveryRequestHandled : Prop := ∀ (pid : Int) (names : List (Nat × String)) (req : List UInt8), (mappingHandle pid names req).isOk = true

/-- **C49 is violated** by an empty request: it reads the first byte of an empty vector. -/
theorem empty_request_undefined : ¬ EveryRequestHandled := fun h => absurd (h 1 [] []) (by decide)

/-- **C49, partial.** Every request that is not empty is handled: those that begin with `m` are answered, all others are declined. Missing: the empty
    request. -/
theorem other_requests_declined_partial (pid : Int) (names : List (Nat × String)) (b : UInt8) (rest : List UInt8) :
    mappingHandle pid names (b :: rest) = if b = 'm'.toUInt8 then mappingHandle pid names mappingRequest else .ok none := by
  rw [show 'm'.toUInt8 = 109 by decide]
  by_cases h : b = 109
  · rw [if_pos h, h]; rfl
  · rw [if_neg h]; simp [mappingHandle, h]

example : ∃ reply, mappingHandle 9 [(4, "f"), (7, "g")] mappingRequest = .ok (some reply) ∧
    mapping true (.data (some reply)) = .ok [(9, [(4, "f"), (7, "g")])] := mapping_exact 9 _ (by decide) (by decide) (by decide)

end Scalopus.C49

namespace Scalopus.C63

open Endpoints Configurator

/-- **C63 is violated** by the process information endpoint: a request that is not BSON, or whose command is not a string, terminates the server. -/
theorem malformed_info_terminates (pid : Int) (name : String) (threads : List (Nat × String)) :
    inWorker (infoHandle pid name threads none) = .terminate ∧ inWorker (infoHandle pid name threads (some (.obj []))) = .terminate :=
  ⟨rfl, rfl⟩

/-- **C63, partial.** With a string as its command every request is handled: answered exactly if the command is `info`. -/
theorem wellformed_info_answered_partial (pid : Int) (name : String) (threads : List (Nat × String)) (l : List (String × Json)) (c : String)
    (hc : l.lookup "cmd" = some (.str c)) :
    ∃ r, inWorker (infoHandle pid name threads (some (.obj l))) = .ok r ∧ (r.isSome ↔ c = "info") := by
  by_cases h : c = "info"
  · refine ⟨some (.obj [("pid", .int pid), ("name", .str name), ("threads", Json.ofMap (fun k : Nat => .int k) .str threads)]), ?_, by simp [h]⟩
    simp only [infoHandle, Json.index, hc, Option.getD, Res.bind_ok, Json.asStr, h, ↓reduceIte]
    rfl
  · refine ⟨none, ?_, by simp [h]⟩
    simp only [infoHandle, Json.index, hc, Option.getD, Res.bind_ok, Json.asStr, h, ↓reduceIte]
    rfl

/-- Introspection never fails: it ignores the request. An empty request to the mapping endpoint is undefined behaviour. -/
theorem mapping_request_undefined (pid : Int) (names : List (Nat × String)) : inWorker (mappingHandle pid names []) = .ub := rfl

end Scalopus.C63
