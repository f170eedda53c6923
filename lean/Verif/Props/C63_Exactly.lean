import Verif.Props.C03_Wire
import Verif.Props.C14_Loopback
import Verif.Props.C25_Configurator
import Verif.Props.C47_Endpoints

/-!
# C05, C15, C63: exactly what does harm

The messages that disturb later ones, the broadcasts over the loopback transport that end the process, and the requests to endpoints that do.
-/

namespace Scalopus.C05

open Protocol

/-- **C05, exactly.** A message leaves the stream as it was in front of what follows exactly if its payload has less than 2^32 bytes, whatever its name. -/
theorem harmless_iff (m : Msg) : (∀ rest, ∃ m', receive { bytes := encode m ++ rest } = .ok (true, m', { bytes := rest })) ↔ m.data.length < 2 ^ 32 := by
  constructor
  · intro h
    obtain ⟨m1, h1⟩ := h []
    obtain ⟨m2, h2⟩ := oversized_payload_leftover m []
    rw [h2] at h1
    simp only [Res.ok.injEq, Prod.mk.injEq, true_and, Env.mk.injEq, and_true, List.append_nil] at h1
    have := List.drop_eq_nil_iff.1 h1.2
    omega
  · intro h rest
    obtain ⟨m2, h2⟩ := oversized_payload_leftover m rest
    rw [Nat.mod_eq_of_lt h, List.drop_length, List.nil_append] at h2
    exact ⟨m2, h2⟩

example : (⟨1, List.replicate 70000 0, [7]⟩ : Msg).data.length < 2 ^ 32 := by decide

end Scalopus.C05

namespace Scalopus.C15

open Protocol Loopback

/-- The clients that are alive and have an endpoint of this name. -/
def Listens (name : Bytes) (c : Client) : Prop := c.alive = true ∧ name ∈ c.endpoints

theorem deliver_isOk (name : Bytes) (serverHas : Bool) (H : Nat → Bytes → Handled) (cs : List Client) : ∀ (log : Log) (i : Nat),
    (deliver name serverHas H log i cs).isOk = true ↔
      (∀ c ∈ cs, Listens name c → c.unsolicited ≠ .throws) ∧ ∀ r ∈ repliesOf name i cs, serverHas = true ∧ H r.1 r.2 = .declines := by
  induction cs with
  | nil => intro log i; simp [deliver, repliesOf, Res.isOk]
  | cons c cs ih =>
    intro log i
    unfold deliver
    by_cases hc : c.alive = false ∨ name ∉ c.endpoints
    · have hl : ¬ Listens name c := by
        rintro ⟨h1, h2⟩
        rcases hc with h | h
        · rw [h1] at h; cases h
        · exact h h2
      have hr : repliesOf name i (c :: cs) = repliesOf name (i + 1) cs := by
        have : (c.alive && c.endpoints.contains name) = false := by
          rcases hc with h | h
          · simp [h]
          · simp [h]
        simp only [repliesOf, this]
        cases c.unsolicited <;> simp
      rw [if_pos hc, ih, hr]
      simp [hl]
    · have hl : Listens name c := by
        simp only [not_or, Decidable.not_not, Bool.not_eq_false] at hc
        exact hc
      have ha : (c.alive && c.endpoints.contains name) = true := by simp [hl.1, hl.2]
      rw [if_neg hc]
      simp only [repliesOf, ha]
      cases hu : c.unsolicited with
      | throws => simp [Res.isOk, hl, hu]
      | declines => simp only [ih]; simp [hu]
      | answers d =>
        by_cases hs : serverHas = false
        · simp only [hs, ↓reduceIte, Res.isOk, Bool.false_eq_true, false_iff]
          rintro ⟨-, h⟩
          exact absurd (h (i, d) (by simp)).1 (by simp)
        · simp only [hs, ↓reduceIte]
          have hs' : serverHas = true := by simpa using hs
          subst hs'
          cases hH : H i d with
          | declines => simp only [Bool.true_eq_false, ↓reduceIte, ih]; simp [hu, hH]
          | answers x => simp [Res.isOk, hH]
          | throws => simp [Res.isOk, hH]

/-- **C15, exactly.** The worker survives a broadcast exactly if no endpoint that gets it throws and, for every reply, the server has an endpoint of this name that does not answer in turn. -/
theorem survives_iff (name : Bytes) (serverHas : Bool) (H : Nat → Bytes → Handled) (cs : List Client) :
    (deliver name serverHas H {} 0 cs).isOk = true ↔
      (∀ c ∈ cs, Listens name c → c.unsolicited ≠ .throws) ∧ ∀ r ∈ repliesOf name 0 cs, serverHas = true ∧ H r.1 r.2 = .declines :=
  deliver_isOk name serverHas H cs {} 0

example : (deliver [1] true (fun _ _ => .declines) {} 0 [⟨true, [[2]], .throws⟩, ⟨true, [[2], [1]], .answers [7]⟩]).isOk = true := by decide

end Scalopus.C15

namespace Scalopus.C63

/-- **C63, configurator, exactly.** In every reachable state, the server survives a request to the configurator exactly if the request could be decoded and is well-formed. -/
theorem configurator_survives_iff (acts : List TraceState.Act) (s : TraceState.State) (h : TraceState.run {} acts = .ok s) (req : Option Json) :
    (Configurator.inWorker (Configurator.handle s req)).isOk = true ↔ ∃ j, req = some j ∧ WellFormed j := by
  constructor
  · intro hk
    cases req with
    | none => cases hk
    | some j =>
      refine ⟨j, rfl, ?_⟩
      unfold WellFormed
      simp only [Configurator.handle] at hk
      cases hs : TraceState.step s .getMap with
      | ok s1 =>
        rw [hs] at hk
        simp only [Res.bind_ok] at hk
        cases h1 : j.get "cmd" with
        | ok c =>
          rw [h1] at hk
          simp only [Res.bind_ok] at hk
          cases h2 : c.asStr with
          | ok cmd =>
            refine ⟨cmd, by simp [Res.bind, h2], fun hcmd => ?_⟩
            rw [h2] at hk
            simp only [Res.bind_ok, hcmd, ↓reduceIte] at hk
            cases h3 : j.get "state" with
            | ok st =>
              rw [h3] at hk
              simp only [Res.bind_ok] at hk
              cases h4 : Configurator.fromJson st with
              | ok c => exact ⟨c, by simp [Res.bind, h4]⟩
              | throws w => rw [h4] at hk; cases hk
              | ub => rw [h4] at hk; cases hk
              | terminate => rw [h4] at hk; cases hk
            | throws w => rw [h3] at hk; cases hk
            | ub => rw [h3] at hk; cases hk
            | terminate => rw [h3] at hk; cases hk
          | throws w => rw [h2] at hk; cases hk
          | ub => rw [h2] at hk; cases hk
          | terminate => rw [h2] at hk; cases hk
        | throws w => rw [h1] at hk; cases hk
        | ub => rw [h1] at hk; cases hk
        | terminate => rw [h1] at hk; cases hk
      | throws w => rw [hs] at hk; cases hk
      | ub => rw [hs] at hk; cases hk
      | terminate => rw [hs] at hk; cases hk
  · rintro ⟨j, rfl, hj⟩
    exact wellformed_request_answered_partial acts s h j hj

/-- **C63, process information, exactly.** The server survives a request exactly if it could be decoded and is an object whose command is a string. -/
theorem info_survives_iff (pid : Int) (name : String) (threads : List (Nat × String)) (req : Option Json) :
    (Configurator.inWorker (Endpoints.infoHandle pid name threads req)).isOk = true ↔ ∃ (l : List (String × Json)) (c : String), req = some (.obj l) ∧ l.lookup "cmd" = some (.str c) := by
  constructor
  · intro h
    cases req with
    | none => cases h
    | some j =>
      cases j with
      | obj l =>
        refine ⟨l, ?_⟩
        simp only [Endpoints.infoHandle, Json.index, Res.bind_ok] at h
        cases hl : l.lookup "cmd" with
        | none => rw [hl] at h; cases h
        | some v =>
          rw [hl] at h
          cases v with
          | str c => exact ⟨c, rfl, rfl⟩
          | _ => cases h
      | _ => cases h
  · rintro ⟨l, c, rfl, hc⟩
    obtain ⟨r, hr, -⟩ := wellformed_info_answered_partial pid name threads l c hc
    rw [hr]
    rfl

/-- **C63, mapping, exactly.** The server survives exactly the requests that are not empty. -/
theorem mapping_survives_iff (pid : Int) (names : List (Nat × String)) (req : List UInt8) :
    (Configurator.inWorker (Endpoints.mappingHandle pid names req)).isOk = true ↔ req ≠ [] := by
  cases req with
  | nil => simp [Endpoints.mappingHandle, Configurator.inWorker, Res.isOk]
  | cons b r => by_cases hb : b = 109 <;> simp [Endpoints.mappingHandle, Configurator.inWorker, Res.isOk, hb]

end Scalopus.C63
