import Verif.Model.Json
import Verif.Proofs.Assoc

/-! # Maps survive the trip through JSON -/

namespace Scalopus.Json

open Assoc

variable {κ ν : Type} [BEq κ] [LawfulBEq κ] [DecidableEq κ]

theorem mapM_map {α β γ : Type} (g : α → β) (f : β → Res γ) (h : α → γ) (l : List α) (hf : ∀ x ∈ l, f (g x) = .ok (h x)) :
    Res.mapM f (l.map g) = .ok (l.map h) := by
  induction l with
  | nil => rfl
  | cons x xs ih =>
    simp only [List.map_cons, Res.mapM]
    rw [hf x (by simp), ih (fun y hy => hf y (by simp [hy]))]
    rfl

theorem foldl_emplace (acc l : List (κ × ν)) (h : ((acc ++ l).map (·.1)).Nodup) :
    l.foldl (fun m p => emplace m p.1 p.2) acc = acc ++ l := by
  induction l generalizing acc with
  | nil => simp
  | cons x xs ih =>
    simp only [List.foldl_cons]
    have hx : acc.lookup x.1 = none := by
      rw [lookup_none]
      simp only [List.map_append, List.map_cons, List.nodup_append] at h
      intro hm
      exact h.2.2 x.1 hm x.1 (by simp) rfl
    rw [emplace, hx]
    simp only
    rw [ih]
    · simp
    · simpa using h

theorem map_round_trip (fk : κ → Json) (fv : ν → Json) (gk : Json → Res κ) (gv : Json → Res ν) (m : List (κ × ν))
    (hk : ∀ x ∈ m, gk (fk x.1) = .ok x.1) (hv : ∀ x ∈ m, gv (fv x.2) = .ok x.2) (hn : (m.map (·.1)).Nodup) :
    toMap gk gv (ofMap fk fv m) = .ok m := by
  unfold toMap ofMap
  simp only [asArr, Res.bind]
  rw [mapM_map _ _ (fun x => x)]
  · simp only [Res.bind, List.map_id']
    rw [foldl_emplace [] m (by simpa using hn)]
    simp
  · intro x hx
    simp only [toPair, asArr, Res.bind, hk x hx, hv x hx]

end Scalopus.Json
