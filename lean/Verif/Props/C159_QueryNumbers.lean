import Verif.Spec.QueryNumbers
import Verif.Props.C128_BsonEndpoints

/-!
# C159, C63: numbers that are no ids in queries and answers
-/

namespace Scalopus.C159

open Bson BsonEndpoints C126 QueryNumbers
open C128 (read_ok encode_ok plain_obj mapM_keys loads_keys plain_reply)
open Configurator (Config)
open TraceState (State)

/-! ## Doubles -/

theorem floor_unique {a b x p : Nat} (h1 : a * p ≤ x) (h2 : x < (a + 1) * p) (h3 : b * p ≤ x) (h4 : x < (b + 1) * p) : a = b := by
  have e1 : a < b + 1 := Nat.lt_of_mul_lt_mul_right (Nat.lt_of_le_of_lt h1 h4)
  have e2 : b < a + 1 := Nat.lt_of_mul_lt_mul_right (Nat.lt_of_le_of_lt h3 h2)
  omega

theorem floor_scaled (f e n : Nat) :
    (if n ≤ e then f * 2 ^ (e - n) else f / 2 ^ (n - e)) * 2 ^ n ≤ f * 2 ^ e ∧ f * 2 ^ e < ((if n ≤ e then f * 2 ^ (e - n) else f / 2 ^ (n - e)) + 1) * 2 ^ n := by
  by_cases h : n ≤ e
  · simp only [h, if_true]
    have e1 : f * 2 ^ (e - n) * 2 ^ n = f * 2 ^ e := by
      rw [Nat.mul_assoc, ← Nat.pow_add, Nat.sub_add_cancel h]
    have : 0 < 2 ^ n := Nat.two_pow_pos n
    rw [Nat.add_mul, e1]
    omega
  · simp only [h, if_false]
    have e1 : 2 ^ n = 2 ^ (n - e) * 2 ^ e := by rw [← Nat.pow_add]; congr 1; omega
    rw [e1, ← Nat.mul_assoc, ← Nat.mul_assoc]
    refine ⟨Nat.mul_le_mul_right _ (Nat.div_mul_le_self f _), Nat.mul_lt_mul_of_pos_right ?_ (Nat.two_pow_pos e)⟩
    have h1 := Nat.div_add_mod f (2 ^ (n - e))
    have h2 := Nat.mod_lt f (Nat.two_pow_pos (n - e))
    rw [Nat.add_mul, Nat.mul_comm]
    omega

/-- The cast takes exactly what is before the point. -/
theorem truncate_iff (d : UInt64) (t : Int) : Json.truncate d = some t ↔ Before d t := by
  unfold Json.truncate Before
  have hE : (if d.toNat / 2 ^ 52 % 2048 = 0 then 1 else d.toNat / 2 ^ 52 % 2048) = exponent d := rfl
  have hf : (if d.toNat / 2 ^ 52 % 2048 = 0 then d.toNat % 2 ^ 52 else d.toNat % 2 ^ 52 + 2 ^ 52) = significand d := rfl
  simp only [hE, hf]
  by_cases h : d.toNat / 2 ^ 52 % 2048 = 2047
  · simp [h, Finite]
  · obtain ⟨h1, h2⟩ := floor_scaled (significand d) (exponent d) 1075
    rw [if_neg h]
    have hfin : Finite d := h
    generalize hT : (if 1075 ≤ exponent d then significand d * 2 ^ (exponent d - 1075) else significand d / 2 ^ (1075 - exponent d)) = T at *
    generalize significand d * 2 ^ exponent d = X at *
    generalize (2 : Nat) ^ 1075 = P at *
    simp only [hfin, true_and, Option.some.injEq, Negative]
    constructor
    · intro e
      by_cases hn : d.toNat < 2 ^ 63
      · rw [if_pos hn] at e
        subst e
        exact ⟨by simpa using h1, by simpa using h2, fun h => by omega, fun _ => by omega⟩
      · rw [if_neg hn] at e
        subst e
        exact ⟨by simpa using h1, by simpa using h2, fun _ => by omega, fun h => by omega⟩
    · rintro ⟨h3, h4, h5, h6⟩
      have e := floor_unique h1 h2 h3 h4
      by_cases hn : d.toNat < 2 ^ 63
      · rw [if_pos hn]
        have : ¬ t < 0 := fun h => by have := h5 h; omega
        omega
      · rw [if_neg hn]
        have : ¬ 0 < t := fun h => h6 h (by omega)
        omega

theorem cast_ok_iff (lo hi t : Int) (d : UInt64) : Json.castDouble lo hi d = .ok t ↔ Before d t ∧ lo ≤ t ∧ t < hi := by
  unfold Json.castDouble
  cases h : Json.truncate d with
  | some t' =>
    have h' := h
    simp only
    constructor
    · intro e
      split at e
      · rename_i hr
        injection e with e
        subst e
        exact ⟨(truncate_iff _ _).1 h, hr⟩
      · cases e
    · rintro ⟨hb, hr⟩
      rw [(truncate_iff _ _).2 hb] at h
      injection h with h
      subst h
      rw [if_pos hr]
  | none =>
    constructor
    · intro e; cases e
    · rintro ⟨hb, _⟩
      rw [(truncate_iff _ _).2 hb] at h
      cases h

theorem cast_ub (lo hi : Int) (d : UInt64) (h : ∀ t, lo ≤ t → t < hi → ¬ Before d t) : Json.castDouble lo hi d = .ub := by
  cases hc : Json.castDouble lo hi d with
  | ok t =>
    have := (cast_ok_iff _ _ _ _).1 hc
    exact absurd this.1 (h t this.2.1 this.2.2)
  | ub => rfl
  | throws e => unfold Json.castDouble at hc; repeat' split at hc
                all_goals cases hc
  | terminate => unfold Json.castDouble at hc; repeat' split at hc
                 all_goals cases hc

/-! ## Ids -/

theorem ulong_iff (v : Val) (k : Nat) : asULong v = .ok k ↔ Names v k := by
  unfold Names
  cases v with
  | int n =>
    simp only [asULong, Res.ok.injEq]
    constructor
    · intro h
      refine ⟨by omega, .inl ⟨n, n / 2 ^ 64, rfl, ?_⟩⟩
      have := Int.emod_add_mul_ediv n (2 ^ 64)
      omega
    · rintro ⟨hk, ⟨n', q, e, h⟩ | ⟨d, e, _⟩⟩
      · injection e with e
        subst e
        rw [h]
        omega
      · cases e
  | dbl d =>
    simp only [asULong]
    constructor
    · intro h
      cases hc : Json.castDouble 0 (2 ^ 64) d with
      | ok t =>
        rw [hc] at h
        injection h with h
        obtain ⟨h1, h2, h3⟩ := (cast_ok_iff _ _ _ _).1 hc
        refine ⟨by omega, .inr ⟨d, rfl, ?_⟩⟩
        have : (k : Int) = t := by omega
        rw [this]; exact h1
      | throws e => rw [hc] at h; cases h
      | ub => rw [hc] at h; cases h
      | terminate => rw [hc] at h; cases h
    · rintro ⟨hk, ⟨n', q, e, h⟩ | ⟨d', e, hb⟩⟩
      · cases e
      · injection e with e
        subst e
        rw [(cast_ok_iff 0 (2 ^ 64) k d).2 ⟨hb, by omega, by omega⟩]
        simp [Res.bind]
  | null => simp [asULong]
  | bool b => simp [asULong]
  | str s => simp [asULong]
  | arr l => simp [asULong]
  | obj l => simp [asULong]

theorem bind_ok_iff {α β : Type} (x : Res α) (f : α → Res β) (b : β) : (x >>= f) = .ok b ↔ ∃ a, x = .ok a ∧ f a = .ok b := by
  cases x with
  | ok a => simp
  | throws e => simp
  | ub => simp
  | terminate => simp

theorem bind_ok_iff' {α β : Type} (x : Res α) (f : α → Res β) (b : β) : x.bind f = .ok b ↔ ∃ a, x = .ok a ∧ f a = .ok b := bind_ok_iff x f b

theorem mapM_ok_iff {α β : Type} (f : α → Res β) (l : List α) : (∃ r, Res.mapM f l = .ok r) ↔ ∀ x ∈ l, ∃ y, f x = .ok y := by
  induction l with
  | nil => simp [Res.mapM]
  | cons x l ih =>
    simp only [Res.mapM, bind_ok_iff', List.mem_cons, forall_eq_or_imp, ← ih]
    constructor
    · rintro ⟨r, y, hy, ys, hys, _⟩
      exact ⟨⟨y, hy⟩, ys, hys⟩
    · rintro ⟨⟨y, hy⟩, ys, hys⟩
      exact ⟨_, y, hy, ys, hys, rfl⟩

theorem entry_iff (v : Val) : (∃ y, toPair asULong asBool v = .ok y) ↔ Entry v := by
  unfold toPair Entry
  constructor
  · rintro ⟨y, hy⟩
    obtain ⟨l, hl, hy⟩ := (bind_ok_iff' _ _ _).1 hy
    cases v with
    | arr l' =>
      simp only [asArr, Res.ok.injEq] at hl
      subst hl
      match l', hy with
      | a :: b :: rest, hy =>
        obtain ⟨k, hk, hy⟩ := (bind_ok_iff' _ _ _).1 hy
        obtain ⟨x, hx, _⟩ := (bind_ok_iff' _ _ _).1 hy
        cases b with
        | bool b => exact ⟨a, b, rest, k, rfl, (ulong_iff a k).1 hk⟩
        | null => cases hx
        | int n => cases hx
        | dbl d => cases hx
        | str s => cases hx
        | arr l => cases hx
        | obj l => cases hx
    | null => cases hl
    | int n => cases hl
    | dbl d => cases hl
    | str s => cases hl
    | bool l => cases hl
    | obj l => cases hl
  · rintro ⟨a, b, rest, k, rfl, hk⟩
    exact ⟨(k, b), by simp [asArr, Res.bind, (ulong_iff a k).2 hk, asBool]⟩

theorem table_iff (v : Val) : (∃ m, toMap asULong asBool v = .ok m) ↔ ∃ ts, v = .arr ts ∧ ∀ x ∈ ts, Entry x := by
  unfold toMap
  constructor
  · rintro ⟨m, hm⟩
    obtain ⟨l, hl, hm⟩ := (bind_ok_iff' _ _ _).1 hm
    obtain ⟨r, hr, _⟩ := (bind_ok_iff' _ _ _).1 hm
    cases v with
    | arr l' =>
      simp only [asArr, Res.ok.injEq] at hl
      subst hl
      exact ⟨_, rfl, fun x hx => (entry_iff x).1 ((mapM_ok_iff _ _).1 ⟨r, hr⟩ x hx)⟩
    | null => cases hl
    | int n => cases hl
    | dbl d => cases hl
    | str s => cases hl
    | bool l => cases hl
    | obj l => cases hl
  · rintro ⟨ts, rfl, h⟩
    obtain ⟨r, hr⟩ := (mapM_ok_iff (toPair asULong asBool) ts).2 fun x hx => (entry_iff x).2 (h x hx)
    exact ⟨_, by simp [asArr, Res.bind, hr]; rfl⟩

theorem get_iff (v w : Val) (k : Bytes) : get v k = .ok w ↔ ∃ l, v = .obj l ∧ l.lookup k = some w := by
  cases v with
  | obj l =>
    simp only [BsonEndpoints.get]
    cases h : l.lookup k with
    | some x => simp [h]
    | none => simp [h]
  | null => simp [BsonEndpoints.get]
  | int n => simp [BsonEndpoints.get]
  | dbl d => simp [BsonEndpoints.get]
  | str s => simp [BsonEndpoints.get]
  | bool l => simp [BsonEndpoints.get]
  | arr l => simp [BsonEndpoints.get]

theorem asBool_iff (v : Val) (b : Bool) : asBool v = .ok b ↔ v = .bool b := by cases v <;> simp [asBool]

theorem asStr_iff (v : Val) (b : Bytes) : asStr v = .ok b ↔ v = .str b := by cases v <;> simp [asStr]

theorem text_cmd : text "cmd" = cmd := by decide
theorem text_set : text "set" = setWord := by decide
theorem text_state : text "state" = stateKey := by decide
theorem text_p : text "p" = pKey := by decide
theorem text_sp : text "sp" = spKey := by decide
theorem text_t : text "t" = tKey := by decide
theorem text_pid : text "pid" = pidKey := by decide
theorem text_name : text "name" = nameKey := by decide
theorem text_threads : text "threads" = threadsKey := by decide

theorem switching_iff (v : Val) : (∃ c, fromVal v = .ok c) ↔ Switching v := by
  unfold fromVal Switching
  simp only [bind_ok_iff, get_iff, asBool_iff, text_p, text_sp, text_t]
  constructor
  · rintro ⟨c, a, ⟨l, rfl, ha⟩, p, rfl, b, ⟨l', e, hb⟩, sp, rfl, t, ⟨l'', e', ht⟩, m, hm, _⟩
    cases e; cases e'
    obtain ⟨ts, rfl, hts⟩ := (table_iff t).1 ⟨m, hm⟩
    exact ⟨_, p, sp, ts, rfl, ha, hb, ht, hts⟩
  · rintro ⟨l, p, sp, ts, rfl, hp, hsp, ht, hts⟩
    obtain ⟨m, hm⟩ := (table_iff (.arr ts)).2 ⟨ts, rfl, hts⟩
    exact ⟨_, _, ⟨l, rfl, hp⟩, _, rfl, _, ⟨l, rfl, hsp⟩, _, rfl, _, ⟨l, rfl, ht⟩, m, hm, rfl⟩

theorem read_iff (stack : Nat) (b : Bytes) (v : Val) : readBson stack b = .ok v ↔ decode stack b = .ok v := by
  unfold readBson
  cases decode stack b <;> simp

/-! ## Queries -/

/-- The server answers exactly the complete requests: every other sequence of bytes ends its process or is undefined behaviour. -/
theorem answered_iff (stack : Nat) (acts : List TraceState.Act) (s : State) (h : TraceState.run {} acts = .ok s) (hids : ∀ x ∈ s.map, x.1 < 2 ^ 63) (request : Bytes) :
    (∃ r, configHandle stack s request = .ok r) ↔ ∃ v, decode stack request = .ok v ∧ Complete v := by
  obtain ⟨⟨ts0, hts0⟩, hruns⟩ := C63.handler_runs acts s h
  have hkeys : (s.map.map (·.1)).Nodup := (TraceState.R_run TraceState.R_init acts h).keys
  have hm : TraceState.step s .getMap = .ok { s with snaps := s.snaps ++ [s.map] } := rfl
  have reply : ∀ (s2 : State) (ts : List (Nat × Bool)), Configurator.loads s2 s.map = .ok ts →
      ∃ b, encode (.obj [(stateKey, toVal { process := s2.process, threads := ts })]) = .ok b := by
    intro s2 ts hts
    have hk := loads_keys s2 s.map ts hts
    have hsw : C128.Switches ts := by
      refine ⟨by rw [hk]; exact hkeys, fun x hx => ?_⟩
      have : x.1 ∈ s.map.map (·.1) := by rw [← hk]; exact List.mem_map.2 ⟨x, hx, rfl⟩
      obtain ⟨y, hy, e⟩ := List.mem_map.1 this
      rw [← e]
      exact hids y hy
    exact encode_ok (plain_reply 0 { process := s2.process, threads := ts } hsw)
  unfold configHandle Complete
  simp only [bind_ok_iff, get_iff, asStr_iff, read_iff, hm, text_cmd, text_set, text_state]
  constructor
  · rintro ⟨r, v, hv, s1, _, c, ⟨l, rfl, hc⟩, w, rfl, hr⟩
    refine ⟨_, hv, l, w, rfl, hc, fun e => ?_⟩
    rw [if_pos e] at hr
    simp only [bind_ok_iff, get_iff] at hr
    obtain ⟨st, ⟨l', e', hst⟩, c, hc', _⟩ := hr
    cases e'
    exact ⟨st, hst, (switching_iff st).1 ⟨c, hc'⟩⟩
  · rintro ⟨v, hv, l, c, rfl, hc, hset⟩
    by_cases e : c = setWord
    · obtain ⟨st, hst, hsw⟩ := hset e
      obtain ⟨cf, hcf⟩ := (switching_iff st).2 hsw
      obtain ⟨s', ts, hs', hts⟩ := hruns cf
      obtain ⟨b, hb⟩ := reply s' ts hts
      refine ⟨(s', b), _, hv, _, rfl, _, ⟨l, rfl, hc⟩, c, rfl, ?_⟩
      rw [if_pos e]
      simp only [bind_ok_iff, get_iff]
      exact ⟨st, ⟨l, rfl, hst⟩, cf, hcf, s', hs', ts, hts, b, hb, rfl⟩
    · obtain ⟨b, hb⟩ := reply _ ts0 hts0
      refine ⟨({ s with snaps := s.snaps ++ [s.map] }, b), _, hv, _, rfl, _, ⟨l, rfl, hc⟩, c, rfl, ?_⟩
      rw [if_neg e]
      simp only [bind_ok_iff]
      exact ⟨_, rfl, ts0, hts0, b, hb, rfl⟩

/-- Two threads and a request that names one of them by a double and one by a number that is too large by 2^64. -/
example : Complete (setMessage false false [(.dbl 0x4016000000000000, true), (.int (2 ^ 64 + 6), false)]) := by
  refine ⟨_, _, rfl, rfl, fun _ => ⟨_, rfl, _, _, _, _, rfl, rfl, rfl, rfl, fun x hx => ?_⟩⟩
  simp only [List.map_cons, List.map_nil, List.mem_cons, List.not_mem_nil, or_false] at hx
  rcases hx with rfl | rfl
  · exact ⟨_, _, _, 5, rfl, (ulong_iff _ _).1 (by rfl)⟩
  · exact ⟨_, _, _, 6, rfl, (ulong_iff _ _).1 (by rfl)⟩

theorem mapM_ub {α β : Type} (f : α → Res β) (pre : List α) (x : α) (post : List α) (h : ∀ y ∈ pre, ∃ z, f y = .ok z) (hx : f x = .ub) : Res.mapM f (pre ++ x :: post) = .ub := by
  induction pre with
  | nil => simp [Res.mapM, hx, Res.bind]
  | cons y pre ih =>
    obtain ⟨z, hz⟩ := h y (by simp)
    simp [Res.mapM, hz, Res.bind, ih fun w hw => h w (by simp [hw])]

theorem mapM_throws {α β : Type} (f : α → Res β) (pre : List α) (x : α) (post : List α) (e : String) (h : ∀ y ∈ pre, ∃ z, f y = .ok z) (hx : f x = .throws e) :
    Res.mapM f (pre ++ x :: post) = .throws e := by
  induction pre with
  | nil => simp [Res.mapM, hx, Res.bind]
  | cons y pre ih =>
    obtain ⟨z, hz⟩ := h y (by simp)
    simp [Res.mapM, hz, Res.bind, ih fun w hw => h w (by simp [hw])]

theorem plain_message (n : Nat) (p sp : Bool) (t : List (Val × Bool)) (h : ∀ x ∈ t, Plain n x.1) : Plain (n + 4) (setMessage p sp t) := by
  refine plain_obj _ _ [text "cmd", text "state"] rfl (by decide) (by decide) ?_
  intro q hq
  simp only [List.mem_cons, List.not_mem_nil, or_false] at hq
  rcases hq with rfl | rfl
  · exact .str _ _ (by decide)
  · refine plain_obj _ _ [text "p", text "sp", text "t"] rfl (by decide) (by decide) ?_
    intro q hq
    simp only [List.mem_cons, List.not_mem_nil, or_false] at hq
    rcases hq with rfl | rfl | rfl
    · exact .bool _ _
    · exact .bool _ _
    · refine .arr _ _ fun v hv => ?_
      obtain ⟨x, hx, rfl⟩ := List.mem_map.1 hv
      refine .arr _ _ fun v hv => ?_
      simp only [List.mem_cons, List.not_mem_nil, or_false] at hv
      rcases hv with rfl | rfl
      · exact h x hx
      · exact .bool _ _

theorem handle_message (stack : Nat) (s : State) (p sp : Bool) (t : List (Val × Bool)) (h : ∀ x ∈ t, Plain stack x.1) (request : Bytes) (hr : encode (setMessage p sp t) = .ok request) :
    configHandle (stack + 3) s request =
      ((toMap asULong asBool (.arr (t.map fun x => .arr [x.1, .bool x.2]))) >>= fun m =>
        TraceState.run { s with snaps := s.snaps ++ [s.map] } (Configurator.setActs s.snaps.length { process := p, setProcess := sp, threads := m }) >>= fun s2 =>
        Configurator.loads s2 s.map >>= fun ts =>
        encode (.obj [(stateKey, toVal { process := s2.process, threads := ts })]) >>= fun b => .ok (s2, b)) := by
  have hm : TraceState.step s .getMap = .ok { s with snaps := s.snaps ++ [s.map] } := rfl
  have hv := read_ok (plain_message stack p sp t h) hr
  unfold configHandle
  rw [hv]
  simp only [Res.bind_ok, hm]
  have e1 : BsonEndpoints.get (setMessage p sp t) cmd = .ok (.str setWord) := by simp only [setMessage, text_cmd, text_set, BsonEndpoints.get, List.lookup]; rfl
  have e2 : BsonEndpoints.get (setMessage p sp t) stateKey = .ok (.obj [(pKey, .bool p), (spKey, .bool sp), (tKey, .arr (t.map fun x => .arr [x.1, .bool x.2]))]) := by
    simp only [setMessage, text_cmd, text_set, text_state, text_p, text_sp, text_t, BsonEndpoints.get]
    rfl
  simp only [e1, e2, Res.bind_ok, asStr, if_true]
  have e3 : fromVal (.obj [(pKey, .bool p), (spKey, .bool sp), (tKey, .arr (t.map fun x => .arr [x.1, .bool x.2]))]) =
      (toMap asULong asBool (.arr (t.map fun x => .arr [x.1, .bool x.2])) >>= fun m => .ok { process := p, setProcess := sp, threads := m }) := rfl
  rw [e3]
  cases toMap asULong asBool (.arr (t.map fun x => .arr [x.1, .bool x.2])) <;> rfl

theorem pair_names (x : Val × Bool) (k : Nat) (h : Names x.1 k) : toPair asULong asBool (.arr [x.1, .bool x.2]) = .ok (k, x.2) := by
  simp [toPair, asArr, Res.bind, (ulong_iff _ _).2 h, asBool]

/-- What is before the point of a double is taken for the id of a thread: the request has the effect and the answer that it has with whole numbers. -/
theorem doubles_taken (stack : Nat) (s : State) (p sp : Bool) (t : List (Val × Nat × Bool)) (ht : ∀ x ∈ t, Plain stack x.1 ∧ Names x.1 x.2.1 ∧ x.2.1 < 2 ^ 63) (request : Bytes)
    (hr : encode (setMessage p sp (t.map fun x => (x.1, x.2.2))) = .ok request) :
    ∃ whole, encode (setMessage p sp (t.map fun x => (.int x.2.1, x.2.2))) = .ok whole ∧ configHandle (stack + 3) s request = configHandle (stack + 3) s whole := by
  have h1 : ∀ x ∈ t.map (fun x => (x.1, x.2.2)), Plain stack x.1 := by
    intro x hx
    obtain ⟨y, hy, rfl⟩ := List.mem_map.1 hx
    exact (ht y hy).1
  have h2 : ∀ x ∈ t.map (fun x => ((.int x.2.1 : Val), x.2.2)), Plain stack x.1 := by
    intro x hx
    obtain ⟨y, hy, rfl⟩ := List.mem_map.1 hx
    exact C128.plain_nat _ _ (ht y hy).2.2
  obtain ⟨w, hw⟩ := encode_ok (plain_message stack p sp _ h2)
  refine ⟨w, hw, ?_⟩
  rw [handle_message stack s p sp _ h1 request hr, handle_message stack s p sp _ h2 w hw]
  congr 1
  unfold toMap
  simp only [asArr, Res.bind, List.map_map]
  have e1 : Res.mapM (toPair asULong asBool) (t.map ((fun x : Val × Bool => .arr [x.1, .bool x.2]) ∘ fun x => (x.1, x.2.2))) = .ok (t.map fun x => (x.2.1, x.2.2)) :=
    Json.mapM_map _ _ _ _ fun x hx => pair_names (x.1, x.2.2) x.2.1 (ht x hx).2.1
  have e2 : Res.mapM (toPair asULong asBool) (t.map ((fun x : Val × Bool => .arr [x.1, .bool x.2]) ∘ fun x => (.int x.2.1, x.2.2))) = .ok (t.map fun x => (x.2.1, x.2.2)) :=
    Json.mapM_map _ _ _ _ fun x hx => pair_names (.int x.2.1, x.2.2) x.2.1 ⟨by have := (ht x hx).2.2; omega, .inl ⟨x.2.1, 0, rfl, by omega⟩⟩
  rw [e1, e2]

/-- A double that is no id, because it is negative, too large, infinite or NaN, makes the server's behaviour undefined, in every state. -/
theorem other_doubles_undefined (stack : Nat) (s : State) (p sp : Bool) (t : List (Val × Bool)) (d : UInt64) (b : Bool) (t' : List (Val × Bool))
    (ht : ∀ x ∈ t, ∃ k, Names x.1 k) (hd : ∀ k : Nat, k < 2 ^ 64 → ¬ Before d k) (hp : ∀ x ∈ t ++ t', Plain stack x.1) (request : Bytes)
    (hr : encode (setMessage p sp (t ++ (.dbl d, b) :: t')) = .ok request) : configHandle (stack + 3) s request = .ub := by
  have h1 : ∀ x ∈ t ++ (.dbl d, b) :: t', Plain stack x.1 := by
    intro x hx
    simp only [List.mem_append, List.mem_cons] at hx
    rcases hx with hx | rfl | hx
    · exact hp x (by simp [hx])
    · exact .dbl _ _
    · exact hp x (by simp [hx])
  rw [handle_message stack s p sp _ h1 request hr]
  have : toMap asULong asBool (.arr ((t ++ (.dbl d, b) :: t').map fun x => .arr [x.1, .bool x.2])) = .ub := by
    unfold toMap
    simp only [asArr, Res.bind, List.map_append, List.map_cons]
    rw [mapM_ub]
    · intro y hy
      obtain ⟨x, hx, rfl⟩ := List.mem_map.1 hy
      obtain ⟨k, hk⟩ := ht x hx
      exact ⟨_, pair_names x k hk⟩
    · simp only [toPair, asArr, Res.bind, asULong]
      rw [cast_ub]
      intro t h0 h64 hb
      exact hd t.toNat (by omega) (by rw [Int.toNat_of_nonneg h0]; exact hb)
  rw [this]
  rfl

/-- Something else than a number is refused with an exception, in every state. -/
theorem others_refused (stack : Nat) (s : State) (p sp : Bool) (t : List (Val × Bool)) (v : Val) (b : Bool) (t' : List (Val × Bool))
    (ht : ∀ x ∈ t, ∃ k, Names x.1 k) (hv : (∀ n, v ≠ .int n) ∧ ∀ d, v ≠ .dbl d) (hp : ∀ x ∈ t ++ (v, b) :: t', Plain stack x.1) (request : Bytes)
    (hr : encode (setMessage p sp (t ++ (v, b) :: t')) = .ok request) : configHandle (stack + 3) s request = .throws "type_error" := by
  rw [handle_message stack s p sp _ hp request hr]
  have : toMap asULong asBool (.arr ((t ++ (v, b) :: t').map fun x => .arr [x.1, .bool x.2])) = .throws "type_error" := by
    unfold toMap
    simp only [asArr, Res.bind, List.map_append, List.map_cons]
    rw [mapM_throws]
    · intro y hy
      obtain ⟨x, hx, rfl⟩ := List.mem_map.1 hy
      obtain ⟨k, hk⟩ := ht x hx
      exact ⟨_, pair_names x k hk⟩
    · simp only [toPair, asArr, Res.bind]
      cases v with
      | int n => exact absurd rfl (hv.1 n)
      | dbl d => exact absurd rfl (hv.2 d)
      | null => rfl
      | bool b => rfl
      | str s => rfl
      | arr l => rfl
      | obj l => rfl
  rw [this]
  rfl

/-- The full property: a request with an id that is no whole number of the right size is refused, and has no effect. -/
def Refused : Prop := ∀ (stack : Nat) (s : State) (p sp : Bool) (v : Val) (b : Bool), (∀ k : Nat, k < 2 ^ 64 → v ≠ .int k) → Plain stack v →
  ∀ request, encode (setMessage p sp [(v, b)]) = .ok request → ∃ e, configHandle (stack + 3) s request = .throws e

/-- It fails: the number 5.5 switches thread 5. -/
theorem not_Refused : ¬ Refused := by
  intro h
  have hP : ∀ x ∈ [((.dbl 0x4016000000000000 : Val), false)], Plain 0 x.1 := by
    intro x hx
    rw [List.mem_singleton.1 hx]
    exact .dbl _ _
  obtain ⟨r, hr⟩ := encode_ok (plain_message 0 false false _ hP)
  obtain ⟨e, he⟩ := h 0 {} false false (.dbl 0x4016000000000000) false (by intro k _ e; cases e) (.dbl _ _) r hr
  rw [handle_message 0 _ _ _ _ hP r hr] at he
  have : ∃ b, (toMap asULong asBool (.arr ([((.dbl 0x4016000000000000 : Val), false)].map fun x => .arr [x.1, .bool x.2]))) = .ok b ∧ b = [(5, false)] := ⟨_, by rfl, rfl⟩
  obtain ⟨_, h1, rfl⟩ := this
  rw [h1] at he
  obtain ⟨b, hb⟩ := encode_ok (plain_reply 0 { process := true, threads := [] } ⟨by simp, by simp⟩)
  have h2 : TraceState.run { ({} : State) with snaps := ({} : State).snaps ++ [({} : State).map] } (Configurator.setActs ({} : State).snaps.length { process := false, setProcess := false, threads := [(5, false)] }) =
      .ok { ({} : State) with snaps := [[]] } := rfl
  simp only [Res.bind_ok, h2] at he
  have h3 : Configurator.loads { ({} : State) with snaps := [[]] } ({} : State).map = .ok [] := rfl
  simp only [Res.bind_ok, h3] at he
  rw [show encode (.obj [(stateKey, toVal { process := ({} : State).process, threads := [] })]) = .ok b from hb] at he
  cases he

/-- Infinity, -1 and 2^64 are no ids. -/
example : ∀ d ∈ [(0x7FF0000000000000 : UInt64), 0xBFF0000000000000, 0x43F0000000000000], ∀ k : Nat, k < 2 ^ 64 → ¬ Before d k := by
  intro d hd k hk hb
  have := (truncate_iff d k).2 hb
  simp only [List.mem_cons, List.not_mem_nil, or_false] at hd
  rcases hd with rfl | rfl | rfl
  · cases (show none = some (k : Int) from this)
  · have h1 : some (-1 : Int) = some (k : Int) := this
    injection h1 with h1
    omega
  · have h1 : some (2 ^ 64 : Int) = some (k : Int) := this
    injection h1 with h1
    omega

/-! ## Answers -/

theorem plain_info (n : Nat) (pid : Val) (name : Bytes) (threads : List (Val × Bytes)) (hp : Plain (n + 2) pid) (hn : name.length + 1 < 2 ^ 31)
    (h : ∀ x ∈ threads, Plain n x.1 ∧ x.2.length + 1 < 2 ^ 31) : Plain (n + 3) (infoMessage pid name threads) := by
  refine plain_obj _ _ [text "pid", text "name", text "threads"] rfl (by decide) (by decide) ?_
  intro q hq
  simp only [List.mem_cons, List.not_mem_nil, or_false] at hq
  rcases hq with rfl | rfl | rfl
  · exact hp
  · exact .str _ _ hn
  · refine .arr _ _ fun v hv => ?_
    obtain ⟨x, hx, rfl⟩ := List.mem_map.1 hv
    refine .arr _ _ fun v hv => ?_
    simp only [List.mem_cons, List.not_mem_nil, or_false] at hv
    rcases hv with rfl | rfl
    · exact (h x hx).1
    · exact .str _ _ (h x hx).2

theorem info_message (stack : Nat) (pid : Val) (name : Bytes) (threads : List (Val × Nat × Bytes)) (hp : Plain (stack + 2) pid) (hn : name.length + 1 < 2 ^ 31)
    (ht : ∀ x ∈ threads, Plain stack x.1 ∧ Names x.1 x.2.1 ∧ x.2.2.length + 1 < 2 ^ 31) (hd : (threads.map fun x => x.2.1).Nodup) (answer : Bytes)
    (ha : encode (infoMessage pid name (threads.map fun x => (x.1, x.2.2))) = .ok answer) :
    infoResult (stack + 2) answer = (asInt32 pid).bind fun p => .ok { name := name, threads := threads.map fun x => (x.2.1, x.2.2), pid := p } := by
  have hP : Plain (stack + 3) (infoMessage pid name (threads.map fun x => (x.1, x.2.2))) := by
    refine plain_info stack pid name _ hp hn fun x hx => ?_
    obtain ⟨y, hy, rfl⟩ := List.mem_map.1 hx
    exact ⟨(ht y hy).1, (ht y hy).2.2⟩
  have e1 : index (infoMessage pid name (threads.map fun x => (x.1, x.2.2))) nameKey = .ok (.str name) := by
    simp only [infoMessage, text_pid, text_name, text_threads, index]; rfl
  have e2 : index (infoMessage pid name (threads.map fun x => (x.1, x.2.2))) pidKey = .ok pid := by
    simp only [infoMessage, text_pid, text_name, text_threads, index]; rfl
  have e3 : index (infoMessage pid name (threads.map fun x => (x.1, x.2.2))) threadsKey = .ok (.arr ((threads.map fun x => (x.1, x.2.2)).map fun x => .arr [x.1, .str x.2])) := by
    simp only [infoMessage, text_pid, text_name, text_threads, index]; rfl
  have e4 : toMap asULong asStr (.arr ((threads.map fun x => (x.1, x.2.2)).map fun x => .arr [x.1, .str x.2])) = .ok (threads.map fun x => (x.2.1, x.2.2)) := by
    unfold toMap
    simp only [asArr, Res.bind, List.map_map]
    have e : Res.mapM (toPair asULong asStr) (threads.map ((fun x : Val × Bytes => .arr [x.1, .str x.2]) ∘ fun x => (x.1, x.2.2))) = .ok (threads.map fun x => (x.2.1, x.2.2)) :=
      Json.mapM_map _ _ _ _ fun x hx => by simp [toPair, asArr, Res.bind, (ulong_iff _ _).2 (ht x hx).2.1, asStr]
    rw [e]
    simp only
    rw [Json.foldl_emplace [] _ (by simpa [Function.comp_def] using hd)]
    simp
  simp only [infoResult, read_ok hP ha, e1, e2, e3, e4, Res.bind_ok, asStr]
  cases asInt32 pid <;> rfl

/-- The process id of an answer can be a boolean, which is taken for 0 or 1, or a double, of which the part before the point is taken; with a double that is out of range the behaviour of the client is undefined. -/
theorem pid_taken (stack : Nat) (pid : Val) (name : Bytes) (threads : List (Val × Nat × Bytes)) (hp : Plain (stack + 2) pid) (hn : name.length + 1 < 2 ^ 31)
    (ht : ∀ x ∈ threads, Plain stack x.1 ∧ Names x.1 x.2.1 ∧ x.2.2.length + 1 < 2 ^ 31) (hd : (threads.map fun x => x.2.1).Nodup) (answer : Bytes)
    (ha : encode (infoMessage pid name (threads.map fun x => (x.1, x.2.2))) = .ok answer) :
    (∀ b, pid = .bool b → infoResult (stack + 2) answer = .ok { name := name, threads := threads.map fun x => (x.2.1, x.2.2), pid := if b then 1 else 0 }) ∧
    (∀ d t, pid = .dbl d → Before d t → -2 ^ 31 ≤ t → t < 2 ^ 31 → infoResult (stack + 2) answer = .ok { name := name, threads := threads.map fun x => (x.2.1, x.2.2), pid := t }) ∧
    (∀ d, pid = .dbl d → (∀ t, -2 ^ 31 ≤ t → t < 2 ^ 31 → ¬ Before d t) → infoResult (stack + 2) answer = .ub) ∧
    ((∀ b, pid ≠ .bool b) → (∀ d, pid ≠ .dbl d) → (∀ n, pid ≠ .int n) → infoResult (stack + 2) answer = .throws "type_error") := by
  rw [info_message stack pid name threads hp hn ht hd answer ha]
  refine ⟨?_, ?_, ?_, ?_⟩
  · rintro b rfl
    rfl
  · rintro d t rfl hb h1 h2
    simp only [asInt32, (cast_ok_iff _ _ _ _).2 ⟨hb, h1, h2⟩, Res.bind]
  · rintro d rfl h
    simp only [asInt32, cast_ub _ _ _ h, Res.bind]
  · intro h1 h2 h3
    cases pid with
    | bool b => exact absurd rfl (h1 b)
    | dbl d => exact absurd rfl (h2 d)
    | int n => exact absurd rfl (h3 n)
    | null => rfl
    | str s => rfl
    | arr l => rfl
    | obj l => rfl

/-- A double that is no id of a thread makes the behaviour of the client undefined. -/
theorem thread_undefined (stack : Nat) (pid : Val) (name : Bytes) (threads : List (Val × Bytes)) (d : UInt64) (n : Bytes) (rest : List (Val × Bytes))
    (hp : Plain (stack + 2) pid) (hn : name.length + 1 < 2 ^ 31) (ht : ∀ x ∈ threads, ∃ k, Names x.1 k) (hd : ∀ k : Nat, k < 2 ^ 64 → ¬ Before d k)
    (hl : ∀ x ∈ threads ++ (.dbl d, n) :: rest, Plain stack x.1 ∧ x.2.length + 1 < 2 ^ 31) (answer : Bytes)
    (ha : encode (infoMessage pid name (threads ++ (.dbl d, n) :: rest)) = .ok answer) : infoResult (stack + 2) answer = .ub := by
  have hP := plain_info stack pid name _ hp hn hl
  have e1 : index (infoMessage pid name (threads ++ (.dbl d, n) :: rest)) nameKey = .ok (.str name) := by
    simp only [infoMessage, text_pid, text_name, text_threads, index]; rfl
  have e3 : index (infoMessage pid name (threads ++ (.dbl d, n) :: rest)) threadsKey = .ok (.arr ((threads ++ (.dbl d, n) :: rest).map fun x => .arr [x.1, .str x.2])) := by
    simp only [infoMessage, text_pid, text_name, text_threads, index]; rfl
  have e4 : toMap asULong asStr (.arr ((threads ++ (.dbl d, n) :: rest).map fun x => .arr [x.1, .str x.2])) = .ub := by
    unfold toMap
    simp only [asArr, Res.bind, List.map_append, List.map_cons]
    rw [mapM_ub]
    · intro y hy
      obtain ⟨x, hx, rfl⟩ := List.mem_map.1 hy
      obtain ⟨k, hk⟩ := ht x hx
      exact ⟨(k, x.2), by simp [toPair, asArr, Res.bind, (ulong_iff _ _).2 hk, asStr]⟩
    · simp only [toPair, asArr, Res.bind, asULong]
      rw [cast_ub]
      intro t h0 h64 hb
      exact hd t.toNat (by omega) (by rw [Int.toNat_of_nonneg h0]; exact hb)
  simp only [infoResult, read_ok hP ha, e1, e3, e4, Res.bind_ok, asStr]
  rfl

/-- Returned or threw an exception: neither undefined behaviour nor the end of the process. -/
def Orderly {α : Type} (r : Res α) : Prop := (∃ a, r = .ok a) ∨ ∃ e, r = .throws e

theorem Orderly.bind {α β : Type} {x : Res α} {f : α → Res β} (hx : Orderly x) (hf : ∀ a, x = .ok a → Orderly (f a)) : Orderly (x >>= f) := by
  rcases hx with ⟨a, rfl⟩ | ⟨e, rfl⟩
  · exact hf a rfl
  · exact .inr ⟨e, rfl⟩

theorem Orderly.bind' {α β : Type} {x : Res α} {f : α → Res β} (hx : Orderly x) (hf : ∀ a, x = .ok a → Orderly (f a)) : Orderly (x.bind f) := Orderly.bind hx hf

theorem orderly_ok {α : Type} (a : α) : Orderly (.ok a) := .inl ⟨a, rfl⟩

theorem orderly_mapM {α β : Type} (f : α → Res β) (l : List α) (h : ∀ x ∈ l, Orderly (f x)) : Orderly (Res.mapM f l) := by
  induction l with
  | nil => exact orderly_ok _
  | cons x l ih =>
    simp only [Res.mapM]
    exact (h x (by simp)).bind' fun _ _ => (ih fun y hy => h y (by simp [hy])).bind' fun _ _ => orderly_ok _

theorem orderly_asStr (v : Val) : Orderly (asStr v) := by cases v <;> first | exact .inl ⟨_, rfl⟩ | exact .inr ⟨_, rfl⟩
theorem orderly_asBool (v : Val) : Orderly (asBool v) := by cases v <;> first | exact .inl ⟨_, rfl⟩ | exact .inr ⟨_, rfl⟩
theorem orderly_asArr (v : Val) : Orderly (asArr v) := by cases v <;> first | exact .inl ⟨_, rfl⟩ | exact .inr ⟨_, rfl⟩
theorem orderly_asULong {v : Val} (h : Whole v) : Orderly (asULong v) := by cases h <;> first | exact .inl ⟨_, rfl⟩ | exact .inr ⟨_, rfl⟩
theorem orderly_asInt32 {v : Val} (h : Whole v) : Orderly (asInt32 v) := by cases h <;> first | exact .inl ⟨_, rfl⟩ | exact .inr ⟨_, rfl⟩
theorem orderly_asUInt32 {v : Val} (h : Whole v) : Orderly (asUInt32 v) := by cases h <;> first | exact .inl ⟨_, rfl⟩ | exact .inr ⟨_, rfl⟩

theorem asArr_whole {v : Val} (h : Whole v) {l : List Val} (hl : asArr v = .ok l) : ∀ x ∈ l, Whole x := by
  cases h with
  | arr l' h =>
    simp only [asArr, Res.ok.injEq] at hl
    subst hl
    exact h
  | null => cases hl
  | bool => cases hl
  | int => cases hl
  | str => cases hl
  | obj => cases hl

theorem orderly_toMap {κ ν : Type} [BEq κ] (fk : Val → Res κ) (fv : Val → Res ν) (hk : ∀ v, Whole v → Orderly (fk v)) (hv : ∀ v, Whole v → Orderly (fv v)) (v : Val) (h : Whole v) : Orderly (toMap fk fv v) := by
  unfold toMap
  refine (orderly_asArr v).bind' fun l hl => (orderly_mapM _ l fun x hx => ?_).bind' fun _ _ => orderly_ok _
  have hx' := asArr_whole h hl x hx
  unfold toPair
  refine (orderly_asArr x).bind' fun q hq => ?_
  have hq' := asArr_whole hx' hq
  match q, hq' with
  | [], _ => exact .inr ⟨_, rfl⟩
  | [_], _ => exact .inr ⟨_, rfl⟩
  | a :: b :: _, hq' => exact (hk a (hq' a (by simp))).bind' fun _ _ => (hv b (hq' b (by simp))).bind' fun _ _ => orderly_ok _

theorem lookup_whole {l : List (Bytes × Val)} (h : ∀ p ∈ l, Whole p.2) {k : Bytes} {v : Val} (hv : l.lookup k = some v) : Whole v := by
  induction l with
  | nil => cases hv
  | cons p l ih =>
    rw [List.lookup_cons] at hv
    cases hb : k == p.1 with
    | true => rw [hb] at hv; injection hv with hv; subst hv; exact h p (by simp)
    | false => rw [hb] at hv; exact ih (fun q hq => h q (by simp [hq])) hv

theorem index_whole {v : Val} (h : Whole v) (k : Bytes) : Orderly (index v k) ∧ ∀ w, index v k = .ok w → Whole w := by
  cases h with
  | obj l h =>
    refine ⟨.inl ⟨_, rfl⟩, fun w hw => ?_⟩
    simp only [index, Res.ok.injEq] at hw
    subst hw
    cases hl : l.lookup k with
    | some x => exact lookup_whole h hl
    | none => exact .null
  | null => exact ⟨.inl ⟨_, rfl⟩, fun w hw => by simp only [index, Res.ok.injEq] at hw; subst hw; exact .null⟩
  | bool => exact ⟨.inr ⟨_, rfl⟩, fun w hw => by cases hw⟩
  | int => exact ⟨.inr ⟨_, rfl⟩, fun w hw => by cases hw⟩
  | str => exact ⟨.inr ⟨_, rfl⟩, fun w hw => by cases hw⟩
  | arr => exact ⟨.inr ⟨_, rfl⟩, fun w hw => by cases hw⟩

theorem get_whole {v : Val} (h : Whole v) (k : Bytes) : Orderly (BsonEndpoints.get v k) ∧ ∀ w, BsonEndpoints.get v k = .ok w → Whole w := by
  constructor
  · cases v with
    | obj l =>
      simp only [BsonEndpoints.get]
      cases l.lookup k with
      | some x => exact .inl ⟨_, rfl⟩
      | none => exact .inr ⟨_, rfl⟩
    | null => exact .inr ⟨_, rfl⟩
    | bool => exact .inr ⟨_, rfl⟩
    | int => exact .inr ⟨_, rfl⟩
    | dbl => exact .inr ⟨_, rfl⟩
    | str => exact .inr ⟨_, rfl⟩
    | arr => exact .inr ⟨_, rfl⟩
  · intro w hw
    obtain ⟨l, rfl, hl⟩ := (get_iff _ _ _).1 hw
    cases h with
    | obj _ h => exact lookup_whole h hl

theorem orderly_fromVal (v : Val) (h : Whole v) : Orderly (fromVal v) := by
  unfold fromVal
  refine (get_whole h _).1.bind fun _ _ => (orderly_asBool _).bind fun _ _ => (get_whole h _).1.bind fun _ _ => (orderly_asBool _).bind fun _ _ => (get_whole h _).1.bind fun t ht => ?_
  exact (orderly_toMap _ _ (fun _ => orderly_asULong) (fun v _ => orderly_asBool v) t ((get_whole h _).2 t ht)).bind fun _ _ => orderly_ok _

/-- **C159, partial.** Whatever a message holds: without doubles, a client gets a result or an exception. -/
theorem answers_orderly_partial (stack : Nat) (answer : Bytes) (v : Val) (hv : decode stack answer = .ok v) (h : Whole v) :
    Orderly (infoResult stack answer) ∧ Orderly (supportedResult stack answer) ∧ Orderly (mappingResult stack answer) ∧ Orderly (configResult stack answer) := by
  have hr := (read_iff stack answer v).2 hv
  unfold infoResult supportedResult mappingResult configResult
  simp only [hr, Res.bind_ok]
  refine ⟨?_, ?_, ?_, ?_⟩
  · refine (index_whole h _).1.bind fun _ _ => (orderly_asStr _).bind fun _ _ => (index_whole h _).1.bind fun t ht => ?_
    refine (orderly_toMap _ _ (fun _ => orderly_asULong) (fun v _ => orderly_asStr v) t ((index_whole h _).2 t ht)).bind fun _ _ => (index_whole h _).1.bind fun p hp => ?_
    exact (orderly_asInt32 ((index_whole h _).2 p hp)).bind fun _ _ => orderly_ok _
  · exact (index_whole h _).1.bind fun _ _ => (orderly_asArr _).bind fun _ _ => orderly_mapM _ _ fun x _ => orderly_asStr x
  · refine (index_whole h _).1.bind fun t ht => ?_
    exact orderly_toMap _ _ (fun _ => orderly_asInt32) (fun v hv => orderly_toMap _ _ (fun _ => orderly_asUInt32) (fun v _ => orderly_asStr v) v hv) t ((index_whole h _).2 t ht)
  · refine (get_whole h _).1.bind fun t ht => (orderly_fromVal t ((get_whole h _).2 t ht)).bind fun _ _ => orderly_ok _

theorem orderly_encode (v : Val) : Orderly (encode v) := by
  by_cases h : Writable v ∧ ∃ l, v = .obj l
  · exact .inl ((written_iff v).2 h)
  · exact .inr (refused v h)

/-- **C159, partial.** Whatever a request holds: without doubles, the handler of a server answers or throws an exception, in every reachable state. -/
theorem requests_orderly_partial (stack : Nat) (acts : List TraceState.Act) (s : State) (hs : TraceState.run {} acts = .ok s) (request : Bytes) (v : Val) (hv : decode stack request = .ok v) (h : Whole v) :
    Orderly (configHandle stack s request) := by
  obtain ⟨⟨ts0, hts0⟩, hruns⟩ := C63.handler_runs acts s hs
  have hm : TraceState.step s .getMap = .ok { s with snaps := s.snaps ++ [s.map] } := rfl
  unfold configHandle
  simp only [(read_iff stack request v).2 hv, Res.bind_ok, hm]
  refine (get_whole h _).1.bind fun _ _ => (orderly_asStr _).bind fun c _ => ?_
  split
  · refine (get_whole h _).1.bind fun t ht => (orderly_fromVal t ((get_whole h _).2 t ht)).bind fun cf _ => ?_
    obtain ⟨s', ts, hs', hts⟩ := hruns cf
    simp only [hs', hts, Res.bind_ok]
    exact (orderly_encode _).bind fun _ _ => orderly_ok _
  · simp only [hts0, Res.bind_ok]
    exact (orderly_encode _).bind fun _ _ => orderly_ok _

/-- A message without doubles. -/
example : Whole (setMessage true false [(.int (-5), true), (.str [53], false), (.null, true)]) := by
  refine .obj _ fun p hp => ?_
  simp only [List.mem_cons, List.not_mem_nil, or_false] at hp
  rcases hp with rfl | rfl
  · exact .str _
  · refine .obj _ fun p hp => ?_
    simp only [List.mem_cons, List.not_mem_nil, or_false] at hp
    rcases hp with rfl | rfl | rfl
    · exact .bool _
    · exact .bool _
    · refine .arr _ fun v hv => ?_
      simp only [List.map_cons, List.map_nil, List.mem_cons, List.not_mem_nil, or_false] at hv
      rcases hv with rfl | rfl | rfl <;> refine .arr _ fun v hv => ?_ <;> simp only [List.mem_cons, List.not_mem_nil, or_false] at hv <;> rcases hv with rfl | rfl
      · exact .int _
      · exact .bool _
      · exact .str _
      · exact .bool _
      · exact .null
      · exact .bool _

/-! ## What a client makes of any answer -/

theorem int32_iff (v : Val) (t : Int) : asInt32 v = .ok t ↔ Process v t := by
  unfold Process
  cases v with
  | int n =>
    simp only [asInt32, Res.ok.injEq]
    constructor
    · intro h
      refine ⟨by omega, by omega, .inl ⟨n, (n + 2 ^ 31) / 2 ^ 32, rfl, ?_⟩⟩
      have := Int.emod_add_mul_ediv (n + 2 ^ 31) (2 ^ 32)
      omega
    · rintro ⟨h1, h2, ⟨n', q, e, h⟩ | ⟨d, e, _⟩ | ⟨b, e, _⟩⟩
      · injection e with e
        subst e
        omega
      · cases e
      · cases e
  | dbl d =>
    simp only [asInt32, cast_ok_iff]
    constructor
    · rintro ⟨hb, h1, h2⟩
      exact ⟨h1, h2, .inr (.inl ⟨d, rfl, hb⟩)⟩
    · rintro ⟨h1, h2, ⟨n', q, e, h⟩ | ⟨d, e, hb⟩ | ⟨b, e, _⟩⟩
      · cases e
      · injection e with e
        subst e
        exact ⟨hb, h1, h2⟩
      · cases e
  | bool b =>
    simp only [asInt32, Res.ok.injEq]
    constructor
    · intro h
      refine ⟨?_, ?_, .inr (.inr ⟨b, rfl, h.symm⟩)⟩ <;> (rw [← h]; split <;> omega)
    · rintro ⟨h1, h2, ⟨n', q, e, h⟩ | ⟨d, e, hb⟩ | ⟨b, e, h⟩⟩
      · cases e
      · cases e
      · injection e with e
        subst e
        exact h.symm
  | null => simp [asInt32]
  | str s => simp [asInt32]
  | arr l => simp [asInt32]
  | obj l => simp [asInt32]

theorem uint32_iff (v : Val) (k : Nat) : asUInt32 v = .ok k ↔ Tracepoint v k := by
  unfold Tracepoint
  cases v with
  | int n =>
    simp only [asUInt32, Res.ok.injEq]
    constructor
    · intro h
      refine ⟨by omega, .inl ⟨n, n / 2 ^ 32, rfl, ?_⟩⟩
      have := Int.emod_add_mul_ediv n (2 ^ 32)
      omega
    · rintro ⟨hk, ⟨n', q, e, h⟩ | ⟨d, e, _⟩ | ⟨b, e, _⟩⟩
      · injection e with e
        subst e
        omega
      · cases e
      · cases e
  | dbl d =>
    simp only [asUInt32, bind_ok_iff', cast_ok_iff, Res.ok.injEq]
    constructor
    · rintro ⟨t, ⟨hb, h1, h2⟩, rfl⟩
      refine ⟨by omega, .inr (.inl ⟨d, rfl, ?_⟩)⟩
      rw [Int.toNat_of_nonneg h1]
      exact hb
    · rintro ⟨hk, ⟨n', q, e, h⟩ | ⟨d, e, hb⟩ | ⟨b, e, _⟩⟩
      · cases e
      · injection e with e
        subst e
        exact ⟨k, ⟨hb, by omega, by omega⟩, by simp⟩
      · cases e
  | bool b =>
    simp only [asUInt32, Res.ok.injEq]
    constructor
    · intro h
      refine ⟨?_, .inr (.inr ⟨b, rfl, h.symm⟩)⟩
      rw [← h]; split <;> omega
    · rintro ⟨h1, ⟨n', q, e, h⟩ | ⟨d, e, hb⟩ | ⟨b, e, h⟩⟩
      · cases e
      · cases e
      · injection e with e
        subst e
        exact h.symm
  | null => simp [asUInt32]
  | str s => simp [asUInt32]
  | arr l => simp [asUInt32]
  | obj l => simp [asUInt32]

theorem emplace_lookup {κ ν : Type} [BEq κ] [LawfulBEq κ] (m : List (κ × ν)) (k k' : κ) (w : ν) :
    (Json.emplace m k w).lookup k' = (m.lookup k').or (if k' == k then some w else none) := by
  unfold Json.emplace
  cases h : m.lookup k with
  | some x =>
    simp only
    by_cases e : k' = k
    · subst e
      simp [h]
    · simp [e]
  | none =>
    simp only [List.lookup_append, List.lookup_cons, List.lookup_nil]
    cases k' == k <;> rfl

theorem foldl_lookup {κ ν : Type} [BEq κ] [LawfulBEq κ] (ps m : List (κ × ν)) (k : κ) :
    (ps.foldl (fun m p => Json.emplace m p.1 p.2) m).lookup k = (m.lookup k).or (ps.lookup k) := by
  induction ps generalizing m with
  | nil => simp
  | cons p ps ih =>
    rw [List.foldl_cons, ih, emplace_lookup, List.lookup_cons]
    cases m.lookup k <;> cases k == p.1 <;> simp

theorem foldl_nodup {κ ν : Type} [BEq κ] [LawfulBEq κ] (ps m : List (κ × ν)) (h : (m.map Prod.fst).Nodup) : ((ps.foldl (fun m p => Json.emplace m p.1 p.2) m).map Prod.fst).Nodup := by
  induction ps generalizing m with
  | nil => exact h
  | cons p ps ih =>
    refine ih _ ?_
    change ((Json.emplace m p.1 p.2).map Prod.fst).Nodup
    unfold Json.emplace
    cases hl : m.lookup p.1 with
    | some x => exact h
    | none =>
      simp only
      rw [List.map_append, List.nodup_append]
      refine ⟨h, by simp, fun a ha b hb e => ?_⟩
      simp only [List.map_cons, List.map_nil, List.mem_singleton] at hb
      subst hb e
      obtain ⟨q, hq, e⟩ := List.mem_map.1 ha
      rw [List.lookup_eq_none_iff] at hl
      have := hl q hq
      simp [e] at this

theorem toPair_iff {κ ν : Type} (fk : Val → Res κ) (fv : Val → Res ν) (v : Val) (k : κ) (w : ν) :
    toPair fk fv v = .ok (k, w) ↔ ∃ a b rest, v = .arr (a :: b :: rest) ∧ fk a = .ok k ∧ fv b = .ok w := by
  unfold toPair
  constructor
  · intro hy
    obtain ⟨l, hl, hy⟩ := (bind_ok_iff' _ _ _).1 hy
    cases v with
    | arr l' =>
      simp only [asArr, Res.ok.injEq] at hl
      subst hl
      match l', hy with
      | a :: b :: rest, hy =>
        obtain ⟨k', hk, hy⟩ := (bind_ok_iff' _ _ _).1 hy
        obtain ⟨x, hx, e⟩ := (bind_ok_iff' _ _ _).1 hy
        cases e
        exact ⟨a, b, rest, rfl, hk, hx⟩
    | null => cases hl
    | int n => cases hl
    | dbl d => cases hl
    | str s => cases hl
    | bool l => cases hl
    | obj l => cases hl
  · rintro ⟨a, b, rest, rfl, hk, hw⟩
    simp [asArr, Res.bind, hk, hw]

theorem pairs_lookup {κ ν : Type} [BEq κ] [LawfulBEq κ] (fk : Val → Res κ) (fv : Val → Res ν) (ts : List Val) (ps : List (κ × ν)) (h : Res.mapM (toPair fk fv) ts = .ok ps) (k : κ) (w : ν) :
    ps.lookup k = some w ↔ ∃ before a b rest after, ts = before ++ .arr (a :: b :: rest) :: after ∧ fk a = .ok k ∧ fv b = .ok w ∧ ∀ x ∈ before, ∀ a' r, x = .arr (a' :: r) → ¬ fk a' = .ok k := by
  induction ts generalizing ps with
  | nil =>
    simp only [Res.mapM, Res.ok.injEq] at h
    subst h
    simp
  | cons x ts ih =>
    simp only [Res.mapM, bind_ok_iff'] at h
    obtain ⟨⟨k', w'⟩, hx, qs, hqs, e⟩ := h
    cases e
    obtain ⟨a, b, rest, rfl, hk, hw⟩ := (toPair_iff _ _ _ _ _).1 hx
    rw [List.lookup_cons]
    by_cases e : k = k'
    · subst e
      simp only [BEq.rfl, Option.some.injEq]
      constructor
      · rintro rfl
        exact ⟨[], a, b, rest, ts, rfl, hk, hw, by simp⟩
      · rintro ⟨before, a', b', rest', after, e, h1, h2, h3⟩
        match before, e with
        | [], e =>
          simp only [List.nil_append, List.cons.injEq, Val.arr.injEq] at e
          obtain ⟨⟨rfl, rfl, rfl⟩, rfl⟩ := e
          rw [hw] at h2
          exact Res.ok.inj h2
        | y :: before, e =>
          simp only [List.cons_append, List.cons.injEq] at e
          exact absurd hk (h3 y (by simp) a (b :: rest) e.1.symm)
    · have hb : (k == k') = false := by simpa using e
      simp only [hb]
      rw [ih qs hqs]
      constructor
      · rintro ⟨before, a', b', rest', after, rfl, h1, h2, h3⟩
        refine ⟨.arr (a :: b :: rest) :: before, a', b', rest', after, rfl, h1, h2, fun y hy c r hr => ?_⟩
        rcases List.mem_cons.1 hy with rfl | hy
        · injection hr with hr
          injection hr with hr _
          subst hr
          rw [hk]
          intro e'
          exact e (Res.ok.inj e').symm
        · exact h3 y hy c r hr
      · rintro ⟨before, a', b', rest', after, e', h1, h2, h3⟩
        match before, e' with
        | [], e' =>
          simp only [List.nil_append, List.cons.injEq, Val.arr.injEq] at e'
          obtain ⟨⟨rfl, rfl, rfl⟩, rfl⟩ := e'
          rw [hk] at h1
          exact absurd (Res.ok.inj h1).symm e
        | y :: before, e' =>
          simp only [List.cons_append, List.cons.injEq] at e'
          exact ⟨before, a', b', rest', after, e'.2, h1, h2, fun z hz => h3 z (by simp [hz])⟩

/-- What is read as a table is what it says. -/
theorem table_says {κ ν : Type} [BEq κ] [LawfulBEq κ] (fk : Val → Res κ) (fv : Val → Res ν) (key : Val → κ → Prop) (value : Val → ν → Prop)
    (hk : ∀ v k, fk v = .ok k ↔ key v k) (hv : ∀ v w, fv v = .ok w ↔ value v w) (v : Val) :
    (∀ m, toMap fk fv v = .ok m → Says key value v m) ∧ ((∃ m, Says key value v m) → ∃ m, toMap fk fv v = .ok m) := by
  constructor
  · intro m hm
    unfold toMap at hm
    simp only [bind_ok_iff'] at hm
    obtain ⟨ts, hts, ps, hps, hm⟩ := hm
    cases v with
    | arr l =>
      simp only [asArr, Res.ok.injEq] at hts
      subst hts
      cases hm
      refine ⟨l, rfl, fun x hx => ?_, foldl_nodup ps [] (by simp), fun k w => ?_⟩
      · obtain ⟨⟨k, w⟩, hy⟩ := (mapM_ok_iff _ _).1 ⟨ps, hps⟩ x hx
        obtain ⟨a, b, rest, rfl, h1, h2⟩ := (toPair_iff _ _ _ _ _).1 hy
        exact ⟨a, b, rest, k, w, rfl, (hk _ _).1 h1, (hv _ _).1 h2⟩
      · rw [foldl_lookup]
        simp only [List.lookup_nil, Option.none_or]
        rw [pairs_lookup fk fv l ps hps k w]
        simp only [hk, hv]
    | null => cases hts
    | int n => cases hts
    | dbl d => cases hts
    | str s => cases hts
    | bool l => cases hts
    | obj l => cases hts
  · rintro ⟨m, ts, rfl, h, _⟩
    obtain ⟨r, hr⟩ := (mapM_ok_iff (toPair fk fv) ts).2 fun x hx => by
      obtain ⟨a, b, rest, k, w, rfl, h1, h2⟩ := h x hx
      exact ⟨(k, w), (toPair_iff _ _ _ _ _).2 ⟨a, b, rest, rfl, (hk _ _).2 h1, (hv _ _).2 h2⟩⟩
    exact ⟨_, by simp [toMap, asArr, Res.bind, hr]; rfl⟩

theorem index_iff (v w : Val) (k : Bytes) (h : w ≠ .null) : index v k = .ok w ↔ ∃ l, v = .obj l ∧ l.lookup k = some w := by
  cases v with
  | obj l =>
    simp only [index, Res.ok.injEq]
    cases hl : l.lookup k with
    | some x => simp [hl]
    | none => simp [hl, h.symm]
  | null => simp [index, h.symm]
  | int n => simp [index]
  | dbl d => simp [index]
  | str s => simp [index]
  | bool l => simp [index]
  | arr l => simp [index]

theorem process_not_null {t : Int} : ¬ Process .null t := by rintro ⟨_, _, ⟨_, _, e, _⟩ | ⟨_, e, _⟩ | ⟨_, e, _⟩⟩ <;> cases e

/-- What a client takes from an answer to a query for process information, whatever its bytes are: what it says, and there is a result exactly if it says all of it. -/
theorem info_says (stack : Nat) (answer : Bytes) :
    (∀ r, infoResult stack answer = .ok r → ∃ l p ts, decode stack answer = .ok (.obj l) ∧ l.lookup (text "name") = some (.str r.name) ∧
      l.lookup (text "threads") = some ts ∧ Says Names Text ts r.threads ∧ l.lookup (text "pid") = some p ∧ Process p r.pid) ∧
    ((∃ l n p ts m pid, decode stack answer = .ok (.obj l) ∧ l.lookup (text "name") = some (.str n) ∧ l.lookup (text "threads") = some ts ∧ Says Names Text ts m ∧
      l.lookup (text "pid") = some p ∧ Process p pid) → ∃ r, infoResult stack answer = .ok r) := by
  have ht := fun ts => table_says asULong asStr Names Text ulong_iff (fun v w => asStr_iff v w) ts
  unfold infoResult
  simp only [bind_ok_iff, read_iff, text_name, text_threads, text_pid]
  constructor
  · rintro r ⟨v, hv, n, hn, s, hs, ts, hts, m, hm, p, hp, t, hpt, e⟩
    have hn' := (asStr_iff _ _).1 hs
    subst hn'
    obtain ⟨l, rfl, hl⟩ := (index_iff _ _ _ (by simp)).1 hn
    have h1 := (ht ts).1 m hm
    have h2 := (int32_iff p t).1 hpt
    have h3 : ts ≠ .null := by
      rintro rfl
      obtain ⟨_, e, _⟩ := h1
      cases e
    have h4 : p ≠ .null := by
      rintro rfl
      exact process_not_null h2
    obtain ⟨_, e1, h5⟩ := (index_iff _ _ _ h3).1 hts
    cases e1
    obtain ⟨_, e1, h6⟩ := (index_iff _ _ _ h4).1 hp
    cases e1
    cases e
    exact ⟨l, p, ts, hv, hl, h5, h1, h6, h2⟩
  · rintro ⟨l, n, p, ts, m, pid, hv, hn, hts, hm, hp, hpid⟩
    obtain ⟨m', hm'⟩ := (ht ts).2 ⟨m, hm⟩
    have h3 : ts ≠ .null := by
      rintro rfl
      obtain ⟨_, e, _⟩ := hm
      cases e
    have h4 : p ≠ .null := by
      rintro rfl
      exact process_not_null hpid
    exact ⟨_, _, hv, _, (index_iff _ _ _ (by simp)).2 ⟨l, rfl, hn⟩, n, rfl, ts, (index_iff _ _ _ h3).2 ⟨l, rfl, hts⟩, m', hm', p, (index_iff _ _ _ h4).2 ⟨l, rfl, hp⟩, pid, (int32_iff _ _).2 hpid, rfl⟩

theorem text_mapping : text "mapping" = mappingKey := by decide

/-- What a client takes from an answer to a query for the names of tracepoints, whatever its bytes are: for each process that it names the table that it says first, and there is a result exactly if all of it says something. -/
theorem mapping_says (stack : Nat) (answer : Bytes) :
    (∀ r, mappingResult stack answer = .ok r → ∃ l ts, decode stack answer = .ok (.obj l) ∧ l.lookup (text "mapping") = some (.arr ts) ∧ (r.map Prod.fst).Nodup ∧
      (∀ x ∈ ts, ∃ a b rest pid, x = .arr (a :: b :: rest) ∧ Process a pid ∧ (r.lookup pid).isSome) ∧
      ∀ pid m, r.lookup pid = some m → ∃ before a b rest after, ts = before ++ .arr (a :: b :: rest) :: after ∧ Process a pid ∧ Says Tracepoint Text b m ∧
        ∀ x ∈ before, ∀ a' q, x = .arr (a' :: q) → ¬ Process a' pid) ∧
    ((∃ l ts, decode stack answer = .ok (.obj l) ∧ l.lookup (text "mapping") = some (.arr ts) ∧ ∀ x ∈ ts, ∃ a b rest pid m, x = .arr (a :: b :: rest) ∧ Process a pid ∧ Says Tracepoint Text b m) →
      ∃ r, mappingResult stack answer = .ok r) := by
  have ht := fun ts => table_says asUInt32 asStr Tracepoint Text uint32_iff (fun v w => asStr_iff v w) ts
  have ho := fun ts => table_says asInt32 (toMap asUInt32 asStr) Process (fun v m => toMap asUInt32 asStr v = .ok m) int32_iff (fun _ _ => Iff.rfl) ts
  unfold mappingResult
  simp only [bind_ok_iff, read_iff, text_mapping]
  constructor
  · rintro r ⟨v, hv, ts, hts, hr⟩
    have hs := (ho ts).1 r hr
    obtain ⟨ts, rfl, h1, h2, h3⟩ := hs
    obtain ⟨l, rfl, hl⟩ := (index_iff _ _ _ (by simp)).1 hts
    refine ⟨l, ts, hv, hl, h2, fun x hx => ?_, fun pid m hm => ?_⟩
    · obtain ⟨a, b, rest, pid, m, rfl, ha, hb⟩ := h1 x hx
      refine ⟨a, b, rest, pid, rfl, ha, ?_⟩
      -- the first entry that names the process
      have : ∀ ts : List Val, (∀ x ∈ ts, ∃ a b rest k w, x = .arr (a :: b :: rest) ∧ Process a k ∧ toMap asUInt32 asStr b = .ok w) → .arr (a :: b :: rest) ∈ ts →
          ∃ w before a b rest after, ts = before ++ .arr (a :: b :: rest) :: after ∧ Process a pid ∧ toMap asUInt32 asStr b = .ok w ∧
            ∀ x ∈ before, ∀ a' r, x = .arr (a' :: r) → ¬ Process a' pid := by
        intro ts
        induction ts with
        | nil => intro _ h; cases h
        | cons y ts ih =>
          intro hall hmem
          obtain ⟨a1, b1, rest1, k1, w1, rfl, hk1, hw1⟩ := hall y (by simp)
          by_cases hp : Process a1 pid
          · exact ⟨w1, [], a1, b1, rest1, ts, rfl, hp, hw1, by simp⟩
          · have hmem' : Val.arr (a :: b :: rest) ∈ ts := by
              rcases List.mem_cons.1 hmem with e | h
              · injection e with e
                injection e with e _
                subst e
                exact absurd ha hp
              · exact h
            obtain ⟨w, before, a2, b2, rest2, after, rfl, g1, g2, g3⟩ := ih (fun x hx => hall x (by simp [hx])) hmem'
            refine ⟨w, .arr (a1 :: b1 :: rest1) :: before, a2, b2, rest2, after, rfl, g1, g2, fun x hx a' q e => ?_⟩
            rcases List.mem_cons.1 hx with rfl | hx
            · injection e with e
              injection e with e _
              subst e
              exact hp
            · exact g3 x hx a' q e
      obtain ⟨w, hw⟩ := this ts h1 hx
      rw [(h3 pid w).2 hw]
      rfl
    · obtain ⟨before, a, b, rest, after, e, ha, hb, hbef⟩ := (h3 pid m).1 hm
      exact ⟨before, a, b, rest, after, e, ha, (ht b).1 m hb, hbef⟩
  · rintro ⟨l, ts, hv, hl, h⟩
    obtain ⟨r, hr⟩ := (mapM_ok_iff (toPair asInt32 (toMap asUInt32 asStr)) ts).2 fun x hx => by
      obtain ⟨a, b, rest, pid, m, rfl, h1, h2⟩ := h x hx
      obtain ⟨m', hm'⟩ := (ht b).2 ⟨m, h2⟩
      exact ⟨(pid, m'), (toPair_iff _ _ _ _ _).2 ⟨a, b, rest, rfl, (int32_iff _ _).2 h1, hm'⟩⟩
    exact ⟨_, _, hv, _, (index_iff _ _ _ (by simp)).2 ⟨l, rfl, hl⟩, by simp [toMap, asArr, Res.bind, hr]; rfl⟩

/-- What a client takes from an answer about the switches, whatever its bytes are: what it says, and there is a result exactly if it says all of it. -/
theorem switches_say (stack : Nat) (answer : Bytes) :
    (∀ r, configResult stack answer = .ok r → r.success = true ∧ ∃ l st t, decode stack answer = .ok (.obj l) ∧ l.lookup (text "state") = some (.obj st) ∧
      st.lookup (text "p") = some (.bool r.process) ∧ st.lookup (text "sp") = some (.bool r.setProcess) ∧ st.lookup (text "t") = some t ∧ Says Names Switch t r.threads) ∧
    ((∃ l st, decode stack answer = .ok (.obj l) ∧ l.lookup (text "state") = some st ∧ Switching st) → ∃ r, configResult stack answer = .ok r) := by
  have ht := fun ts => table_says asULong asBool Names Switch ulong_iff (fun v w => asBool_iff v w) ts
  unfold configResult
  constructor
  · intro r hr
    simp only [bind_ok_iff, read_iff, fromVal, get_iff, asBool_iff] at hr
    obtain ⟨v, hv, st, ⟨l, rfl, hst⟩, c, ⟨_, ⟨l1, rfl, h1⟩, p, rfl, _, ⟨l2, e2, h2⟩, sp, rfl, t, ⟨l3, e3, h3⟩, m, hm, ec⟩, er⟩ := hr
    cases e2; cases e3; cases ec; cases er
    simp only [text_state, text_p, text_sp, text_t]
    exact ⟨trivial, l, l1, t, hv, hst, h1, h2, h3, (ht t).1 m hm⟩
  · rintro ⟨l, st, hv, hst, hs⟩
    obtain ⟨c, hc⟩ := (switching_iff st).2 hs
    simp only [bind_ok_iff, read_iff, get_iff]
    exact ⟨_, _, hv, st, ⟨l, rfl, by rw [← text_state]; exact hst⟩, c, hc, rfl⟩

/-- 5.5 and 5 name the same thread: the first entry counts. -/
example : Says Names Text (.arr [.arr [.dbl 0x4016000000000000, .str [97]], .arr [.int 5, .str [98], .null], .arr [.int (-1), .str []]]) [(5, [97]), (2 ^ 64 - 1, [])] :=
  (table_says asULong asStr Names Text ulong_iff (fun v w => asStr_iff v w) _).1 _ (by rfl)

end Scalopus.C159
