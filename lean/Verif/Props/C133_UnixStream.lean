import Verif.Model.UnixStream
import Verif.Proofs.Protocol

/-!
# C133: messages of many threads on one connection are received one by one
-/

namespace Scalopus.C133

open Protocol UnixStream Spec.Wire

/-! ## Specification -/

/-- Every message that is sent fits its wire representation, and no part of it is longer than what the system passes on at once. -/
def Modest (limit : Nat) (as : List Act) : Prop := 8 ≤ limit ∧ ∀ t m, Act.lock t m ∈ as → Fits m ∧ m.endpoint.length ≤ limit ∧ m.data.length ≤ limit

/-- What the threads do without anybody beginning a new message. -/
def Continues (as : List Act) : Prop := ∀ t m, Act.lock t m ∉ as

/-- Nobody can continue. -/
def Quiet (limit : Nat) (s : State) : Prop := step limit s .put = none ∧ step limit s .unlock = none ∧ step limit s .read = none

/-! ## The reader and the message that it reads -/

def fieldBytes (m : Msg) : Field → Bytes
  | .id => leBytes 8 m.requestId
  | .nameLength => leBytes 2 m.endpoint.length
  | .name => m.endpoint
  | .dataLength => leBytes 4 m.data.length
  | .data => m.data

def after (m : Msg) : Field → List Bytes
  | .id => [leBytes 2 m.endpoint.length, m.endpoint, leBytes 4 m.data.length, m.data]
  | .nameLength => [m.endpoint, leBytes 4 m.data.length, m.data]
  | .name => [leBytes 4 m.data.length, m.data]
  | .dataLength => [m.data]
  | .data => []

def soFar (m : Msg) : Field → Msg
  | .id => {}
  | .nameLength => { requestId := m.requestId }
  | .name => { requestId := m.requestId }
  | .dataLength => { requestId := m.requestId, endpoint := m.endpoint }
  | .data => { requestId := m.requestId, endpoint := m.endpoint }

structure Matches (m : Msg) (r : Reader) : Prop where
  need : r.need = (fieldBytes m r.field).length
  acc : ∃ x, fieldBytes m r.field = r.acc ++ x
  msg : r.msg = soFar m r.field

def expected (m : Msg) (r : Reader) : List Bytes := (fieldBytes m r.field).drop r.acc.length :: after m r.field

def index : Field → Nat
  | .id => 0
  | .nameLength => 1
  | .name => 2
  | .dataLength => 3
  | .data => 4

theorem fresh_matches (m : Msg) : Matches m {} := ⟨by simp [fieldBytes], ⟨leBytes 8 m.requestId, rfl⟩, rfl⟩

theorem fresh_expected {m : Msg} (h : Fits m) : expected m {} = sendParts m := by
  simp [expected, fieldBytes, after, sendParts, Nat.mod_eq_of_lt h.2.1]

/-- A field that was read as it was sent leads to the next field or to the message. -/
theorem next_whole {m : Msg} {r : Reader} (hf : Fits m) (h : Matches m r) (hw : r.acc = fieldBytes m r.field) :
    (∃ r', next r = .more r' ∧ Matches m r' ∧ expected m r' = after m r.field ∧ index r'.field = index r.field + 1) ∨ (next r = .got m ∧ r.field = .data) := by
  obtain ⟨h1, h2, h3⟩ := hf
  obtain ⟨f, need, acc, msg⟩ := r
  obtain ⟨g1, g2, g3⟩ := h
  simp only at g1 g2 g3 hw
  subst hw g3
  cases f with
  | id =>
    refine .inl ⟨_, by simp [next, fieldBytes]; rfl, ⟨by simp [fieldBytes], ⟨_, rfl⟩, ?_⟩, by simp [expected, fieldBytes, after], rfl⟩
    simp [soFar, fieldBytes, leVal_leBytes, Nat.mod_eq_of_lt h1]
  | nameLength =>
    refine .inl ⟨_, by simp [next, fieldBytes]; rfl, ⟨?_, ⟨_, rfl⟩, ?_⟩, by simp [expected, fieldBytes, after], rfl⟩
    · simp only [fieldBytes, leVal_leBytes]
      exact Nat.mod_eq_of_lt h2
    · simp [soFar]
  | name =>
    refine .inl ⟨_, by simp [next, fieldBytes, g1]; rfl, ⟨by simp [fieldBytes], ⟨_, rfl⟩, ?_⟩, by simp [expected, fieldBytes, after], rfl⟩
    simp [soFar]
  | dataLength =>
    refine .inl ⟨_, by simp [next, fieldBytes]; rfl, ⟨?_, ⟨_, rfl⟩, ?_⟩, by simp [expected, fieldBytes, after], rfl⟩
    · simp only [fieldBytes, leVal_leBytes]
      exact Nat.mod_eq_of_lt h3
    · simp [soFar]
  | data => exact .inr ⟨by simp [next, fieldBytes, soFar], rfl⟩

/-! ## What is on the way -/

def pend (s : State) : List Bytes := (s.lock.map (·.2)).getD []

def ne (l : List Bytes) : List Bytes := l.filter (· ≠ [])

def expectedAll (r : Reader) : List Msg → List Bytes
  | [] => []
  | m :: ms => expected m r ++ ms.flatMap sendParts

def Waits (r : Reader) : List Msg → Prop
  | [] => r = {}
  | m :: _ => Matches m r

structure Inv (s : State) : Prop where
  ok : s.ub = false
  rest : ∃ rest, s.log = s.got ++ rest ∧ (∀ m ∈ rest, Fits m) ∧ Waits s.reader rest ∧
    ∃ arr, s.stream = arr.flatten ∧ (∀ a ∈ arr, a ≠ []) ∧ arr ++ ne (pend s) = ne (expectedAll s.reader rest)

theorem inv_init : Inv {} := ⟨rfl, [], rfl, by simp, rfl, [], rfl, by simp, rfl⟩

theorem ne_append (a b : List Bytes) : ne (a ++ b) = ne a ++ ne b := by simp [ne]

theorem split_small {limit : Nat} {p : Bytes} (h : p.length ≤ limit) : split limit p = [p] := by
  rw [split, dif_pos (by omega)]

theorem parts_small {limit : Nat} {m : Msg} (h8 : 8 ≤ limit) (hn : m.endpoint.length ≤ limit) (hd : m.data.length ≤ limit) :
    (sendParts m).flatMap (split limit) = sendParts m := by
  have h1 : (m.endpoint.take (m.endpoint.length % 2 ^ 16)).length ≤ limit := by simp; omega
  have a1 : split limit (leBytes 8 m.requestId) = [leBytes 8 m.requestId] := split_small (by simp; omega)
  have a2 : split limit (leBytes 2 m.endpoint.length) = [leBytes 2 m.endpoint.length] := split_small (by simp; omega)
  have a3 : split limit (leBytes 4 m.data.length) = [leBytes 4 m.data.length] := split_small (by simp; omega)
  simp only [sendParts, List.flatMap_cons, List.flatMap_nil, a1, a2, a3, split_small h1, split_small hd, List.append_nil, List.singleton_append]

theorem flatten_ne {arr : List Bytes} (h : arr.flatten ≠ []) : arr ≠ [] := by
  rintro rfl; exact h rfl

/-- What a call of `::read` of the worker does in a state with the invariant. -/
theorem read_cases {s : State} (h : Inv s) {limit : Nat} {s' : State} (e : step limit s .read = some s') :
    ∃ m ms, s.log = s.got ++ m :: ms ∧
      ((s'.reader.field = s.reader.field ∧ s'.got = s.got ∧ s'.stream.length < s.stream.length) ∨
       (s'.got = s.got ∧ index s'.reader.field = index s.reader.field + 1 ∧ s'.stream.length ≤ s.stream.length) ∨
       (s'.got = s.got ++ [m] ∧ s.reader.field = .data ∧ s'.reader = {} ∧ s'.stream.length ≤ s.stream.length)) ∧
      s'.lock = s.lock ∧ s'.log = s.log ∧ Inv s' := by
  obtain ⟨hok, rest, hl, hf, hw, arr, hs, hne, ha⟩ := h
  simp only [step, hok, Bool.false_eq_true, if_false] at e
  generalize hwant : min (s.reader.need - s.reader.acc.length) chunkSize = want at e
  split at e
  · cases e
  · rename_i hgo
    simp only [Option.some.injEq] at e
    cases rest with
    | nil =>
      exfalso
      have hr : s.reader = {} := hw
      have : want = 8 := by rw [← hwant, hr]; rfl
      simp only [expectedAll, ne, List.filter_nil, List.append_eq_nil_iff] at ha
      rw [ha.1] at hs
      exact hgo ⟨by omega, hs⟩
    | cons m ms =>
      refine ⟨m, ms, hl, ?_⟩
      have hm : Matches m s.reader := hw
      have hfm : Fits m := hf m (List.mem_cons_self ..)
      obtain ⟨x, hx⟩ := hm.acc
      have hxl : s.reader.need - s.reader.acc.length = x.length := by rw [hm.need, hx]; simp
      rw [hxl] at hwant
      have hdrop : (fieldBytes m s.reader.field).drop s.reader.acc.length = x := by rw [hx]; simp
      /- the part that is being read has arrived as a whole -/
      obtain ⟨arr', htake, hdropw, hneq', ha'⟩ : ∃ arr' : List Bytes, s.stream.take want = x.take want ∧ s.stream.drop want = x.drop want ++ arr'.flatten ∧
          (∀ a ∈ arr', a ≠ []) ∧ arr' ++ ne (pend s) = ne (after m s.reader.field ++ ms.flatMap sendParts) := by
        have hexp : ne (expectedAll s.reader (m :: ms)) = ne [x] ++ ne (after m s.reader.field ++ ms.flatMap sendParts) := by
          simp only [expectedAll, expected, hdrop, List.cons_append]
          rw [← ne_append]; rfl
        rw [hexp] at ha
        by_cases hx0 : x = []
        · subst hx0
          have : want = 0 := by simpa using hwant.symm
          subst this
          exact ⟨arr, by simp, by simp [hs], hne, by simpa [ne] using ha⟩
        · have hx1 : ne [x] = [x] := by simp [ne, hx0]
          rw [hx1] at ha
          have hpos : want ≠ 0 := by
            have : x.length ≠ 0 := by simpa using hx0
            unfold chunkSize at hwant; omega
          have hst : s.stream ≠ [] := fun h => hgo ⟨hpos, h⟩
          cases arr with
          | nil => exact absurd hs hst
          | cons a arr =>
            simp only [List.cons_append, List.nil_append, List.cons.injEq] at ha
            obtain ⟨rfl, ha⟩ := ha
            have hle : want ≤ a.length := by omega
            refine ⟨arr, ?_, ?_, fun y hy => hne y (List.mem_cons_of_mem _ hy), ha⟩
            · rw [hs, List.flatten_cons, List.take_append_of_le_length hle]
            · rw [hs, List.flatten_cons, List.drop_append_of_le_length hle]
      have hlen : (x.take want).length = want := by simp; omega
      have hslen : s'.stream = x.drop want ++ arr'.flatten := by
        rw [← e]
        unfold gotChunk
        simp only
        split
        · exact hdropw
        · unfold finish; split <;> exact hdropw
      have hslen2 : s'.stream.length + want = s.stream.length := by
        have h1 : (s.stream.take want).length + (s.stream.drop want).length = s.stream.length := by rw [← List.length_append, List.take_append_drop]
        rw [hslen, ← hdropw]
        rw [htake, hlen] at h1
        omega
      unfold gotChunk at e
      simp only [htake, hdropw, hlen] at e
      by_cases hfull : want = x.length
      · /- the field is complete -/
        have hacc : s.reader.acc ++ x.take want = fieldBytes m s.reader.field := by
          rw [hfull, List.take_length, hx]
        have hxd : x.drop want = [] := by rw [hfull]; simp
        have hnd : (fieldBytes m s.reader.field).length = s.reader.need := hm.need.symm
        rw [if_neg (by rw [hacc]; intro h; exact h.1 hnd)] at e
        have hm' : Matches m { s.reader with acc := s.reader.acc ++ x.take want } := ⟨hm.need, ⟨[], by simp [hacc]⟩, hm.msg⟩
        unfold finish at e
        rcases next_whole hfm hm' hacc with ⟨r', hn, hmr, her, hi⟩ | ⟨hn, hdata⟩
        · rw [hn] at e
          simp only at e
          subst e
          refine ⟨.inr (.inl ⟨rfl, hi, by omega⟩), rfl, rfl, rfl, m :: ms, hl, hf, hmr, arr', ?_, hneq', ?_⟩
          · simp [hxd]
          · simp only [expectedAll, her]; exact ha'
        · rw [hn] at e
          simp only at e
          subst e
          have hdata' : s.reader.field = .data := hdata
          refine ⟨.inr (.inr ⟨rfl, hdata, rfl, by omega⟩), rfl, rfl, rfl, ms, ?_, fun y hy => hf y (List.mem_cons_of_mem _ hy), ?_, arr', ?_, hneq', ?_⟩
          · simp only [hl]; simp
          · cases ms with
            | nil => rfl
            | cons m' ms => exact fresh_matches m'
          · simp [hxd]
          · rw [hdata'] at ha'
            simp only [after, List.nil_append] at ha'
            refine Eq.trans (b := ne (ms.flatMap sendParts)) ha' ?_
            cases ms with
            | nil => rfl
            | cons m' ms =>
              simp only [expectedAll, List.flatMap_cons]
              rw [fresh_expected (hf m' (by simp))]
      · /- a block of the field -/
        have hchunk : want = chunkSize := by omega
        have hlt : want < x.length := by omega
        rw [if_pos] at e
        · subst e
          refine ⟨.inl ⟨rfl, rfl, ?_⟩, rfl, rfl, rfl, m :: ms, hl, hf, ⟨hm.need, ⟨x.drop want, ?_⟩, hm.msg⟩, x.drop want :: arr', ?_, ?_, ?_⟩
          · have : 0 < want := by rw [hchunk]; decide
            omega
          · simp only [List.append_assoc, List.take_append_drop]; exact hx
          · simp
          · intro a ha
            rcases List.mem_cons.1 ha with rfl | ha
            · intro h0
              have := congrArg List.length h0
              simp at this; omega
            · exact hneq' a ha
          · have hnd : (fieldBytes m s.reader.field).drop (s.reader.acc ++ x.take want).length = x.drop want := by
              rw [hx, List.length_append, hlen, List.drop_append, List.drop_eq_nil_of_le (by omega), List.nil_append]
              congr 1; omega
            have hd0 : x.drop want ≠ [] := by
              intro h0
              have := congrArg List.length h0
              simp at this; omega
            simp only [expectedAll, expected, hnd, List.cons_append]
            refine Eq.trans (b := x.drop want :: ne (after m s.reader.field ++ ms.flatMap sendParts)) (congrArg (x.drop want :: ·) ha') ?_
            simp [ne, hd0]
        · refine ⟨?_, hchunk⟩
          rw [List.length_append, hlen, hm.need, hx, List.length_append]
          omega

theorem inv_step {limit : Nat} {s s' : State} (h : Inv s) (a : Act) (hs : ∀ t m, a = .lock t m → 8 ≤ limit ∧ Fits m ∧ m.endpoint.length ≤ limit ∧ m.data.length ≤ limit)
    (e : step limit s a = some s') : Inv s' := by
  cases a with
  | lock t m =>
    obtain ⟨h8, hfm, h1, h2⟩ := hs t m rfl
    obtain ⟨hok, rest, hl, hf, hw, arr, hst, hne, ha⟩ := h
    simp only [step] at e
    split at e
    · cases e
    · rename_i hlock
      simp only [Option.some.injEq] at e
      subst e
      refine ⟨hok, rest ++ [m], by simp [hl], ?_, ?_, arr, hst, hne, ?_⟩
      · intro x hx
        rcases List.mem_append.1 hx with hx | hx
        · exact hf x hx
        · simp only [List.mem_cons, List.not_mem_nil, or_false] at hx
          rw [hx]; exact hfm
      · cases rest with
        | nil => have : s.reader = {} := hw; simp only [List.nil_append, this]; exact fresh_matches m
        | cons m' ms => exact hw
      · have hp : pend s = [] := by simp [pend, hlock]
        rw [hp] at ha
        simp only [pend, Option.map_some, Option.getD_some, parts_small h8 h1 h2]
        have : expectedAll s.reader (rest ++ [m]) = expectedAll s.reader rest ++ sendParts m := by
          cases rest with
          | nil =>
            have : s.reader = {} := hw
            simp [expectedAll, this, fresh_expected hfm]
          | cons m' ms => simp [expectedAll]
        rw [this, ne_append, ← ha]
        simp [ne]
  | put =>
    obtain ⟨hok, rest, hl, hf, hw, arr, hst, hne, ha⟩ := h
    simp only [step] at e
    split at e
    · rename_i t p ps hlock
      simp only [Option.some.injEq] at e
      subst e
      have hp : pend s = p :: ps := by simp [pend, hlock]
      rw [hp] at ha
      by_cases h0 : p = []
      · refine ⟨hok, rest, hl, hf, hw, arr, by simp [hst, h0], hne, ?_⟩
        rw [← ha]
        simp [pend, ne, h0]
      · refine ⟨hok, rest, hl, hf, hw, arr ++ [p], by simp [hst], ?_, ?_⟩
        · intro a ha
          rcases List.mem_append.1 ha with ha | ha
          · exact hne a ha
          · simp only [List.mem_cons, List.not_mem_nil, or_false] at ha
            rw [ha]; exact h0
        · rw [← ha]
          simp [pend, ne, h0]
    · cases e
  | unlock =>
    obtain ⟨hok, rest, hl, hf, hw, arr, hst, hne, ha⟩ := h
    simp only [step] at e
    split at e
    · rename_i t hlock
      simp only [Option.some.injEq] at e
      subst e
      have hp : pend s = [] := by simp [pend, hlock]
      rw [hp] at ha
      exact ⟨hok, rest, hl, hf, hw, arr, hst, hne, ha⟩
    · cases e
  | read =>
    obtain ⟨_, _, _, _, _, _, hi⟩ := read_cases h e
    exact hi

theorem inv_run {limit : Nat} (as : List Act) {s s' : State} (h : Inv s) (hm : Modest limit as) (e : run limit s as = some s') : Inv s' := by
  induction as generalizing s with
  | nil => simp only [run, Option.some.injEq] at e; subst e; exact h
  | cons a as ih =>
    simp only [run, Option.bind_eq_some_iff] at e
    obtain ⟨s1, e1, e2⟩ := e
    refine ih (inv_step h a ?_ e1) ⟨hm.1, fun t m hmem => hm.2 t m (List.mem_cons_of_mem _ hmem)⟩ e2
    rintro t m rfl
    exact ⟨hm.1, hm.2 t m (List.mem_cons_self ..)⟩

/-! ## Theorems -/

/-- Whatever threads send at the same time and whenever the worker reads: what it has received is the beginning of what was sent, message by message, in the order in which the sending of each began. -/
theorem received_in_order (limit : Nat) (as : List Act) (s : State) (hm : Modest limit as) (e : run limit {} as = some s) :
    s.ub = false ∧ ∃ rest, s.log = s.got ++ rest := by
  obtain ⟨h, rest, hl, _⟩ := inv_run as inv_init hm e
  exact ⟨h, rest, hl⟩

/-- The log is what was sent. -/
theorem log_eq (limit : Nat) (as : List Act) (s s' : State) (e : run limit s as = some s') :
    s'.log = s.log ++ as.filterMap fun a => match a with | .lock _ m => some m | _ => none := by
  induction as generalizing s with
  | nil => simp only [run, Option.some.injEq] at e; subst e; simp
  | cons a as ih =>
    simp only [run, Option.bind_eq_some_iff] at e
    obtain ⟨s1, e1, e2⟩ := e
    rw [ih s1 e2]
    cases a with
    | lock t m =>
      simp only [step] at e1
      split at e1
      · cases e1
      · simp only [Option.some.injEq] at e1; subst e1; simp
    | put =>
      simp only [step] at e1
      split at e1
      · simp only [Option.some.injEq] at e1; subst e1; simp
      · cases e1
    | unlock =>
      simp only [step] at e1
      split at e1
      · simp only [Option.some.injEq] at e1; subst e1; simp
      · cases e1
    | read =>
      simp only [step] at e1
      split at e1
      · cases e1
      · split at e1
        · cases e1
        · simp only [Option.some.injEq] at e1
          subst e1
          unfold gotChunk
          simp only [List.filterMap_cons]
          split
          · rfl
          · unfold finish; split <;> rfl

/-- When nobody can continue, everything that was sent has been received. -/
theorem all_received (limit : Nat) (as : List Act) (s : State) (hm : Modest limit as) (e : run limit {} as = some s) (hq : Quiet limit s) :
    s.got = s.log ∧ s.lock = none := by
  obtain ⟨hok, rest, hl, hf, hw, arr, hs, hne, ha⟩ := inv_run as inv_init hm e
  obtain ⟨q1, q2, q3⟩ := hq
  have hlock : s.lock = none := by
    simp only [step] at q1 q2
    match h : s.lock with
    | none => rfl
    | some (t, []) => simp [h] at q2
    | some (t, p :: ps) => simp [h] at q1
  refine ⟨?_, hlock⟩
  cases rest with
  | nil => simpa using hl.symm
  | cons m ms =>
    exfalso
    have hm' : Matches m s.reader := hw
    obtain ⟨x, hx⟩ := hm'.acc
    have hxl : s.reader.need - s.reader.acc.length = x.length := by rw [hm'.need, hx]; simp
    simp only [step, hok, Bool.false_eq_true, if_false, hxl] at q3
    split at q3
    · rename_i hc
      have hdrop : (fieldBytes m s.reader.field).drop s.reader.acc.length = x := by rw [hx]; simp
      have hx0 : x ≠ [] := by
        rintro rfl
        exact hc.1 (by simp)
      have hp : pend s = [] := by simp [pend, hlock]
      rw [hp] at ha
      simp only [expectedAll, expected, hdrop, List.cons_append] at ha
      rw [show ne [] = [] from rfl, List.append_nil] at ha
      rw [ha] at hs
      simp only [ne, List.filter_cons, hx0, ne_eq, not_false_eq_true, decide_true, if_true, List.flatten_cons] at hs
      rw [hs] at hc
      exact hx0 (List.append_eq_nil_iff.1 hc.2).1
    · cases q3

/-- What is left to do. -/
def work (s : State) : Nat :=
  (match s.lock with | none => 0 | some (_, ps) => 1 + ps.length + ps.flatten.length) + s.stream.length + (5 * (s.log.length - s.got.length) - index s.reader.field)

theorem work_step {limit : Nat} {s s' : State} (h : Inv s) (a : Act) (ha : ∀ t m, a ≠ .lock t m) (e : step limit s a = some s') : work s' < work s := by
  cases a with
  | lock t m => exact absurd rfl (ha t m)
  | put =>
    simp only [step] at e
    split at e
    · rename_i t p ps hlock
      simp only [Option.some.injEq] at e
      subst e
      simp only [work, hlock, List.length_append, List.length_cons, List.flatten_cons]
      omega
    · cases e
  | unlock =>
    simp only [step] at e
    split at e
    · rename_i t hlock
      simp only [Option.some.injEq] at e
      subst e
      simp only [work, hlock, List.length_nil, List.flatten_nil]
      omega
    · cases e
  | read =>
    obtain ⟨m, ms, hl, hc, h1, h2, _⟩ := read_cases h e
    have hlen : s.log.length = s.got.length + (ms.length + 1) := by rw [hl]; simp
    have hi : index s.reader.field ≤ 4 := by cases s.reader.field <;> decide
    simp only [work, h1, h2]
    rcases hc with ⟨c1, c2, c3⟩ | ⟨c1, c2, c3⟩ | ⟨c1, c2, c3, c4⟩
    · rw [c1, c2]; omega
    · have hi' : index s'.reader.field ≤ 4 := by cases s'.reader.field <;> decide
      rw [c1]; omega
    · rw [c1, c2, c3]
      simp only [List.length_append, List.length_cons, List.length_nil, index]
      omega

/-- That point is reached: what was begun is sent and received after a bounded number of steps, whatever their order. -/
theorem ends (limit : Nat) (as : List Act) (s : State) (hm : Modest limit as) (e : run limit {} as = some s) :
    ∃ n, ∀ bs s', Continues bs → run limit s bs = some s' → bs.length ≤ n := by
  refine ⟨work s, fun bs => ?_⟩
  have hi := inv_run as inv_init hm e
  clear e hm
  induction bs generalizing s with
  | nil => intros; exact Nat.zero_le _
  | cons b bs ih =>
    intro s' hc e2
    simp only [run, Option.bind_eq_some_iff] at e2
    obtain ⟨s1, e1, e2⟩ := e2
    have hb : ∀ t m, b ≠ .lock t m := fun t m h => hc t m (by rw [h]; exact List.mem_cons_self ..)
    have h1 := work_step hi b hb e1
    have h2 := ih s1 (inv_step hi b (fun t m h => absurd h (hb t m)) e1) s' (fun t m h => hc t m (List.mem_cons_of_mem _ h)) e2
    simp only [List.length_cons]
    omega

/-- Only one thread at a time sends over the connection. -/
theorem one_sender (limit : Nat) (s : State) (t : Nat) (m : Msg) : (step limit s (.lock t m)).isSome ↔ s.lock = none := by
  simp only [step]
  split <;> simp_all

/-! ## Longer parts -/

theorem finish_reader (s : State) (r r' : Reader) : finish { s with reader := r' } r = finish s r := by
  unfold finish
  split <;> rfl

theorem run_append (limit : Nat) (s : State) (as bs : List Act) : run limit s (as ++ bs) = (run limit s as).bind fun s => run limit s bs := by
  induction as generalizing s with
  | nil => rfl
  | cons a as ih =>
    simp only [List.cons_append, run]
    cases step limit s a with
    | none => rfl
    | some s => simpa using ih s

/-- Reading a field of which `x` is there: all that is left of it, or a number of bytes that is no multiple of the block size. -/
theorem read_part (limit : Nat) (k : Nat) : ∀ (s : State) (x y : Bytes), x.length ≤ k → s.ub = false → s.stream = x ++ y →
    (s.reader.need - s.reader.acc.length = x.length ∨ (x.length < s.reader.need - s.reader.acc.length ∧ y = [] ∧ x.length % chunkSize ≠ 0)) →
    ∃ n, run limit s (List.replicate n .read) = some (finish { s with stream := y } { s.reader with acc := s.reader.acc ++ x }) := by
  induction k with
  | zero =>
    intro s x y hk hub hst hc
    have hx : x = [] := by simpa using hk
    subst hx
    have h0 : s.reader.need - s.reader.acc.length = 0 := by
      rcases hc with h | h
      · simpa using h
      · exact absurd rfl h.2.2
    refine ⟨1, ?_⟩
    simp only [List.replicate, run, step, hub, h0, Bool.false_eq_true, if_false, Nat.zero_min, ne_eq, not_true_eq_false, false_and, List.drop_zero, List.take_zero, Option.bind_some]
    have : ¬ ((s.reader.acc ++ []).length ≠ s.reader.need ∧ ([] : Bytes).length = chunkSize) := by simp [chunkSize]
    unfold gotChunk
    simp only [this, if_false, hst, List.nil_append, hub]
  | succ k ih =>
    intro s x y hk hub hst hc
    by_cases hsmall : x.length < chunkSize ∨ (x.length = chunkSize ∧ s.reader.need - s.reader.acc.length = x.length)
    · /- one call -/
      refine ⟨1, ?_⟩
      have hw : (s.stream.take (min (s.reader.need - s.reader.acc.length) chunkSize)) = x ∧ s.stream.drop (min (s.reader.need - s.reader.acc.length) chunkSize) = y := by
        rcases hc with h | ⟨h1, h2, h3⟩
        · have : min (s.reader.need - s.reader.acc.length) chunkSize = x.length := by omega
          rw [this, hst]; simp
        · subst h2
          have : x.length ≤ min (s.reader.need - s.reader.acc.length) chunkSize := by omega
          rw [hst, List.append_nil]
          exact ⟨List.take_of_length_le this, List.drop_eq_nil_of_le this⟩
      have hgo : ¬ (min (s.reader.need - s.reader.acc.length) chunkSize ≠ 0 ∧ s.stream = []) := by
        rintro ⟨h1, h2⟩
        rw [hst] at h2
        have hx0 := (List.append_eq_nil_iff.1 h2).1
        subst hx0
        rcases hc with h | h
        · simp at h; omega
        · exact h.2.2 rfl
      have hfin : ¬ ((s.reader.acc ++ x).length ≠ s.reader.need ∧ x.length = chunkSize) := by
        rintro ⟨h1, h2⟩
        rcases hsmall with h | h
        · omega
        · have hpos : 0 < chunkSize := by decide
          rw [List.length_append] at h1
          omega
      simp only [List.replicate, run, step, hub, Bool.false_eq_true, if_false, hgo, Option.bind_some, hw.1, hw.2]
      unfold gotChunk
      simp only [hfin, if_false, hub]
    · /- a whole block, and more to come -/
      have hlen : chunkSize ≤ x.length := by omega
      have hleft : chunkSize < s.reader.need - s.reader.acc.length := by omega
      have hpos : 0 < chunkSize := by decide
      have hwant : min (s.reader.need - s.reader.acc.length) chunkSize = chunkSize := by omega
      have htake : (x.take chunkSize).length = chunkSize := by simp; omega
      have h1 : step limit s .read = some { s with stream := x.drop chunkSize ++ y, reader := { s.reader with acc := s.reader.acc ++ x.take chunkSize } } := by
        have hgo : ¬ (chunkSize ≠ 0 ∧ x ++ y = []) := by
          rintro ⟨_, h2⟩
          have := congrArg List.length (List.append_eq_nil_iff.1 h2).1
          rw [List.length_nil] at this; omega
        have hcont : (s.reader.acc ++ x.take chunkSize).length ≠ s.reader.need ∧ (x.take chunkSize).length = chunkSize := by
          refine ⟨?_, htake⟩
          rw [List.length_append, htake]; omega
        simp only [step, hub, Bool.false_eq_true, if_false, hwant, hgo, hst, List.take_append_of_le_length hlen, List.drop_append_of_le_length hlen]
        unfold gotChunk
        simp only [hcont, ne_eq, not_false_eq_true, and_self, if_true]
      obtain ⟨n, hn⟩ := ih { s with stream := x.drop chunkSize ++ y, reader := { s.reader with acc := s.reader.acc ++ x.take chunkSize } } (x.drop chunkSize) y
        (by simp; omega) hub rfl (by
          have l1 : (s.reader.acc ++ x.take chunkSize).length = s.reader.acc.length + chunkSize := by rw [List.length_append, htake]
          have l2 : (x.drop chunkSize).length = x.length - chunkSize := List.length_drop
          simp only [l1, l2]
          rcases hc with h | ⟨h2, h3, h4⟩
          · exact .inl (by omega)
          · refine .inr ⟨by omega, h3, ?_⟩
            have := Nat.mod_eq_sub_mod hlen
            omega)
      refine ⟨n + 1, ?_⟩
      simp only [List.replicate_succ, run, h1, Option.bind_some, hn, List.append_assoc, List.take_append_drop]
      exact congrArg some (finish_reader { s with stream := y } _ _)

theorem run_puts (limit : Nat) (ps : List Bytes) : ∀ (s : State) (t : Nat) (qs : List Bytes), s.lock = some (t, ps ++ qs) →
    run limit s (List.replicate ps.length .put) = some { s with stream := s.stream ++ ps.flatten, lock := some (t, qs) } := by
  induction ps with
  | nil =>
    intro s t qs h
    simp only [List.nil_append] at h
    simp [run, ← h]
  | cons p ps ih =>
    intro s t qs h
    simp only [List.cons_append] at h
    simp only [List.length_cons, List.replicate_succ, run, step, h, Option.bind_some]
    rw [ih _ t qs rfl]
    simp

theorem cut_state (limit : Nat) (m : Msg) (hf : Fits m) (h8 : 8 ≤ limit) (hn : m.endpoint.length ≤ limit) (hd : limit < m.data.length) (hb : limit % 4096 ≠ 0) :
    ∃ as, run limit {} (.lock 0 m :: as) = some { lock := some (0, split limit (m.data.drop limit)), got := [{ m with data := m.data.take limit }], log := [m] } := by
  have hfn : m.endpoint.length % 2 ^ 16 = m.endpoint.length := Nat.mod_eq_of_lt hf.2.1
  have a1 : split limit (leBytes 8 m.requestId) = [leBytes 8 m.requestId] := split_small (by simp; omega)
  have a2 : split limit (leBytes 2 m.endpoint.length) = [leBytes 2 m.endpoint.length] := split_small (by simp; omega)
  have a3 : split limit (leBytes 4 m.data.length) = [leBytes 4 m.data.length] := split_small (by simp; omega)
  have a4 : split limit m.data = m.data.take limit :: split limit (m.data.drop limit) := by
    rw [split, dif_neg (by omega), Nat.max_eq_left (by omega)]
  have hparts : (sendParts m).flatMap (split limit) =
      [leBytes 8 m.requestId, leBytes 2 m.endpoint.length, m.endpoint, leBytes 4 m.data.length, m.data.take limit] ++ split limit (m.data.drop limit) := by
    simp [sendParts, hfn, List.take_length, a1, a2, a3, a4, split_small hn]
  generalize hqs : split limit (m.data.drop limit) = qs at hparts
  have e0 : run limit {} (Act.lock 0 m :: List.replicate 5 .put) =
      some { stream := leBytes 8 m.requestId ++ (leBytes 2 m.endpoint.length ++ (m.endpoint ++ (leBytes 4 m.data.length ++ m.data.take limit))), lock := some (0, qs), log := [m] } := by
    have := run_puts limit [leBytes 8 m.requestId, leBytes 2 m.endpoint.length, m.endpoint, leBytes 4 m.data.length, m.data.take limit]
      { lock := some (0, (sendParts m).flatMap (split limit)), log := [m] } 0 qs (by rw [hparts])
    simp only [run, step, Option.bind_some, List.nil_append]
    simpa using this
  have v1 : leVal (leBytes 8 m.requestId) = m.requestId := by rw [leVal_leBytes]; exact Nat.mod_eq_of_lt (Nat.lt_of_lt_of_le hf.1 (by decide))
  have v2 : leVal (leBytes 2 m.endpoint.length) = m.endpoint.length := by rw [leVal_leBytes]; exact Nat.mod_eq_of_lt (Nat.lt_of_lt_of_le hf.2.1 (by decide))
  have v3 : leVal (leBytes 4 m.data.length) = m.data.length := by rw [leVal_leBytes]; exact Nat.mod_eq_of_lt (Nat.lt_of_lt_of_le hf.2.2 (by decide))
  have f1 := read_part limit _ { stream := leBytes 8 m.requestId ++ (leBytes 2 m.endpoint.length ++ (m.endpoint ++ (leBytes 4 m.data.length ++ m.data.take limit))), lock := some (0, qs), log := [m] }
    (leBytes 8 m.requestId) (leBytes 2 m.endpoint.length ++ (m.endpoint ++ (leBytes 4 m.data.length ++ m.data.take limit))) (Nat.le_refl _) rfl rfl (.inl (by simp))
  obtain ⟨n1, e1⟩ := f1
  have f2 := read_part limit _ { stream := leBytes 2 m.endpoint.length ++ (m.endpoint ++ (leBytes 4 m.data.length ++ m.data.take limit)), lock := some (0, qs), reader := { field := .nameLength, need := 2, msg := { requestId := m.requestId } }, log := [m] } (leBytes 2 m.endpoint.length) (m.endpoint ++ (leBytes 4 m.data.length ++ m.data.take limit))
      (Nat.le_refl _) rfl rfl (.inl (by simp))
  obtain ⟨n2, e2⟩ := f2
  have f3 := read_part limit _ { stream := m.endpoint ++ (leBytes 4 m.data.length ++ m.data.take limit), lock := some (0, qs), reader := { field := .name, need := m.endpoint.length, msg := { requestId := m.requestId } }, log := [m] } m.endpoint (leBytes 4 m.data.length ++ m.data.take limit)
      (Nat.le_refl _) rfl rfl (.inl (by simp))
  obtain ⟨n3, e3⟩ := f3
  have f4 := read_part limit _ { stream := leBytes 4 m.data.length ++ m.data.take limit, lock := some (0, qs), reader := { field := .dataLength, need := 4, msg := { requestId := m.requestId, endpoint := m.endpoint } }, log := [m] } (leBytes 4 m.data.length) (m.data.take limit)
      (Nat.le_refl _) rfl rfl (.inl (by simp))
  obtain ⟨n4, e4⟩ := f4
  have f5 := read_part limit _ { stream := m.data.take limit, lock := some (0, qs), reader := { field := .data, need := m.data.length, msg := { requestId := m.requestId, endpoint := m.endpoint } }, log := [m] } (m.data.take limit) [] (Nat.le_refl _) rfl (by simp)
      (.inr ⟨by simp; omega, rfl, by rw [List.length_take, Nat.min_eq_left (by omega)]; exact hb⟩)
  obtain ⟨n5, e5⟩ := f5
  simp only [finish, next, List.nil_append, length_leBytes, Nat.lt_irrefl, if_false, v1, v2, v3, List.take_length] at e1 e2 e3 e4 e5
  refine ⟨List.replicate 5 .put ++ (List.replicate n1 .read ++ (List.replicate n2 .read ++ (List.replicate n3 .read ++ (List.replicate n4 .read ++ List.replicate n5 .read)))), ?_⟩
  rw [← List.cons_append, run_append, e0, Option.bind_some, run_append, e1, Option.bind_some, run_append, e2, Option.bind_some, run_append, e3, Option.bind_some, run_append, e4, Option.bind_some, e5]

/-- A payload that is longer than what the system passes on at once, which is no multiple of 4096 bytes, may be cut: the worker takes what is there for the whole, and the rest for the next message. -/
theorem long_may_be_cut (limit : Nat) (m : Msg) (hf : Fits m) (h8 : 8 ≤ limit) (hn : m.endpoint.length ≤ limit) (hd : limit < m.data.length) (hb : limit % 4096 ≠ 0) :
    ∃ as s, run limit {} (.lock 0 m :: as) = some s ∧ s.got = [{ m with data := m.data.take limit }] := by
  obtain ⟨as, h⟩ := cut_state limit m hf h8 hn hd hb
  exact ⟨as, _, h, rfl⟩

/-- If fewer than eight bytes are left of it, the worker then reads past the end of its buffer: it takes the number of the next message from it without looking how many bytes have come. -/
theorem rest_read_past_end (limit : Nat) (m : Msg) (hf : Fits m) (h8 : 8 ≤ limit) (hn : m.endpoint.length ≤ limit) (hd : limit < m.data.length) (hr : m.data.length < limit + 8) (hb : limit % 4096 ≠ 0) :
    ∃ as s, run limit {} (.lock 0 m :: as) = some s ∧ s.ub = true := by
  obtain ⟨as, h⟩ := cut_state limit m hf h8 hn hd hb
  have hl : (m.data.drop limit).length < 8 := by rw [List.length_drop]; omega
  have h0 : 0 < (m.data.drop limit).length := by rw [List.length_drop]; omega
  generalize m.data.drop limit = x at h hl h0
  rw [split_small (show x.length ≤ limit by omega)] at h
  obtain ⟨n, e⟩ := read_part limit _ { stream := x, lock := some (0, []), got := [{ m with data := m.data.take limit }], log := [m] } x [] (Nat.le_refl _) rfl (by simp)
    (.inr ⟨by simpa using hl, rfl, by rw [Nat.mod_eq_of_lt (Nat.lt_trans hl (by decide))]; omega⟩)
  refine ⟨as ++ (.put :: List.replicate n .read), finish { lock := some (0, []), got := [{ m with data := m.data.take limit }], log := [m] } { acc := x }, ?_, ?_⟩
  · rw [← List.cons_append, run_append, h, Option.bind_some]
    simp only [run, step, Option.bind_some, List.nil_append]
    exact e
  · simp [finish, next, hl]

/-- A thread sends "ab" to "e", then another one a message without data; the worker reads in between. -/
def example1 : List Act :=
  [.lock 1 ⟨7, [101], [97, 98]⟩, .put, .put, .read, .put, .read, .read, .put, .put, .unlock, .lock 2 ⟨0, [102], []⟩, .put, .read, .read, .read, .put, .put, .read, .put, .put, .unlock, .read, .read, .read]

example : Modest 36544 example1 ∧ ((run 36544 {} example1).map fun s => s.got) = some [⟨7, [101], [97, 98]⟩, ⟨0, [102], []⟩] := by
  refine ⟨⟨by decide, ?_⟩, ?_⟩
  · intro t m h
    simp only [example1, List.mem_cons, List.not_mem_nil, or_false, reduceCtorEq, false_or, Act.lock.injEq] at h
    rcases h with ⟨_, rfl⟩ | ⟨_, rfl⟩ <;> decide
  · decide +kernel

/-- The hypotheses of `long_may_be_cut` and `rest_read_past_end`. -/
example : let m : Msg := ⟨1, [101], List.replicate 10 7⟩; Fits m ∧ m.endpoint.length ≤ 8 ∧ 8 < m.data.length ∧ m.data.length < 8 + 8 ∧ 8 % 4096 ≠ 0 := by decide

end Scalopus.C133
