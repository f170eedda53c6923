import Verif.Proofs.Ctf

/-!
# C50, C51: parsing the output of babeltrace
-/

namespace Scalopus.C50

open Ctf Ctf.Spec

/-- What a faithful parser makes of a line. -/
structure Faithful (keyFirst : Bool) (l : Line) (e : Event) : Prop where
  /-- the double nearest to the time -/
  time : e.time = some (some (Double.nearest (l.secs + l.nanos / 10 ^ 9)))
  host : e.host = l.host
  domain : e.domain = l.domain
  name : e.name = l.name
  stream : Holds keyFirst e.stream l.stream
  context : Holds keyFirst e.context l.context
  data : Holds keyFirst e.data l.data

theorem braces_split (fs : List Field) : ∃ b, braces fs = b ++ ['}'] := by
  cases fs with
  | nil => exact ⟨['{', ' '], rfl⟩
  | cons f fs => exact ⟨['{', ' '] ++ body (f :: fs) ++ [' '], by simp [braces]⟩

/-- What `parse` does after the tracepoint. -/
def contexts (keyFirst : Bool) (line : Text) (e : Event) (stop : Nat) : Res Event :=
  let start := find line ['{'] stop
  let stop := find line ['}'] (add start 1)
  if start = npos ∨ stop = npos then .ok e
  else (substr line (add start 2) (sub (sub (sub stop start) 1) 2)).bind fun text1 =>
  let start := find line ['{'] stop
  let stop := find line ['}'] (add start 1)
  if start = npos ∨ stop = npos then .ok e
  else (substr line (add start 2) (sub (sub (sub stop start) 1) 2)).bind fun text2 =>
  let start := find line ['{'] stop
  let stop := find line ['}'] (add start 1)
  if start = npos ∨ stop = npos then .ok e
  else (substr line (add start 2) (sub (sub (sub stop start) 1) 2)).bind fun text3 =>
  -- 174-176
  (processContext keyFirst [] text1).bind fun stream =>
  (processContext keyFirst [] text2).bind fun context =>
  (processContext keyFirst [] text3).bind fun data =>
  .ok { e with stream := stream, context := context, data := data }

/-- The part of a line before the contexts. -/
theorem parse_head (keyFirst : Bool) (l : Line) (hsecs : l.secs < 2 ^ 64) (hnanos : l.nanos < 10 ^ 9) (hhost : ' ' ∉ l.host) (hdomain : ' ' ∉ l.domain ∧ ':' ∉ l.domain)
    (hname' : ' ' ∉ l.name) (rest s : Text) (hlen : s.length < 2 ^ 63)
    (hs' : s = ['['] ++ l.timeText ++ [']', ' '] ++ l.host ++ [' '] ++ l.domain ++ [':'] ++ l.name ++ [':', ' '] ++ rest) :
    parse keyFirst s = contexts keyFirst s
      { line := s, time := some (some (Double.nearest (l.secs + l.nanos / 10 ^ 9))), host := l.host, domain := l.domain, name := l.name }
      (6 + l.timeText.length + l.host.length + l.domain.length + l.name.length) := by
  have hT : ']' ∉ l.timeText := fun hc => absurd (mem_timeText hc) (by decide)
  have hT1 : '[' ∉ l.timeText := fun hc => absurd (mem_timeText hc) (by decide)
  have hlen' : 1 + l.timeText.length + 2 + l.host.length + 1 + l.domain.length + 1 + l.name.length + 2 < 2 ^ 63 := by
    have := congrArg List.length hs'
    simp only [List.length_append, List.length_cons, List.length_nil] at this
    omega
  -- the positions
  have f1 : find s ['['] 0 = 0 := find_char '[' [] [] (l.timeText ++ [']', ' '] ++ l.host ++ [' '] ++ l.domain ++ [':'] ++ l.name ++ [':', ' '] ++
    rest) (by rw [hs']; simp) (by simp) rfl
  have f2 : find s [']'] 0 = 1 + l.timeText.length := by
    rw [find_char (s := s) (pos := 0) ']' [] ('[' :: l.timeText) (' ' :: l.host ++ [' '] ++ l.domain ++ [':'] ++ l.name ++ [':', ' '] ++
      rest) (by rw [hs']; simp)
      (by simp only [List.mem_cons, not_or]; exact ⟨by decide, hT⟩) rfl]
    simp; omega
  have f3 : find s [' '] (1 + l.timeText.length) = 2 + l.timeText.length := by
    rw [find_char ' ' ('[' :: l.timeText) [']'] (l.host ++ [' '] ++ l.domain ++ [':'] ++ l.name ++ [':', ' '] ++
      rest) (by rw [hs']; simp) (by decide) (by simp; omega)]
    simp; omega
  have f4 : find s [' '] (3 + l.timeText.length) = 3 + l.timeText.length + l.host.length := by
    rw [find_char ' ' ('[' :: l.timeText ++ [']', ' ']) l.host (l.domain ++ [':'] ++ l.name ++ [':', ' '] ++
      rest) (by rw [hs']; simp) hhost (by simp; omega)]
    simp; omega
  have f5 : find s [' '] (3 + l.timeText.length + l.host.length) = 3 + l.timeText.length + l.host.length := by
    rw [find_char ' ' ('[' :: l.timeText ++ [']', ' '] ++ l.host) [] (l.domain ++ [':'] ++ l.name ++ [':', ' '] ++
      rest) (by rw [hs']; simp) (by simp) (by simp; omega)]
    simp; omega
  have f6 : find s [' '] (4 + l.timeText.length + l.host.length) = 6 + l.timeText.length + l.host.length + l.domain.length + l.name.length := by
    rw [find_char ' ' ('[' :: l.timeText ++ [']', ' '] ++ l.host ++ [' ']) (l.domain ++ [':'] ++ l.name ++ [':']) (
      rest) (by rw [hs']; simp) (by
        simp only [List.mem_append, not_or]; exact ⟨⟨⟨hdomain.1, by decide⟩, hname'⟩, by decide⟩) (by simp; omega)]
    simp; omega
  have f7 : find (l.domain ++ ':' :: l.name) [':'] 0 = l.domain.length := by
    rw [find_char (s := l.domain ++ ':' :: l.name) (pos := 0) ':' [] l.domain l.name rfl hdomain.2 rfl]; simp
  have hne : s ≠ [] := by rw [hs']; simp
  have n0 : ∀ x, x < 2 ^ 63 → x ≠ npos := fun x hx => by unfold npos; omega
  unfold parse
  simp only
  rw [if_neg hne, f1, f2, if_neg (not_or.mpr ⟨n0 _ (by omega), n0 _ (by omega)⟩), add_small (by omega), sub_small (by omega) (by omega),
    substr_mid ['['] l.timeText ([']', ' '] ++ l.host ++ [' '] ++ l.domain ++ [':'] ++ l.name ++ [':', ' '] ++
    rest) (by rw [hs']; simp) (by simp) (by omega), ok_bind, stod_time l hsecs hnanos]
  simp only
  rw [f3, add_small (by omega), show 2 + l.timeText.length + 1 = 3 + l.timeText.length by omega, f4, if_neg (not_or.mpr ⟨n0 _ (by omega), n0 _ (by omega)⟩),
    sub_small (a := 3 + l.timeText.length + l.host.length) (by omega) (by omega), sub_small (a := 3 + l.timeText.length + l.host.length - (2 + l.timeText.length)) (by omega) (by omega),
    substr_mid ('[' :: l.timeText ++ [']', ' ']) l.host ([' '] ++ l.domain ++ [':'] ++ l.name ++ [':', ' '] ++
    rest) (by rw [hs']; simp) (by simp; omega) (by omega), ok_bind]
  rw [f5, add_small (by omega), show 3 + l.timeText.length + l.host.length + 1 = 4 + l.timeText.length + l.host.length by omega, f6,
    if_neg (not_or.mpr ⟨n0 _ (by omega), n0 _ (by omega)⟩),
    sub_small (a := 6 + l.timeText.length + l.host.length + l.domain.length + l.name.length) (by omega) (by omega),
    sub_small (a := 6 + l.timeText.length + l.host.length + l.domain.length + l.name.length - (3 + l.timeText.length + l.host.length)) (by omega) (by omega),
    sub_small (a := 6 + l.timeText.length + l.host.length + l.domain.length + l.name.length - (3 + l.timeText.length + l.host.length) - 1) (by omega) (by omega),
    substr_mid ('[' :: l.timeText ++ [']', ' '] ++ l.host ++ [' ']) (l.domain ++ ':' :: l.name) ([':', ' '] ++
    rest) (by rw [hs']; simp) (by simp; omega) (by simp; omega), ok_bind, f7,
    if_neg (n0 _ (by omega)), substr_mid (s := l.domain ++ ':' :: l.name) (pos := 0) [] l.domain (':' :: l.name) rfl rfl rfl, ok_bind, add_small (by omega)]
  have hname : substr (l.domain ++ ':' :: l.name) (l.domain.length + 1) (sub (l.domain ++ ':' :: l.name).length l.domain.length) = .ok l.name := by
    unfold substr
    rw [if_neg (by simp), ← List.drop_drop, List.drop_left, List.drop_one, List.tail_cons, sub_small (by simp) (by simp; omega), List.take_of_length_le (by simp)]
  rw [hname, ok_bind]
  rfl

/-- The fields after a field that is printed as `t ++ u`. -/
theorem body_middle : ∀ (fs : List Field) (key t u : Text) (gs : List Field), ∃ r, body (fs ++ ⟨key, .other (t ++ u)⟩ :: gs) = body (fs ++ [⟨key, .other t⟩]) ++ u ++ r ∧
    r = match gs with | [] => [] | gs => [',', ' '] ++ body gs
  | [], key, t, u, [] => ⟨[], by simp [body, Field.text, Value.text], rfl⟩
  | [], key, t, u, g :: gs => ⟨_, by simp [body, Field.text, Value.text], rfl⟩
  | [f], key, t, u, gs => by
    obtain ⟨r, hr, h⟩ := body_middle [] key t u gs
    refine ⟨r, ?_, h⟩
    simp only [List.nil_append, List.cons_append, body] at hr ⊢
    rw [hr]
    simp
  | f :: g :: fs, key, t, u, gs => by
    obtain ⟨r, hr, h⟩ := body_middle (g :: fs) key t u gs
    refine ⟨r, ?_, h⟩
    simp only [List.cons_append, body] at hr ⊢
    rw [hr]
    simp

theorem braces_ne {fs : List Field} (h : fs ≠ []) : braces fs = ['{', ' '] ++ body fs ++ [' ', '}'] := by
  cases fs with
  | nil => exact absurd rfl h
  | cons f fs => rfl

/-- **C50, partial.** A line in the format of babeltrace is parsed to its time (the double nearest to the decimal number), host, domain, name and, for each of the three contexts,
exactly its integer fields, negative ones as their two's complement. Missing: values that are not numbers but contain a closing brace or ", " (see `not_lines_parsed`, `brace_cuts_context` and `comma_forges_field`). -/
theorem lines_parsed_partial (keyFirst : Bool) (l : Line) (h : l.Valid) : ∃ e, parse keyFirst l.text = .ok e ∧ Faithful keyFirst l e := by
  obtain ⟨b1, hb1⟩ := braces_split l.stream
  obtain ⟨b2, hb2⟩ := braces_split l.context
  have hlen := h.length
  generalize hs : l.text = s at hlen
  have hs' : s = ['['] ++ l.timeText ++ [']', ' '] ++ l.host ++ [' '] ++ l.domain ++ [':'] ++ l.name ++ [':', ' '] ++
    braces l.stream ++ [',', ' '] ++ braces l.context ++ [',', ' '] ++ braces l.data ++ (if l.newline then ['\n'] else []) := by rw [← hs]; rfl
  generalize hnl : (if l.newline then ['\n'] else []) = nl at hs'
  have hnl' : nl.length ≤ 3 ∧ delimiter nl = none := by
    rw [← hnl]
    cases l.newline <;> simp [delimiter]
  have hT : ']' ∉ l.timeText := fun hc => absurd (mem_timeText hc) (by decide)
  have hT1 : '[' ∉ l.timeText := fun hc => absurd (mem_timeText hc) (by decide)
  have hlen' : 1 + l.timeText.length + 2 + l.host.length + 1 + l.domain.length + 1 + l.name.length + 2 < 2 ^ 63 := by
    have := congrArg List.length hs'
    simp only [List.length_append, List.length_cons, List.length_nil] at this
    omega
  -- the positions
  have f1 : find s ['['] 0 = 0 := find_char '[' [] [] (l.timeText ++ [']', ' '] ++ l.host ++ [' '] ++ l.domain ++ [':'] ++ l.name ++ [':', ' '] ++
    braces l.stream ++ [',', ' '] ++ braces l.context ++ [',', ' '] ++ braces l.data ++ nl) (by rw [hs']; simp) (by simp) rfl
  have f2 : find s [']'] 0 = 1 + l.timeText.length := by
    rw [find_char (s := s) (pos := 0) ']' [] ('[' :: l.timeText) (' ' :: l.host ++ [' '] ++ l.domain ++ [':'] ++ l.name ++ [':', ' '] ++
      braces l.stream ++ [',', ' '] ++ braces l.context ++ [',', ' '] ++ braces l.data ++ nl) (by rw [hs']; simp)
      (by simp only [List.mem_cons, not_or]; exact ⟨by decide, hT⟩) rfl]
    simp; omega
  have f3 : find s [' '] (1 + l.timeText.length) = 2 + l.timeText.length := by
    rw [find_char ' ' ('[' :: l.timeText) [']'] (l.host ++ [' '] ++ l.domain ++ [':'] ++ l.name ++ [':', ' '] ++
      braces l.stream ++ [',', ' '] ++ braces l.context ++ [',', ' '] ++ braces l.data ++ nl) (by rw [hs']; simp) (by decide) (by simp; omega)]
    simp; omega
  have f4 : find s [' '] (3 + l.timeText.length) = 3 + l.timeText.length + l.host.length := by
    rw [find_char ' ' ('[' :: l.timeText ++ [']', ' ']) l.host (l.domain ++ [':'] ++ l.name ++ [':', ' '] ++
      braces l.stream ++ [',', ' '] ++ braces l.context ++ [',', ' '] ++ braces l.data ++ nl) (by rw [hs']; simp) h.host (by simp; omega)]
    simp; omega
  have f5 : find s [' '] (3 + l.timeText.length + l.host.length) = 3 + l.timeText.length + l.host.length := by
    rw [find_char ' ' ('[' :: l.timeText ++ [']', ' '] ++ l.host) [] (l.domain ++ [':'] ++ l.name ++ [':', ' '] ++
      braces l.stream ++ [',', ' '] ++ braces l.context ++ [',', ' '] ++ braces l.data ++ nl) (by rw [hs']; simp) (by simp) (by simp; omega)]
    simp; omega
  have f6 : find s [' '] (4 + l.timeText.length + l.host.length) = 6 + l.timeText.length + l.host.length + l.domain.length + l.name.length := by
    rw [find_char ' ' ('[' :: l.timeText ++ [']', ' '] ++ l.host ++ [' ']) (l.domain ++ [':'] ++ l.name ++ [':']) (
      braces l.stream ++ [',', ' '] ++ braces l.context ++ [',', ' '] ++ braces l.data ++ nl) (by rw [hs']; simp) (by
        simp only [List.mem_append, not_or]; exact ⟨⟨⟨h.domain.1, by decide⟩, h.name⟩, by decide⟩) (by simp; omega)]
    simp; omega
  have f7 : find (l.domain ++ ':' :: l.name) [':'] 0 = l.domain.length := by
    rw [find_char (s := l.domain ++ ':' :: l.name) (pos := 0) ':' [] l.domain l.name rfl h.domain.2 rfl]; simp
  -- the contexts
  obtain ⟨g1, g2, g3, t1, m1, g4, g5, g6⟩ := context_at keyFirst (s := s) ('[' :: l.timeText ++ [']', ' '] ++ l.host ++ [' '] ++ l.domain ++ [':'] ++ l.name ++ [':']) [' '] l.stream
    ([',', ' '] ++ braces l.context ++ [',', ' '] ++ braces l.data ++ nl) (by rw [hs']; simp) (by decide) (fun f hf => h.fields f (by simp [hf])) h.keys.1 hlen (.inr ⟨_, rfl⟩)
  obtain ⟨i1, i2, i3, t2, m2, i4, i5, i6⟩ := context_at keyFirst (s := s) ('[' :: l.timeText ++ [']', ' '] ++ l.host ++ [' '] ++ l.domain ++ [':'] ++ l.name ++ [':', ' '] ++ b1)
    ['}', ',', ' '] l.context ([',', ' '] ++ braces l.data ++ nl) (by rw [hs', hb1]; simp) (by decide) (fun f hf => h.fields f (by simp [hf])) h.keys.2.1 hlen (.inr ⟨_, rfl⟩)
  obtain ⟨j1, j2, j3, t3, m3, j4, j5, j6⟩ := context_at keyFirst (s := s) ('[' :: l.timeText ++ [']', ' '] ++ l.host ++ [' '] ++ l.domain ++ [':'] ++ l.name ++ [':', ' '] ++
    braces l.stream ++ [',', ' '] ++ b2) ['}', ',', ' '] l.data nl (by rw [hs', hb2]; simp) (by decide) (fun f hf => h.fields f (by simp [hf])) h.keys.2.2 hlen (.inl hnl')
  have q1 : ('[' :: l.timeText ++ [']', ' '] ++ l.host ++ [' '] ++ l.domain ++ [':'] ++ l.name ++ [':']).length = 6 + l.timeText.length + l.host.length + l.domain.length + l.name.length := by
    simp; omega
  have q2 : find s ['}'] (add (find s ['{'] (6 + l.timeText.length + l.host.length + l.domain.length + l.name.length)) 1) =
      ('[' :: l.timeText ++ [']', ' '] ++ l.host ++ [' '] ++ l.domain ++ [':'] ++ l.name ++ [':', ' '] ++ b1).length := by
    rw [← q1, g2, hb1]
    simp
    omega
  rw [q1] at g1 g2 g3 g4
  have q3 : find s ['}'] (add (find s ['{'] ('[' :: l.timeText ++ [']', ' '] ++ l.host ++ [' '] ++ l.domain ++ [':'] ++ l.name ++ [':', ' '] ++ b1).length) 1) =
      ('[' :: l.timeText ++ [']', ' '] ++ l.host ++ [' '] ++ l.domain ++ [':'] ++ l.name ++ [':', ' '] ++ braces l.stream ++ [',', ' '] ++ b2).length := by
    rw [i2, hb1, hb2]
    simp
    omega
  rw [← q2] at i1 i2 i3 i4
  rw [← q3, ← q2] at j1 j2 j3 j4
  have hne : s ≠ [] := by rw [hs']; simp
  have n0 : ∀ x, x < 2 ^ 63 → x ≠ npos := fun x hx => by unfold npos; omega
  refine ⟨{ line := s, time := some (some (Double.nearest (l.secs + l.nanos / 10 ^ 9))), host := l.host, domain := l.domain, name := l.name, stream := m1, context := m2, data := m3 }, ?_,
    ⟨rfl, rfl, rfl, rfl, g6, i6, j6⟩⟩
  unfold parse
  simp only
  rw [if_neg hne, f1, f2, if_neg (not_or.mpr ⟨n0 _ (by omega), n0 _ (by omega)⟩), add_small (by omega), sub_small (by omega) (by omega),
    substr_mid ['['] l.timeText ([']', ' '] ++ l.host ++ [' '] ++ l.domain ++ [':'] ++ l.name ++ [':', ' '] ++
    braces l.stream ++ [',', ' '] ++ braces l.context ++ [',', ' '] ++ braces l.data ++ nl) (by rw [hs']; simp) (by simp) (by omega), ok_bind, stod_time l h.secs h.nanos]
  simp only
  rw [f3, add_small (by omega), show 2 + l.timeText.length + 1 = 3 + l.timeText.length by omega, f4, if_neg (not_or.mpr ⟨n0 _ (by omega), n0 _ (by omega)⟩),
    sub_small (a := 3 + l.timeText.length + l.host.length) (by omega) (by omega), sub_small (a := 3 + l.timeText.length + l.host.length - (2 + l.timeText.length)) (by omega) (by omega),
    substr_mid ('[' :: l.timeText ++ [']', ' ']) l.host ([' '] ++ l.domain ++ [':'] ++ l.name ++ [':', ' '] ++
    braces l.stream ++ [',', ' '] ++ braces l.context ++ [',', ' '] ++ braces l.data ++ nl) (by rw [hs']; simp) (by simp; omega) (by omega), ok_bind]
  rw [f5, add_small (by omega), show 3 + l.timeText.length + l.host.length + 1 = 4 + l.timeText.length + l.host.length by omega, f6,
    if_neg (not_or.mpr ⟨n0 _ (by omega), n0 _ (by omega)⟩),
    sub_small (a := 6 + l.timeText.length + l.host.length + l.domain.length + l.name.length) (by omega) (by omega),
    sub_small (a := 6 + l.timeText.length + l.host.length + l.domain.length + l.name.length - (3 + l.timeText.length + l.host.length)) (by omega) (by omega),
    sub_small (a := 6 + l.timeText.length + l.host.length + l.domain.length + l.name.length - (3 + l.timeText.length + l.host.length) - 1) (by omega) (by omega),
    substr_mid ('[' :: l.timeText ++ [']', ' '] ++ l.host ++ [' ']) (l.domain ++ ':' :: l.name) ([':', ' '] ++
    braces l.stream ++ [',', ' '] ++ braces l.context ++ [',', ' '] ++ braces l.data ++ nl) (by rw [hs']; simp) (by simp; omega) (by simp; omega), ok_bind, f7,
    if_neg (n0 _ (by omega)), substr_mid (s := l.domain ++ ':' :: l.name) (pos := 0) [] l.domain (':' :: l.name) rfl rfl rfl, ok_bind, add_small (by omega)]
  have hname : substr (l.domain ++ ':' :: l.name) (l.domain.length + 1) (sub (l.domain ++ ':' :: l.name).length l.domain.length) = .ok l.name := by
    unfold substr
    rw [if_neg (by simp), ← List.drop_drop, List.drop_left, List.drop_one, List.tail_cons, sub_small (by simp) (by simp; omega), List.take_of_length_le (by simp)]
  rw [hname, ok_bind, if_neg (not_or.mpr ⟨g1, g3⟩), g4, ok_bind, if_neg (not_or.mpr ⟨i1, i3⟩), i4, ok_bind, if_neg (not_or.mpr ⟨j1, j3⟩), j4, ok_bind, g5, ok_bind, i5, ok_bind, j5, ok_bind]

/-- The line of the unit test (scalopus_tracing/test/test_ctfevent.cpp:42), and a string field. -/
def sample : Line where
  secs := 1544361620
  nanos := 739021131
  host := "eagle".toList
  domain := "scalopus_scope_id".toList
  name := "exit".toList
  stream := [⟨"cpu_id".toList, .int 2⟩]
  context := [⟨"vpid".toList, .int 14897⟩, ⟨"procname".toList, .other "\"a b\"".toList⟩, ⟨"pthread_id".toList, .int 139688084124608⟩]
  data := [⟨"id".toList, .int (-5)⟩]
  newline := true

example : sample.text = "[1544361620.739021131] eagle scalopus_scope_id:exit: { cpu_id = 2 }, { vpid = 14897, procname = \"a b\", pthread_id = 139688084124608 }, { id = -5 }\n".toList := by
  decide +kernel

example : sample.Valid where
  secs := by decide
  nanos := by decide
  host := by decide
  domain := ⟨by decide, by decide⟩
  name := by decide
  fields := by
    intro f hf
    simp only [sample, List.cons_append, List.nil_append, List.mem_cons, List.not_mem_nil, or_false] at hf
    rcases hf with rfl | rfl | rfl | rfl | rfl
    · exact ⟨by decide, by decide, by decide, by decide, by decide⟩
    · exact ⟨by decide, by decide, by decide, by decide, by decide⟩
    · exact ⟨by decide, by decide, by decide, by decide, by decide, by decide, '"', "a b\"".toList, by decide, by decide, by decide, by decide, by decide⟩
    · exact ⟨by decide, by decide, by decide, by decide, by decide⟩
    · exact ⟨by decide, by decide, by decide, by decide, by decide⟩
  keys := by decide
  length := by decide +kernel

/-- The same for every value that is printed in quotes. -/
def LinesParsed : Prop :=
  ∀ (keyFirst : Bool) (l : Line), l.secs < 2 ^ 64 → l.nanos < 10 ^ 9 → ' ' ∉ l.host → ' ' ∉ l.domain ∧ ':' ∉ l.domain → ' ' ∉ l.name →
    (∀ f ∈ l.stream ++ l.context ++ l.data, (f.key ≠ [] ∧ ' ' ∉ f.key ∧ ',' ∉ f.key ∧ '}' ∉ f.key) ∧ match f.value with
      | .int z => -2 ^ 63 ≤ z ∧ z < 2 ^ 64
      | .other t => ∃ r, '"' ∉ r ∧ t = ['"'] ++ r ++ ['"']) →
    (l.stream.map Field.key).Nodup ∧ (l.context.map Field.key).Nodup ∧ (l.data.map Field.key).Nodup → l.text.length < 2 ^ 63 →
    ∃ e, parse keyFirst l.text = .ok e ∧ Faithful keyFirst l e

/-- A process named `a}b` (its name is a field of the context, if it is recorded). -/
def braced : Line where
  secs := 1
  nanos := 0
  host := "h".toList
  domain := "d".toList
  name := "n".toList
  stream := [⟨"cpu_id".toList, .int 2⟩]
  context := [⟨"procname".toList, .other "\"a}b\"".toList⟩, ⟨"vpid".toList, .int 7⟩]
  data := [⟨"id".toList, .int 5⟩]
  newline := true

/-- A closing brace in a string ends the context for the parser: the process id after it is lost. -/
theorem brace_loses_fields (keyFirst : Bool) : ∃ e, parse keyFirst braced.text = .ok e ∧ e.context.lookup "vpid".toList = none := by
  have h : (match parse keyFirst braced.text with | .ok e => (e.context.lookup "vpid".toList).isNone | _ => false) = true := by cases keyFirst <;> decide +kernel
  cases hp : parse keyFirst braced.text with
  | ok e => rw [hp] at h; exact ⟨e, rfl, Option.isNone_iff_eq_none.mp h⟩
  | throws x => rw [hp] at h; cases h
  | ub => rw [hp] at h; cases h
  | terminate => rw [hp] at h; cases h

/-- Every closing brace in a string does so: if a field of the context is printed with a closing brace, the line is parsed as if the context ended one character before the brace.
All that was printed after it in the context, and with it every later field, is lost, and nothing is reported. -/
theorem brace_cuts_context (keyFirst : Bool) (l : Line) (fs gs : List Field) (key t u : Text) (c : Char) (hv : ({ l with context := fs ++ [⟨key, .other t⟩] } : Line).Valid)
    (hc : c ≠ '}') (hu : '{' ∉ u) (hg : '{' ∉ body gs) (hlen : ({ l with context := fs ++ ⟨key, .other (t ++ c :: '}' :: u)⟩ :: gs } : Line).text.length < 2 ^ 63) :
    ∃ e, parse keyFirst ({ l with context := fs ++ ⟨key, .other (t ++ c :: '}' :: u)⟩ :: gs } : Line).text = .ok e ∧
      Faithful keyFirst { l with context := fs ++ [⟨key, .other t⟩] } e ∧
      ∀ g ∈ gs, g.key ≠ key → (∀ f ∈ fs, f.key ≠ g.key) → e.context.lookup g.key = none := by
  obtain ⟨b1, hb1⟩ := braces_split l.stream
  obtain ⟨r, hr, hr'⟩ := body_middle fs key t (c :: '}' :: u) gs
  have hrb : '{' ∉ r := by
    rw [hr']
    cases gs with
    | nil => simp
    | cons g gs => simp only [List.mem_append, not_or]; exact ⟨by decide, hg⟩
  generalize hs : ({ l with context := fs ++ ⟨key, .other (t ++ c :: '}' :: u)⟩ :: gs } : Line).text = s at hlen
  generalize hfs : fs ++ [⟨key, .other t⟩] = cs at hr hv
  have hcs : cs ≠ [] := by rw [← hfs]; simp
  have hs' : s = ['['] ++ l.timeText ++ [']', ' '] ++ l.host ++ [' '] ++ l.domain ++ [':'] ++ l.name ++ [':', ' '] ++
    (braces l.stream ++ [',', ' '] ++ (['{', ' '] ++ (body cs ++ c :: '}' :: u ++ r) ++ [' ', '}']) ++ [',', ' '] ++ braces l.data ++ (if l.newline then ['\n'] else [])) := by
    rw [← hs, ← hr, ← braces_ne (by simp)]
    simp [Line.text, Line.timeText]
  generalize hnl : (if l.newline then ['\n'] else []) = nl at hs'
  have hnl' : nl.length ≤ 3 ∧ delimiter nl = none := by
    rw [← hnl]
    cases l.newline <;> simp [delimiter]
  have hf := hv.fields
  obtain ⟨hk1, hk2, hk3⟩ := hv.keys
  simp only at hf hk1 hk2 hk3
  have hp := parse_head keyFirst l hv.secs hv.nanos hv.host hv.domain hv.name _ s hlen hs'
  obtain ⟨g1, g2, g3, t1, m1, g4, g5, g6⟩ := context_at keyFirst (s := s) ('[' :: l.timeText ++ [']', ' '] ++ l.host ++ [' '] ++ l.domain ++ [':'] ++ l.name ++ [':']) [' '] l.stream
    ([',', ' '] ++ (['{', ' '] ++ (body cs ++ c :: '}' :: u ++ r) ++ [' ', '}']) ++ [',', ' '] ++ braces l.data ++ nl) (by rw [hs']; simp) (by decide)
    (fun f h => hf f (by simp [h])) hk1 hlen (.inr ⟨_, rfl⟩)
  obtain ⟨i1, i2, i3, t2, m2, i4, i5, i6⟩ := context_cut keyFirst (s := s) ('[' :: l.timeText ++ [']', ' '] ++ l.host ++ [' '] ++ l.domain ++ [':'] ++ l.name ++ [':', ' '] ++ b1)
    ['}', ',', ' '] cs c (u ++ r ++ [' ', '}'] ++ [',', ' '] ++ braces l.data ++ nl) (by rw [hs', hb1]; simp) (by decide) hcs hc (fun f h => hf f (by simp [h])) hk2 hlen
  obtain ⟨j1, j2, j3, t3, m3, j4, j5, j6⟩ := context_at keyFirst (s := s) ('[' :: l.timeText ++ [']', ' '] ++ l.host ++ [' '] ++ l.domain ++ [':'] ++ l.name ++ [':', ' '] ++
    braces l.stream ++ [',', ' '] ++ ['{', ' '] ++ body cs ++ [c]) ('}' :: u ++ r ++ [' ', '}', ',', ' ']) l.data nl (by rw [hs']; simp)
    (by simp only [List.mem_append, List.mem_cons, List.not_mem_nil, not_or, or_false, List.cons_append]; exact ⟨by decide, ⟨hu, hrb⟩, by decide, by decide, by decide, by decide⟩)
    (fun f h => hf f (by simp [h])) hk3 hlen (.inl hnl')
  have q1 : ('[' :: l.timeText ++ [']', ' '] ++ l.host ++ [' '] ++ l.domain ++ [':'] ++ l.name ++ [':']).length = 6 + l.timeText.length + l.host.length + l.domain.length + l.name.length := by
    simp; omega
  have q2 : find s ['}'] (add (find s ['{'] (6 + l.timeText.length + l.host.length + l.domain.length + l.name.length)) 1) =
      ('[' :: l.timeText ++ [']', ' '] ++ l.host ++ [' '] ++ l.domain ++ [':'] ++ l.name ++ [':', ' '] ++ b1).length := by
    rw [← q1, g2, hb1]
    simp
    omega
  rw [q1] at g1 g2 g3 g4
  have q3 : find s ['}'] (add (find s ['{'] ('[' :: l.timeText ++ [']', ' '] ++ l.host ++ [' '] ++ l.domain ++ [':'] ++ l.name ++ [':', ' '] ++ b1).length) 1) =
      ('[' :: l.timeText ++ [']', ' '] ++ l.host ++ [' '] ++ l.domain ++ [':'] ++ l.name ++ [':', ' '] ++ braces l.stream ++ [',', ' '] ++ ['{', ' '] ++ body cs ++ [c]).length := by
    rw [i2, hb1]
    simp
    omega
  rw [← q2] at i1 i2 i3 i4
  rw [← q3, ← q2] at j1 j2 j3 j4
  refine ⟨{ line := s, time := some (some (Double.nearest (l.secs + l.nanos / 10 ^ 9))), host := l.host, domain := l.domain, name := l.name, stream := m1, context := m2, data := m3 }, ?_,
    ⟨rfl, rfl, rfl, rfl, g6, i6, j6⟩, ?_⟩
  · rw [hp]
    unfold contexts
    simp only
    rw [if_neg (not_or.mpr ⟨g1, g3⟩), g4, ok_bind, if_neg (not_or.mpr ⟨i1, i3⟩), i4, ok_bind, if_neg (not_or.mpr ⟨j1, j3⟩), j4, ok_bind, g5, ok_bind, i5, ok_bind, j5, ok_bind]
  · intro g _ hgk hgf
    cases hl : m2.lookup g.key with
    | none => rfl
    | some n =>
      obtain ⟨f, hf, hfk, -⟩ := (i6 g.key n).mp hl
      rw [← hfs] at hf
      simp only [List.mem_append, List.mem_singleton] at hf
      rcases hf with hf | rfl
      · exact absurd hfk (hgf f hf)
      · exact absurd hfk.symm hgk

/-- The line above is such a line. -/
example : braced = { braced with context := [] ++ ⟨"procname".toList, .other ("\"".toList ++ 'a' :: '}' :: "b\"".toList)⟩ :: [⟨"vpid".toList, .int 7⟩] } := rfl

example : ({ braced with context := [] ++ [⟨"procname".toList, .other "\"".toList⟩] } : Line).Valid where
  secs := by decide
  nanos := by decide
  host := by decide
  domain := ⟨by decide, by decide⟩
  name := by decide
  fields := by
    intro f hf
    simp only [braced, List.cons_append, List.nil_append, List.mem_cons, List.not_mem_nil, or_false] at hf
    rcases hf with rfl | rfl | rfl
    · exact ⟨by decide, by decide, by decide, by decide, by decide⟩
    · exact ⟨by decide, by decide, by decide, by decide, by decide, by decide, '"', [], by decide, by decide, by decide, by decide, by decide⟩
    · exact ⟨by decide, by decide, by decide, by decide, by decide⟩
  keys := by decide
  length := by decide +kernel

/-- A string can also forge fields: if the last field of the context is a string that ends with `, k = n`, the parser takes that for a field named `k`. It replaces the real field `k`,
if there is one, and the rest of the line is parsed as if this text was not there. -/
theorem comma_forges_field (keyFirst : Bool) (l : Line) (fs : List Field) (key t k : Text) (n : Nat) (hv : ({ l with context := fs ++ [⟨key, .other t⟩] } : Line).Valid)
    (hk : k ≠ []) (hk1 : ' ' ∉ k) (hk2 : ',' ∉ k) (hk3 : '}' ∉ k) (hn : n < 2 ^ 64)
    (hlen : ({ l with context := fs ++ [⟨key, .other (t ++ [',', ' '] ++ k ++ [' ', '=', ' '] ++ dec n ++ ['"'])⟩] } : Line).text.length < 2 ^ 63) :
    ∃ e real, parse keyFirst ({ l with context := fs ++ [⟨key, .other (t ++ [',', ' '] ++ k ++ [' ', '=', ' '] ++ dec n ++ ['"'])⟩] } : Line).text = .ok e ∧
      Faithful keyFirst { l with context := fs ++ [⟨key, .other t⟩] } { e with context := real } ∧
      ∀ k', e.context.lookup k' = if k' = k then some n else real.lookup k' := by
  obtain ⟨b1, hb1⟩ := braces_split l.stream
  obtain ⟨r, hr, hr'⟩ := body_middle fs key t ([',', ' '] ++ k ++ [' ', '=', ' '] ++ dec n ++ ['"']) []
  subst hr'
  have ha : t ++ [',', ' '] ++ k ++ [' ', '=', ' '] ++ dec n ++ ['"'] = t ++ ([',', ' '] ++ k ++ [' ', '=', ' '] ++ dec n ++ ['"']) := by simp
  rw [ha] at hlen ⊢
  generalize hs : ({ l with context := fs ++ [⟨key, .other (t ++ ([',', ' '] ++ k ++ [' ', '=', ' '] ++ dec n ++ ['"']))⟩] } : Line).text = s at hlen
  generalize hfs : fs ++ [⟨key, .other t⟩] = cs at hr hv
  have hcs : cs ≠ [] := by rw [← hfs]; simp
  generalize hb : body cs ++ ',' :: ' ' :: (k ++ ([' ', '=', ' '] ++ (dec n ++ ['"']))) = b
  have hr2 : body (fs ++ [⟨key, .other (t ++ ([',', ' '] ++ k ++ [' ', '=', ' '] ++ dec n ++ ['"']))⟩]) = b := by
    rw [hr, ← hb]
    simp
  have hs' : s = ['['] ++ l.timeText ++ [']', ' '] ++ l.host ++ [' '] ++ l.domain ++ [':'] ++ l.name ++ [':', ' '] ++
    (braces l.stream ++ [',', ' '] ++ (['{', ' '] ++ b ++ [' ', '}']) ++ [',', ' '] ++ braces l.data ++ (if l.newline then ['\n'] else [])) := by
    rw [← hs, ← hr2, ← braces_ne (by simp)]
    simp [Line.text, Line.timeText]
  generalize hnl : (if l.newline then ['\n'] else []) = nl at hs'
  have hnl' : nl.length ≤ 3 ∧ delimiter nl = none := by
    rw [← hnl]
    cases l.newline <;> simp [delimiter]
  have hf := hv.fields
  obtain ⟨hk1', hk2', hk3'⟩ := hv.keys
  simp only at hf hk1' hk2' hk3'
  have hcv : ∀ f ∈ cs, f.Valid := fun f h => hf f (by simp [h])
  have hbb : '}' ∉ b := by
    rw [← hb]
    simp only [List.mem_append, List.mem_cons, not_or]
    exact ⟨body_no_brace cs hcv, by decide, by decide, hk3, ⟨by decide, by decide, by decide, by simp⟩, not_mem_dec (by decide) n, by decide⟩
  have hbl : b.length < 2 ^ 63 := by
    have := congrArg List.length hs'
    simp only [List.length_append, List.length_cons, List.length_nil] at this
    omega
  have hp := parse_head keyFirst l hv.secs hv.nanos hv.host hv.domain hv.name _ s hlen hs'
  obtain ⟨g1, g2, g3, t1, m1, g4, g5, g6⟩ := context_at keyFirst (s := s) ('[' :: l.timeText ++ [']', ' '] ++ l.host ++ [' '] ++ l.domain ++ [':'] ++ l.name ++ [':']) [' '] l.stream
    ([',', ' '] ++ (['{', ' '] ++ b ++ [' ', '}']) ++ [',', ' '] ++ braces l.data ++ nl) (by rw [hs']; simp) (by decide)
    (fun f h => hf f (by simp [h])) hk1' hlen (.inr ⟨_, rfl⟩)
  obtain ⟨i1, i2, i3, i4⟩ := context_raw (s := s) ('[' :: l.timeText ++ [']', ' '] ++ l.host ++ [' '] ++ l.domain ++ [':'] ++ l.name ++ [':', ' '] ++ b1)
    ['}', ',', ' '] b ' ' ([',', ' '] ++ braces l.data ++ nl) (by rw [hs', hb1]; simp) (by decide) hbb (by decide) hlen
  have i5 : processContext keyFirst [] b = .ok (assign (cs.foldl (put keyFirst) []) k n) := by
    rw [← hb] at hbl ⊢
    simp only [List.length_append, List.length_cons] at hbl
    rw [process_append keyFirst _ cs [] hcs hcv (by omega), process_forged keyFirst _ k n hk hk1 hk2 hn (by simp only [List.length_append, List.length_cons]; omega)]
  obtain ⟨j1, j2, j3, t3, m3, j4, j5, j6⟩ := context_at keyFirst (s := s) ('[' :: l.timeText ++ [']', ' '] ++ l.host ++ [' '] ++ l.domain ++ [':'] ++ l.name ++ [':', ' '] ++
    braces l.stream ++ [',', ' '] ++ ['{', ' '] ++ b ++ [' ']) ['}', ',', ' '] l.data nl (by rw [hs']; simp) (by decide)
    (fun f h => hf f (by simp [h])) hk3' hlen (.inl hnl')
  have q1 : ('[' :: l.timeText ++ [']', ' '] ++ l.host ++ [' '] ++ l.domain ++ [':'] ++ l.name ++ [':']).length = 6 + l.timeText.length + l.host.length + l.domain.length + l.name.length := by
    simp; omega
  have q2 : find s ['}'] (add (find s ['{'] (6 + l.timeText.length + l.host.length + l.domain.length + l.name.length)) 1) =
      ('[' :: l.timeText ++ [']', ' '] ++ l.host ++ [' '] ++ l.domain ++ [':'] ++ l.name ++ [':', ' '] ++ b1).length := by
    rw [← q1, g2, hb1]
    simp
    omega
  rw [q1] at g1 g2 g3 g4
  have q3 : find s ['}'] (add (find s ['{'] ('[' :: l.timeText ++ [']', ' '] ++ l.host ++ [' '] ++ l.domain ++ [':'] ++ l.name ++ [':', ' '] ++ b1).length) 1) =
      ('[' :: l.timeText ++ [']', ' '] ++ l.host ++ [' '] ++ l.domain ++ [':'] ++ l.name ++ [':', ' '] ++ braces l.stream ++ [',', ' '] ++ ['{', ' '] ++ b ++ [' ']).length := by
    rw [i2, hb1]
    simp
    omega
  rw [← q2] at i1 i2 i3 i4
  rw [← q3, ← q2] at j1 j2 j3 j4
  refine ⟨{ line := s, time := some (some (Double.nearest (l.secs + l.nanos / 10 ^ 9))), host := l.host, domain := l.domain, name := l.name, stream := m1,
            context := assign (cs.foldl (put keyFirst) []) k n, data := m3 }, cs.foldl (put keyFirst) [], ?_, ⟨rfl, rfl, rfl, rfl, g6, ?_, j6⟩, ?_⟩
  · rw [hp]
    unfold contexts
    simp only
    rw [if_neg (not_or.mpr ⟨g1, g3⟩), g4, ok_bind, if_neg (not_or.mpr ⟨i1, i3⟩), i4, ok_bind, if_neg (not_or.mpr ⟨j1, j3⟩), j4, ok_bind, g5, ok_bind, i5, ok_bind, j5, ok_bind]
  · intro k' n'
    simp only
    rw [holds_foldl keyFirst _ hk2' [] (by simp) k' n']
    simp only [List.lookup_nil, reduceCtorEq, false_or]
    exact Iff.rfl
  · intro k'
    exact lookup_assign _ _ _ _

/-- A process with the id 7 and the name `a, vpid = 1`: its events are those of process 1. -/
example : ({ braced with context := [⟨"vpid".toList, .int 7⟩] ++ [⟨"procname".toList, .other ("\"a".toList ++ [',', ' '] ++ "vpid".toList ++ [' ', '=', ' '] ++ dec 1 ++ ['"'])⟩] } : Line).text =
    "[1.000000000] h d:n: { cpu_id = 2 }, { vpid = 7, procname = \"a, vpid = 1\" }, { id = 5 }\n".toList := by decide +kernel

example : ({ braced with context := [⟨"vpid".toList, .int 7⟩] ++ [⟨"procname".toList, .other "\"a".toList⟩] } : Line).Valid where
  secs := by decide
  nanos := by decide
  host := by decide
  domain := ⟨by decide, by decide⟩
  name := by decide
  fields := by
    intro f hf
    simp only [braced, List.cons_append, List.nil_append, List.mem_cons, List.not_mem_nil, or_false] at hf
    rcases hf with rfl | rfl | rfl | rfl
    · exact ⟨by decide, by decide, by decide, by decide, by decide⟩
    · exact ⟨by decide, by decide, by decide, by decide, by decide⟩
    · exact ⟨by decide, by decide, by decide, by decide, by decide, by decide, '"', ['a'], by decide, by decide, by decide, by decide, by decide⟩
    · exact ⟨by decide, by decide, by decide, by decide, by decide⟩
  keys := by decide
  length := by decide +kernel

/-- **C50 is false in general**: a string field with a closing brace hides the fields after it. -/
theorem not_lines_parsed : ¬ LinesParsed := by
  intro h
  obtain ⟨e, he, hf⟩ := h false braced (by decide) (by decide) (by decide) ⟨by decide, by decide⟩ (by decide)
    (by
      intro f hf
      simp only [braced, List.cons_append, List.nil_append, List.mem_cons, List.not_mem_nil, or_false] at hf
      rcases hf with rfl | rfl | rfl | rfl
      · exact ⟨by decide, by decide⟩
      · exact ⟨by decide, "a}b".toList, by decide, by decide⟩
      · exact ⟨by decide, by decide⟩
      · exact ⟨by decide, by decide⟩)
    (by decide) (by decide +kernel)
  obtain ⟨e', he', hl⟩ := brace_loses_fields false
  rw [he] at he'
  cases he'
  have := (hf.context "vpid".toList 7).mpr ⟨⟨"vpid".toList, .int 7⟩, by simp [braced], rfl, by decide⟩
  rw [hl] at this
  cases this

end Scalopus.C50

namespace Scalopus.C51

open Ctf

/-- **C51, partial.** Whatever the line, parsing it ends with an event or throws `std::out_of_range`, and the latter only if a part of the line is a number that does not fit its type.
Missing: the exception (see `not_tolerant`). -/
theorem any_line_partial (keyFirst : Bool) (line : Text) (hl : line.length < 2 ^ 63) :
    (∃ e, parse keyFirst line = .ok e) ∨
    parse keyFirst line = .throws "out_of_range" ∧ ∃ t, t <:+: line ∧ (stod t = .range ∨ stoull t = .range) := parse_fine keyFirst line hl

theorem of_throws {α : Type} {r : Res α} {x : String} (h : (match r with | .throws y => y == x | _ => false) = true) : r = .throws x := by
  cases r with
  | throws y => exact congrArg _ (beq_iff_eq.mp h)
  | ok e => cases h
  | ub => cases h
  | terminate => cases h

/-- The full claim. -/
def Tolerant : Prop := ∀ (keyFirst : Bool) (line : Text), ∃ e, parse keyFirst line = .ok e

/-- A time of 10^999 seconds. -/
theorem time_throws (keyFirst : Bool) : parse keyFirst "[1e999] h d:n: { }, { }, { }".toList = .throws "out_of_range" := by
  apply of_throws
  cases keyFirst <;> decide +kernel

/-- Every time that is out of range: the exception leaves the constructor, whatever follows. -/
theorem every_such_time_throws (keyFirst : Bool) (t rest : Text) (ht : ']' ∉ t) (hl : t.length < 2 ^ 63) (hr : stod t = .range) :
    parse keyFirst ('[' :: t ++ ']' :: rest) = .throws "out_of_range" := by
  have f1 : find ('[' :: t ++ ']' :: rest) ['['] 0 = 0 := find_char '[' [] [] (t ++ ']' :: rest) (by simp) (by simp) rfl
  have f2 : find ('[' :: t ++ ']' :: rest) [']'] 0 = 1 + t.length := by
    rw [find_char (s := '[' :: t ++ ']' :: rest) (pos := 0) ']' [] ('[' :: t) rest (by simp) (by simp only [List.mem_cons, not_or]; exact ⟨by decide, ht⟩) rfl]
    simp; omega
  unfold parse
  simp only
  rw [if_neg (by simp), f1, f2, if_neg (by unfold npos; omega), add_small (by omega), sub_small (by omega) (by omega),
    substr_mid ['['] t (']' :: rest) (by simp) (by simp) (by omega), ok_bind, hr]

example : stod "1e999".toList = .range := by
  have h : (match stod "1e999".toList with | .range => true | _ => false) = true := by decide +kernel
  revert h
  cases stod "1e999".toList <;> simp

/-- A field of 20 digits. -/
theorem field_throws (keyFirst : Bool) : parse keyFirst "[1.000000000] h d:n: { cpu_id = 2 }, { vpid = 1 }, { id = 99999999999999999999 }".toList = .throws "out_of_range" := by
  apply of_throws
  cases keyFirst <;> decide +kernel

open Spec C50

theorem stoull_too_large (n : Nat) (h : 2 ^ 64 ≤ n) : stoull (dec n ++ ['"']) = .range := by
  unfold stoull dec
  have h1 := head_dec (decimal n) (decimal_lt n) (decimal_ne n) ['"']
  have h2 := digits_append (decimal n) (decimal_lt n) ['"']
  have h3 : digits 10 ['"'] = ([], ['"']) := by decide
  rw [h3, List.append_nil] at h2
  rw [h1]
  simp only [h2]
  rw [if_neg (decimal_ne n), decimal_number, if_pos h]

theorem process_too_large (keyFirst : Bool) (m : IdMap) (k : Text) (n : Nat) (hk : k ≠ []) (hk1 : ' ' ∉ k) (hk2 : ',' ∉ k) (hn : 2 ^ 64 ≤ n)
    (hl : (k ++ ([' ', '=', ' '] ++ (dec n ++ ['"']))).length < 2 ^ 63) :
    processContext keyFirst m (k ++ ([' ', '=', ' '] ++ (dec n ++ ['"']))) = .throws "out_of_range" := by
  have hdel : delimiter (k ++ ([' ', '=', ' '] ++ (dec n ++ ['"']))) = none := by
    have hc : ',' ∉ k ++ ([' ', '=', ' '] ++ (dec n ++ ['"'])) := by
      simp only [List.mem_append, not_or]
      exact ⟨hk2, by decide, not_mem_dec (by decide) n, by decide⟩
    have := delimiter_skip _ [] hc
    rw [List.append_nil] at this
    rw [this]
    rfl
  have hd : dec n ≠ [] := by
    unfold dec
    intro h
    exact decimal_ne n (List.map_eq_nil_iff.mp h)
  generalize hv : dec n ++ ['"'] = v at *
  have hvl : 2 ≤ v.length := by
    rw [← hv]
    have := List.length_pos_iff.mpr hd
    simp only [List.length_append, List.length_singleton]
    omega
  have hkl := List.length_pos_iff.mpr hk
  have hlen : (k ++ ([' ', '=', ' '] ++ v)).length = k.length + 3 + v.length := by simp; omega
  unfold processContext
  rw [hdel]
  simp only
  rw [if_neg (by omega)]
  have hf : find (k ++ ([' ', '=', ' '] ++ v)) " = ".toList 0 = k.length := by
    unfold find
    rw [List.drop_zero]
    have := findIn_eq k v hk1 0
    rw [Nat.zero_add] at this
    exact this
  unfold keyValue
  simp only [hf]
  rw [substr_mid (s := k ++ ([' ', '=', ' '] ++ v)) (pos := 0) [] k ([' ', '=', ' '] ++ v) rfl rfl rfl]
  simp only [Res.bind]
  rw [add_small (by omega)]
  have hs : substr (k ++ ([' ', '=', ' '] ++ v)) (k.length + 3) npos = .ok v := by
    unfold substr
    rw [if_neg (by omega)]
    have : (k ++ ([' ', '=', ' '] ++ v)).drop (k.length + 3) = v := by
      rw [← List.append_assoc]
      have : k.length + 3 = (k ++ [' ', '=', ' ']).length := by simp
      rw [this, List.drop_left]
    rw [this, List.take_of_length_le]
    unfold npos
    omega
  rw [hs, ← hv]
  simp only
  rw [stoull_too_large n hn]

/-- A string of a traced program is enough, whatever the rest of the line: if the last field of the context is a string that ends with `, k = n` where `n` does not fit 64 bits
(a name of a thread is too short for that, a context with a string of the application is not), the parser takes this for a field, and the exception leaves the constructor. -/
theorem every_such_field_throws (keyFirst : Bool) (l : Line) (fs : List Field) (key t k : Text) (n : Nat) (hv : ({ l with context := fs ++ [⟨key, .other t⟩] } : Line).Valid)
    (hk : k ≠ []) (hk1 : ' ' ∉ k) (hk2 : ',' ∉ k) (hk3 : '}' ∉ k) (hn : 2 ^ 64 ≤ n)
    (hlen : ({ l with context := fs ++ [⟨key, .other (t ++ [',', ' '] ++ k ++ [' ', '=', ' '] ++ dec n ++ ['"'])⟩] } : Line).text.length < 2 ^ 63) :
    parse keyFirst ({ l with context := fs ++ [⟨key, .other (t ++ [',', ' '] ++ k ++ [' ', '=', ' '] ++ dec n ++ ['"'])⟩] } : Line).text = .throws "out_of_range" := by
  obtain ⟨b1, hb1⟩ := braces_split l.stream
  obtain ⟨r, hr, hr'⟩ := body_middle fs key t ([',', ' '] ++ k ++ [' ', '=', ' '] ++ dec n ++ ['"']) []
  subst hr'
  have ha : t ++ [',', ' '] ++ k ++ [' ', '=', ' '] ++ dec n ++ ['"'] = t ++ ([',', ' '] ++ k ++ [' ', '=', ' '] ++ dec n ++ ['"']) := by simp
  rw [ha] at hlen ⊢
  generalize hs : ({ l with context := fs ++ [⟨key, .other (t ++ ([',', ' '] ++ k ++ [' ', '=', ' '] ++ dec n ++ ['"']))⟩] } : Line).text = s at hlen
  generalize hfs : fs ++ [⟨key, .other t⟩] = cs at hr hv
  have hcs : cs ≠ [] := by rw [← hfs]; simp
  generalize hb : body cs ++ ',' :: ' ' :: (k ++ ([' ', '=', ' '] ++ (dec n ++ ['"']))) = b
  have hr2 : body (fs ++ [⟨key, .other (t ++ ([',', ' '] ++ k ++ [' ', '=', ' '] ++ dec n ++ ['"']))⟩]) = b := by
    rw [hr, ← hb]
    simp
  have hs' : s = ['['] ++ l.timeText ++ [']', ' '] ++ l.host ++ [' '] ++ l.domain ++ [':'] ++ l.name ++ [':', ' '] ++
    (braces l.stream ++ [',', ' '] ++ (['{', ' '] ++ b ++ [' ', '}']) ++ [',', ' '] ++ braces l.data ++ (if l.newline then ['\n'] else [])) := by
    rw [← hs, ← hr2, ← braces_ne (by simp)]
    simp [Line.text, Line.timeText]
  generalize hnl : (if l.newline then ['\n'] else []) = nl at hs'
  have hnl' : nl.length ≤ 3 ∧ delimiter nl = none := by
    rw [← hnl]
    cases l.newline <;> simp [delimiter]
  have hf := hv.fields
  obtain ⟨hk1', hk2', hk3'⟩ := hv.keys
  simp only at hf hk1' hk2' hk3'
  have hcv : ∀ f ∈ cs, f.Valid := fun f h => hf f (by simp [h])
  have hbb : '}' ∉ b := by
    rw [← hb]
    simp only [List.mem_append, List.mem_cons, not_or]
    exact ⟨body_no_brace cs hcv, by decide, by decide, hk3, ⟨by decide, by decide, by decide, by simp⟩, not_mem_dec (by decide) n, by decide⟩
  have hbl : b.length < 2 ^ 63 := by
    have := congrArg List.length hs'
    simp only [List.length_append, List.length_cons, List.length_nil] at this
    omega
  have hp := parse_head keyFirst l hv.secs hv.nanos hv.host hv.domain hv.name _ s hlen hs'
  obtain ⟨g1, g2, g3, t1, m1, g4, g5, g6⟩ := context_at keyFirst (s := s) ('[' :: l.timeText ++ [']', ' '] ++ l.host ++ [' '] ++ l.domain ++ [':'] ++ l.name ++ [':']) [' '] l.stream
    ([',', ' '] ++ (['{', ' '] ++ b ++ [' ', '}']) ++ [',', ' '] ++ braces l.data ++ nl) (by rw [hs']; simp) (by decide)
    (fun f h => hf f (by simp [h])) hk1' hlen (.inr ⟨_, rfl⟩)
  obtain ⟨i1, i2, i3, i4⟩ := context_raw (s := s) ('[' :: l.timeText ++ [']', ' '] ++ l.host ++ [' '] ++ l.domain ++ [':'] ++ l.name ++ [':', ' '] ++ b1)
    ['}', ',', ' '] b ' ' ([',', ' '] ++ braces l.data ++ nl) (by rw [hs', hb1]; simp) (by decide) hbb (by decide) hlen
  have i5 : processContext keyFirst [] b = .throws "out_of_range" := by
    rw [← hb] at hbl ⊢
    simp only [List.length_append, List.length_cons] at hbl
    rw [process_append keyFirst _ cs [] hcs hcv (by omega), process_too_large keyFirst _ k n hk hk1 hk2 hn (by simp only [List.length_append, List.length_cons]; omega)]
  obtain ⟨j1, j2, j3, t3, m3, j4, j5, j6⟩ := context_at keyFirst (s := s) ('[' :: l.timeText ++ [']', ' '] ++ l.host ++ [' '] ++ l.domain ++ [':'] ++ l.name ++ [':', ' '] ++
    braces l.stream ++ [',', ' '] ++ ['{', ' '] ++ b ++ [' ']) ['}', ',', ' '] l.data nl (by rw [hs']; simp) (by decide)
    (fun f h => hf f (by simp [h])) hk3' hlen (.inl hnl')
  have q1 : ('[' :: l.timeText ++ [']', ' '] ++ l.host ++ [' '] ++ l.domain ++ [':'] ++ l.name ++ [':']).length = 6 + l.timeText.length + l.host.length + l.domain.length + l.name.length := by
    simp; omega
  have q2 : find s ['}'] (add (find s ['{'] (6 + l.timeText.length + l.host.length + l.domain.length + l.name.length)) 1) =
      ('[' :: l.timeText ++ [']', ' '] ++ l.host ++ [' '] ++ l.domain ++ [':'] ++ l.name ++ [':', ' '] ++ b1).length := by
    rw [← q1, g2, hb1]
    simp
    omega
  rw [q1] at g1 g2 g3 g4
  have q3 : find s ['}'] (add (find s ['{'] ('[' :: l.timeText ++ [']', ' '] ++ l.host ++ [' '] ++ l.domain ++ [':'] ++ l.name ++ [':', ' '] ++ b1).length) 1) =
      ('[' :: l.timeText ++ [']', ' '] ++ l.host ++ [' '] ++ l.domain ++ [':'] ++ l.name ++ [':', ' '] ++ braces l.stream ++ [',', ' '] ++ ['{', ' '] ++ b ++ [' ']).length := by
    rw [i2, hb1]
    simp
    omega
  rw [← q2] at i1 i2 i3 i4
  rw [← q3, ← q2] at j1 j2 j3 j4
  rw [hp]
  unfold contexts
  simp only
  rw [if_neg (not_or.mpr ⟨g1, g3⟩), g4, ok_bind, if_neg (not_or.mpr ⟨i1, i3⟩), i4, ok_bind, if_neg (not_or.mpr ⟨j1, j3⟩), j4, ok_bind, g5, ok_bind, i5]
  rfl

/-- A context `app` with the text `a, b = 18446744073709551616`. -/
example : ({ braced with context := [⟨"vpid".toList, .int 7⟩] ++ [⟨"app".toList, .other ("\"a".toList ++ [',', ' '] ++ "b".toList ++ [' ', '=', ' '] ++ dec (2 ^ 64) ++ ['"'])⟩] } : Line).text =
    "[1.000000000] h d:n: { cpu_id = 2 }, { vpid = 7, app = \"a, b = 18446744073709551616\" }, { id = 5 }\n".toList := by decide +kernel

/-- **C51 is false in general.** -/
theorem not_tolerant : ¬ Tolerant := by
  intro h
  obtain ⟨e, he⟩ := h false "[1e999] h d:n: { }, { }, { }".toList
  rw [time_throws] at he
  cases he

end Scalopus.C51
