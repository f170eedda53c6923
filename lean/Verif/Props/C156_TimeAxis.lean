import Verif.Proofs.LttngSource
import Verif.Props.C64_Timestamps

/-!
# C156: one time axis for both backends

The native backend sends nanoseconds since 1970, and its source divides them (`NativeSource.convert`). LTTng's babeltrace prints seconds with nine digits, and its source reads the text and multiplies
(`Ctf.parse`, `LttngSource.convert`). A viewer shows the entries of both sources in one picture.
-/

namespace Scalopus.C156

open Double
open NativeSource (Entry)
open Ctf.Spec (Line)
open Endpoints (TraceMap)

/-! ### Specification -/

/-- The native source makes this entry of an event that was recorded at this number of nanoseconds. -/
def NativeAt (ns : ℕ) (x : Entry) : Prop :=
  ∃ (names : TraceMap) (c c' : NativeSource.Counters) (pid : Int) (tid : Nat) (e : Cbor.Event), e.time = ns ∧ NativeSource.convert names c (.event pid tid e) = .ok (x, c')

/-- The LTTng source makes this entry of a line that babeltrace printed for an event at this number of nanoseconds. -/
def LttngAt (ns : ℕ) (x : Entry) : Prop :=
  ∃ (l : Line) (keyFirst : Bool) (e : Ctf.Event) (names : TraceMap) (c c' : LttngSource.Counters),
    l.Valid ∧ l.secs * 10 ^ 9 + l.nanos = ns ∧ Ctf.parse keyFirst l.text = .ok e ∧ LttngSource.convert names c e = .ok (some x, c')

/-- An event at this time is shown by one of the backends as this entry. -/
def ShownAt (ns : ℕ) (x : Entry) : Prop := NativeAt ns x ∨ LttngAt ns x

/-- The full claim: entries have the order of the events. -/
def OneAxis : Prop := ∀ (a b : ℕ) (x y : Entry), a ≤ b → ShownAt a x → ShownAt b y → x.ts ≤ y.ts

/-! ### Auxiliary -/

/-- The timestamp of an LTTng event. -/
def lts (ns : ℕ) : ℚ := nearest (nearest ((ns : ℚ) / 10 ^ 9) * 10 ^ 6)

theorem native_ts {ns : ℕ} {x : Entry} (h : NativeAt ns x) : x.ts = ts ns := by
  obtain ⟨names, c, c', pid, tid, e, rfl, h⟩ := h
  unfold NativeSource.convert at h
  simp only at h
  repeat' split at h
  all_goals first
    | (cases h; rfl)
    | cases h

theorem lttng_ts {ns : ℕ} {x : Entry} (h : LttngAt ns x) : x.ts = lts ns := by
  obtain ⟨l, keyFirst, e, names, c, c', hv, rfl, hp, h⟩ := h
  have ht := (LttngSource.parsed_line hv hp).time
  have e1 : ((l.secs * 10 ^ 9 + l.nanos : ℕ) : ℚ) / 10 ^ 9 = l.secs + l.nanos / 10 ^ 9 := by push_cast; field_simp; norm_num
  rw [lts, e1, ← LttngSource.micros_time]
  unfold LttngSource.convert at h
  rw [ht] at h
  simp only at h
  split at h
  · cases h1 : LttngSource.find e.context "pthread_id".toList with
    | ok tid =>
      rw [h1] at h
      cases h2 : LttngSource.find e.context "vpid".toList with
      | ok pid =>
        rw [h2] at h
        simp only [Res.bind] at h
        split at h
        · cases h3 : LttngSource.find e.data "value".toList with
          | ok v => rw [h3] at h; cases h; rfl
          | throws _ => rw [h3] at h; cases h
          | ub => rw [h3] at h; cases h
          | terminate => rw [h3] at h; cases h
        · cases h; rfl
      | throws _ => rw [h2] at h; cases h
      | ub => rw [h2] at h; cases h
      | terminate => rw [h2] at h; cases h
    | throws _ => rw [h1] at h; cases h
    | ub => rw [h1] at h; cases h
    | terminate => rw [h1] at h; cases h
  · cases h

theorem lts_accurate (ns : ℕ) : |lts ns - ns / 1000| ≤ (ns : ℚ) / 1000 / 2 ^ 51 := by
  unfold lts
  have h0 : (0 : ℚ) ≤ (ns : ℚ) / 10 ^ 9 := by positivity
  have h1 := nearest_near h0
  have h2 : (0 : ℚ) ≤ nearest ((ns : ℚ) / 10 ^ 9) * 10 ^ 6 := by have := nearest_nonneg h0; positivity
  have h3 := nearest_near h2
  rw [abs_le] at h1 h3 ⊢
  obtain ⟨a1, a2⟩ := h1
  obtain ⟨b1, b2⟩ := h3
  generalize nearest (nearest ((ns : ℚ) / 10 ^ 9) * 10 ^ 6) = r at *
  generalize nearest ((ns : ℚ) / 10 ^ 9) = q at *
  have hn : (0 : ℚ) ≤ ns := by positivity
  generalize (ns : ℚ) = n at *
  constructor <;> linarith

theorem lts_mono {a b : ℕ} (h : a ≤ b) : lts a ≤ lts b := by
  unfold lts
  have hq : (a : ℚ) ≤ b := by exact_mod_cast h
  have h1 : nearest ((a : ℚ) / 10 ^ 9) ≤ nearest ((b : ℚ) / 10 ^ 9) := nearest_mono (by positivity) (by linarith)
  apply nearest_mono
  · have := nearest_nonneg (x := (a : ℚ) / 10 ^ 9) (by positivity)
    positivity
  · linarith

/-- The nearest double, if one is closer than half the distance of two doubles. -/
theorem nearest_eq {x : ℚ} (k m : ℤ) (h1 : (2 : ℚ) ^ k ≤ x) (h2 : x < 2 ^ (k + 1)) (h3 : |x / 2 ^ (k - 52) - m| < 1 / 2) : nearest x = m * 2 ^ (k - 52) := by
  have hx : 0 < x := lt_of_lt_of_le (zpow_pos (by norm_num) _) h1
  have hl : Int.log 2 x = k := by
    apply le_antisymm
    · have := (Int.lt_zpow_iff_log_lt (b := 2) (by decide) hx (x := k + 1)).1 (by exact_mod_cast h2)
      omega
    · exact (Int.zpow_le_iff_le_log (b := 2) (by decide) hx).1 (by exact_mod_cast h1)
  unfold nearest
  simp only [hl]
  congr 1
  have hn := roundEven_near (x / 2 ^ (k - 52))
  have : |(roundEven (x / 2 ^ (k - 52)) : ℚ) - m| < 1 := by
    rw [abs_lt] at h3 ⊢
    rw [abs_le] at hn
    constructor <;> linarith [h3.1, h3.2, hn.1, hn.2]
  have hi : |roundEven (x / 2 ^ (k - 52)) - m| < 1 := by exact_mod_cast this
  have : roundEven (x / 2 ^ (k - 52)) = m := by
    rw [abs_lt] at hi
    omega
  rw [this]

/-! ### The property -/

/-- Every event can be shown: by the native source if it has one of the codes of a scope or mark, by the LTTng source if it was printed with its contexts. -/
theorem shown (ns : ℕ) (h : ns < 2 ^ 64) : (∃ x, NativeAt ns x) ∧ ∃ x, LttngAt ns x := by
  constructor
  · exact ⟨_, [], [], _, 7, 8, ⟨ns, 9, 1, none⟩, rfl, rfl⟩
  · let m : LttngSource.Spec.Traced := ⟨ns / 10 ^ 9, ns % 10 ^ 9, "host".toList, 0, 7, 8, 9, .entry⟩
    have hm : m.Valid := ⟨by show ns / 10 ^ 9 < 2 ^ 64; omega, by show ns % 10 ^ 9 < 10 ^ 9; omega, by show ' ' ∉ "host".toList ∧ "host".toList.length < 2 ^ 32; decide, by show 0 < 2 ^ 32; decide,
      by show 7 < 2 ^ 31; decide, by show 8 < 2 ^ 64; decide, by show 9 < 2 ^ 32; decide, fun z hz => by cases hz⟩
    obtain ⟨e, h1, h2⟩ := C50.lines_parsed_partial true m.line (LttngSource.line_valid hm)
    obtain ⟨x, c', h3, _⟩ := LttngSource.convert_traced [] [] hm h2
    exact ⟨x, m.line, true, e, [], [], c', LttngSource.line_valid hm, by show ns / 10 ^ 9 * 10 ^ 9 + ns % 10 ^ 9 = ns; omega, h1, h3⟩

/-- **C156, accuracy.** Whichever backend recorded an event, its timestamp in microseconds differs from its time by at most one part in 2^51. -/
theorem accurate (ns : ℕ) (x : Entry) (h : ShownAt ns x) : |x.ts - ns / 1000| ≤ (ns : ℚ) / 1000 / 2 ^ 51 := by
  rcases h with h | h
  · rw [native_ts h]; exact C64.timestamps_accurate ns
  · rw [lttng_ts h]; exact lts_accurate ns

/-- **C156, the same time.** Two events of the same time are shown at most one part in 2^50 apart. -/
theorem same_time (ns : ℕ) (x y : Entry) (hx : ShownAt ns x) (hy : ShownAt ns y) : |x.ts - y.ts| ≤ (ns : ℚ) / 1000 / 2 ^ 50 := by
  have h1 := accurate ns x hx
  have h2 := accurate ns y hy
  rw [abs_le] at *
  constructor <;> linarith [h1.1, h1.2, h2.1, h2.2]

/-- **C156, within one backend.** Events of the same backend are never shown in the wrong order, and those of the same time are shown at the same time. -/
theorem order_within (a b : ℕ) (x y : Entry) (h : a ≤ b) (hs : NativeAt a x ∧ NativeAt b y ∨ LttngAt a x ∧ LttngAt b y) : x.ts ≤ y.ts ∧ (a = b → x.ts = y.ts) := by
  rcases hs with ⟨h1, h2⟩ | ⟨h1, h2⟩
  · rw [native_ts h1, native_ts h2]
    exact ⟨C64.timestamps_monotone a b h, fun e => by rw [e]⟩
  · rw [lttng_ts h1, lttng_ts h2]
    exact ⟨lts_mono h, fun e => by rw [e]⟩

/-- **C156, partial.** Events that are more than one part in 2^50 apart (1.5 microseconds, fifty years after 1970) are shown in their strict order, whichever backends recorded them. Missing: closer events
of different backends, see `not_one_axis`. -/
theorem one_axis_partial (a b : ℕ) (x y : Entry) (h : (a : ℚ) + b / 2 ^ 50 < b) (hx : ShownAt a x) (hy : ShownAt b y) : x.ts < y.ts := by
  have h1 := (abs_le.mp (accurate a x hx)).2
  have h2 := (abs_le.mp (accurate b y hy)).1
  have ha : (0 : ℚ) ≤ a := by positivity
  have hb : (0 : ℚ) ≤ b := by positivity
  linarith

/-- Two events that satisfy this, in 2020. -/
example : ((1600000000000000000 : ℕ) : ℚ) + (1600000000000002000 : ℕ) / 2 ^ 50 < (1600000000000002000 : ℕ) := by norm_num

/-- **C156 is violated** in both directions: an event of the native backend is shown after one of LTTng that happened 213 ns later. -/
theorem native_too_late (x y : Entry) (hx : NativeAt 1600000000572229767 x) (hy : LttngAt 1600000000572229980 y) : y.ts < x.ts := by
  rw [native_ts hx, lttng_ts hy, ts, lts,
    nearest_eq (x := ((1600000000572229767 : ℕ) : ℚ)) 60 6250000002235273 (by norm_num) (by norm_num) (by norm_num [abs_lt]),
    nearest_eq (x := ((1600000000572229980 : ℕ) : ℚ) / 10 ^ 9) 30 6710886402400106 (by norm_num) (by norm_num) (by norm_num [abs_lt]),
    nearest_eq 50 6400000002288919 (by norm_num) (by norm_num) (by norm_num [abs_lt]),
    nearest_eq 50 6400000002288920 (by norm_num) (by norm_num) (by norm_num [abs_lt])]
  norm_num

/-- And an event of LTTng after one of the native backend that happened 200 ns later. -/
theorem lttng_too_late (x y : Entry) (hx : LttngAt 1600000000237882280 x) (hy : NativeAt 1600000000237882480 y) : y.ts < x.ts := by
  rw [native_ts hy, lttng_ts hx, ts, lts,
    nearest_eq (x := ((1600000000237882480 : ℕ) : ℚ)) 60 6250000000929228 (by norm_num) (by norm_num) (by norm_num [abs_lt]),
    nearest_eq (x := ((1600000000237882280 : ℕ) : ℚ) / 10 ^ 9) 30 6710886400997751 (by norm_num) (by norm_num) (by norm_num [abs_lt]),
    nearest_eq 50 6400000000951529 (by norm_num) (by norm_num) (by norm_num [abs_lt]),
    nearest_eq 50 6400000000951530 (by norm_num) (by norm_num) (by norm_num [abs_lt])]
  norm_num

/-- **C156 is false in general.** -/
theorem not_one_axis : ¬ OneAxis := by
  intro h
  obtain ⟨x, hx⟩ := (shown 1600000000572229767 (by norm_num)).1
  obtain ⟨y, hy⟩ := (shown 1600000000572229980 (by norm_num)).2
  exact absurd (h _ _ x y (by norm_num) (.inl hx) (.inr hy)) (not_le.2 (native_too_late x y hx hy))

end Scalopus.C156
