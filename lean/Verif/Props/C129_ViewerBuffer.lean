import Verif.Model.ViewerBuffer
import Verif.Props.C37_Session

/-!
# C129: an ended recording reaches the viewer whole

What the viewer reads in the bytes that arrive is always a beginning of what the session sent. All of it arrives if it fits into the buffer of the connection, or if the viewer keeps up. A recording that does
not fit closes the connection.
-/

namespace Scalopus.C129

open ViewerBuffer

/-! ## Specification: how a viewer reads the bytes that arrive (RFC 6455) -/

/-- The number with these bytes, most significant first. -/
def number (b : Bytes) : Nat := b.foldl (fun n x => 256 * n + x.toNat) 0

/-- A text of `n` bytes, and the rest. -/
def text (n : Nat) (b : Bytes) : Option (Bytes × Bytes) := if b.length < n then none else some (b.take n, b.drop n)

/-- The first frame, if it is there as a whole: the text and the rest. -/
def first : Bytes → Option (Bytes × Bytes)
  | 0x81 :: l :: b =>
    if l.toNat < 126 then text l.toNat b
    else if l = 126 then (if b.length < 2 then none else text (number (b.take 2)) (b.drop 2))
    else if l = 127 then (if b.length < 8 then none else text (number (b.take 8)) (b.drop 8))
    else none
  | _ => none

/-- The texts that have arrived as a whole. -/
def arrived : Nat → Bytes → List Bytes
  | 0, _ => []
  | fuel + 1, b => match first b with
    | some (t, r) => t :: arrived fuel r
    | none => []

/-- The texts that a viewer has got: every frame takes at least two bytes. -/
def got (c : Conn) : List Bytes := arrived c.wire.length c.wire

/-- The texts that a history sends. -/
def sent (acts : List Act) : List Bytes := acts.filterMap fun a => match a with | .send p => some p | .drain _ => none

/-- The bytes that these texts take in the buffer. -/
def size (ps : List Bytes) : Nat := (ps.map fun p => (frame p).length).sum

/-! ## Lemmas -/

theorem big_length (k n : Nat) : (big k n).length = k := by
  induction k generalizing n with
  | zero => rfl
  | succ k ih => simp [big, ih]

theorem number_big (k n : Nat) (h : n < 256 ^ k) : number (big k n) = n := by
  induction k generalizing n with
  | zero => simp at h; simp [big, number, h]
  | succ k ih =>
    have h2 : n / 256 < 256 ^ k := by
      rw [Nat.pow_succ] at h
      exact Nat.div_lt_of_lt_mul (by omega)
    have := ih _ h2
    unfold number at this ⊢
    rw [big, List.foldl_append, this]
    simp
    omega

theorem text_append (p r : Bytes) : text p.length (p ++ r) = some (p, r) := by simp [text]

theorem first_frame (p r : Bytes) (hp : p.length < 2 ^ 64) : first (frame p ++ r) = some (p, r) := by
  unfold frame header
  by_cases h1 : p.length < 126
  · have e : (UInt8.ofNat p.length).toNat = p.length := by simp; omega
    simp only [h1, if_true, List.cons_append, List.nil_append, first, e, text_append]
  · by_cases h2 : p.length < 65536
    · have hn : number (big 2 p.length) = p.length := number_big 2 _ (by omega)
      have ht : (big 2 p.length ++ p ++ r).take 2 = big 2 p.length := by
        rw [List.append_assoc, List.take_append_of_le_length (by rw [big_length]; omega), List.take_of_length_le (by rw [big_length]; omega)]
      have hd : (big 2 p.length ++ p ++ r).drop 2 = p ++ r := by
        rw [List.append_assoc, List.drop_append, big_length]
        simp [List.drop_of_length_le, big_length]
      have hl : ¬ (big 2 p.length ++ p ++ r).length < 2 := by simp [big_length]
      simp only [h1, h2, if_true, if_false, List.cons_append, first]
      rw [if_neg (by decide), if_neg hl, ht, hd, hn, text_append]
    · have hn : number (big 8 p.length) = p.length := number_big 8 _ (by omega)
      have ht : (big 8 p.length ++ p ++ r).take 8 = big 8 p.length := by
        rw [List.append_assoc, List.take_append_of_le_length (by rw [big_length]; omega), List.take_of_length_le (by rw [big_length]; omega)]
      have hd : (big 8 p.length ++ p ++ r).drop 8 = p ++ r := by
        rw [List.append_assoc, List.drop_append, big_length]
        simp [List.drop_of_length_le, big_length]
      have hl : ¬ (big 8 p.length ++ p ++ r).length < 8 := by simp [big_length]
      simp only [h1, h2, if_false, List.cons_append, first]
      rw [if_neg (by decide), if_neg (by decide), if_pos trivial, if_neg hl, ht, hd, hn, text_append]

theorem text_more {n : Nat} {b t r : Bytes} (x : Bytes) (h : text n b = some (t, r)) : text n (b ++ x) = some (t, r ++ x) := by
  unfold text at h ⊢
  split at h
  · cases h
  · injection h with h
    injection h with h1 h2
    rw [if_neg (by rw [List.length_append]; omega), ← h1, ← h2, List.take_append_of_le_length (by omega), List.drop_append_of_le_length (by omega)]

theorem first_more {b t r : Bytes} (x : Bytes) (h : first b = some (t, r)) : first (b ++ x) = some (t, r ++ x) := by
  unfold first at h
  split at h
  · rename_i l b
    simp only [List.cons_append, first]
    split at h
    · rename_i hl
      rw [if_pos hl]
      exact text_more x h
    · rename_i hl
      rw [if_neg hl]
      split at h
      · rename_i h6
        rw [if_pos h6]
        split at h
        · cases h
        · rename_i h2
          rw [if_neg (by rw [List.length_append]; omega), List.take_append_of_le_length (by omega), List.drop_append_of_le_length (by omega)]
          exact text_more x h
      · rename_i h6
        rw [if_neg h6]
        split at h
        · rename_i h7
          rw [if_pos h7]
          split at h
          · cases h
          · rename_i h2
            rw [if_neg (by rw [List.length_append]; omega), List.take_append_of_le_length (by omega), List.drop_append_of_le_length (by omega)]
            exact text_more x h
        · cases h
  · cases h

theorem first_shorter {b t r : Bytes} (h : first b = some (t, r)) : r.length < b.length := by
  have key : ∀ (n : Nat) (b : Bytes), text n b = some (t, r) → r.length ≤ b.length := by
    intro n b h
    unfold text at h
    split at h
    · cases h
    · injection h with h
      injection h with h1 h2
      rw [← h2, List.length_drop]
      omega
  unfold first at h
  split at h
  · rename_i l b
    simp only [List.length_cons]
    split at h
    · have := key _ _ h; omega
    · split at h
      · split at h
        · cases h
        · have := key _ _ h
          rw [List.length_drop] at this
          omega
      · split at h
        · split at h
          · cases h
          · have := key _ _ h
            rw [List.length_drop] at this
            omega
        · cases h
  · cases h

/-- Reading a beginning of frames gives a beginning of their texts. -/
theorem arrived_prefix (fuel : Nat) (w x : Bytes) (ps : List Bytes) (hp : ∀ p ∈ ps, p.length < 2 ^ 64) (h : w ++ x = (ps.map frame).flatten) : arrived fuel w <+: ps := by
  induction fuel generalizing w ps with
  | zero => exact List.nil_prefix
  | succ fuel ih =>
    simp only [arrived]
    cases hf : first w with
    | none => exact List.nil_prefix
    | some y =>
      obtain ⟨t, r⟩ := y
      simp only
      have hm := first_more x hf
      rw [h] at hm
      cases ps with
      | nil => simp [first] at hm
      | cons p ps =>
        rw [List.map_cons, List.flatten_cons, first_frame p _ (hp p (by simp))] at hm
        simp only [Option.some.injEq, Prod.mk.injEq] at hm
        rw [hm.1]
        exact List.cons_prefix_cons.2 ⟨rfl, ih r ps (fun q hq => hp q (by simp [hq])) hm.2.symm⟩

/-- Reading all frames gives all texts. -/
theorem arrived_all (fuel : Nat) (ps : List Bytes) (hp : ∀ p ∈ ps, p.length < 2 ^ 64) (hf : ps.length ≤ fuel) : arrived fuel (ps.map frame).flatten = ps := by
  induction ps generalizing fuel with
  | nil => cases fuel <;> simp [arrived, first]
  | cons p ps ih =>
    obtain ⟨f, rfl⟩ : ∃ f, fuel = f + 1 := ⟨fuel - 1, by simp at hf; omega⟩
    simp only [arrived]
    rw [List.map_cons, List.flatten_cons, first_frame p _ (hp p (by simp))]
    simp only
    rw [ih f (fun q hq => hp q (by simp [hq])) (by simp at hf; omega)]

theorem frame_pos (p : Bytes) : 2 ≤ (frame p).length := by
  unfold frame header
  split
  · simp
  · split <;> simp [big_length] <;> omega

theorem length_le_frames (ps : List Bytes) : ps.length ≤ (ps.map frame).flatten.length := by
  induction ps with
  | nil => simp
  | cons p ps ih =>
    have := frame_pos p
    simp only [List.map_cons, List.flatten_cons, List.length_append, List.length_cons]
    omega

theorem frames_length (ps : List Bytes) : (ps.map frame).flatten.length = size ps := by
  induction ps with
  | nil => rfl
  | cons p ps ih => simp [size, ih, List.length_append] at ih ⊢

/-- What is in the buffer and on the wire. -/
structure Inv (c : Conn) (cap : Nat) (acts : List Act) : Prop where
  cap_eq : c.cap = cap
  taken : ∃ ps, ps <+: sent acts ∧ c.wire ++ c.out = (ps.map frame).flatten ∧ (c.isOpen = true → ps = sent acts)

theorem inv_run (cap : Nat) (acts : List Act) : Inv (run { cap := cap } acts) cap acts := by
  have key : ∀ (acts done : List Act) (c : Conn), Inv c cap done → Inv (run c acts) cap (done ++ acts) := by
    intro acts
    induction acts with
    | nil => intro done c h; simpa [run] using h
    | cons a acts ih =>
      intro done c h
      have : done ++ a :: acts = (done ++ [a]) ++ acts := by simp
      rw [this, run, List.foldl_cons]
      apply ih
      obtain ⟨h1, ps, h2, h3, h4⟩ := h
      have hs : sent (done ++ [a]) = sent done ++ sent [a] := by simp [sent]
      have hmono : ps <+: sent (done ++ [a]) := by rw [hs]; exact h2.trans (List.prefix_append _ _)
      cases a with
      | drain k =>
        have e : sent [Act.drain k] = [] := rfl
        rw [e, List.append_nil] at hs
        simp only [step]
        split
        · exact ⟨h1, ps, hmono, by simp [h3], fun ho => by rw [hs]; exact h4 ho⟩
        · exact ⟨h1, ps, hmono, h3, fun ho => by rw [hs]; exact h4 ho⟩
      | send p =>
        have e : sent [Act.send p] = [p] := rfl
        rw [e] at hs
        simp only [step]
        split
        · rename_i ho
          split
          · refine ⟨h1, sent done ++ [p], by rw [hs]; exact List.prefix_refl _, ?_, fun _ => hs.symm⟩
            rw [h4 ho] at h3
            simp only [List.map_append, List.map_cons, List.map_nil, List.flatten_append, List.flatten_cons, List.flatten_nil, List.append_nil]
            rw [← h3, List.append_assoc]
          · exact ⟨h1, ps, hmono, h3, fun ho => by simp at ho⟩
        · rename_i ho
          exact ⟨h1, ps, hmono, h3, fun ho' => absurd ho' ho⟩
  have := key acts [] { cap := cap } ⟨rfl, [], by simp [sent], by simp, fun _ => rfl⟩
  simpa using this

/-! ## Theorems -/

/-- Whatever happens: what the viewer gets is a beginning of what was sent. No text is cut, changed, repeated or left out before another. -/
theorem got_prefix (cap : Nat) (acts : List Act) (h : ∀ p ∈ sent acts, p.length < 2 ^ 64) : got (run { cap := cap } acts) <+: sent acts := by
  obtain ⟨_, ps, h2, h3, _⟩ := inv_run cap acts
  exact (arrived_prefix _ _ _ ps (fun p hp => h p (h2.subset hp)) h3).trans h2

/-- As long as the connection is open nothing is lost: what is not on the wire is in the buffer, and when that is empty the viewer has got everything. -/
theorem open_loses_nothing (cap : Nat) (acts : List Act) (h : ∀ p ∈ sent acts, p.length < 2 ^ 64) (ho : (run { cap := cap } acts).isOpen = true) :
    (∀ k, (run { cap := cap } acts).out.length ≤ k → got (run { cap := cap } (acts ++ [.drain k])) = sent acts) := by
  intro k hk
  obtain ⟨_, ps, h2, h3, h4⟩ := inv_run cap acts
  have e : run { cap := cap } (acts ++ [.drain k]) = step (run { cap := cap } acts) (.drain k) := by simp [run]
  rw [e]
  simp only [step, ho, if_true, got]
  rw [List.take_of_length_le hk, h3, h4 ho]
  exact arrived_all _ _ h (length_le_frames _)

/-- The connection is closed by exactly those texts that do not fit. -/
theorem closes_iff (c : Conn) (p : Bytes) (ho : c.isOpen = true) : (step c (.send p)).isOpen = false ↔ c.cap ≤ c.out.length + (frame p).length := by
  simp only [step, ho, if_true]
  split
  · simp [ho]; omega
  · simp; omega

/-- A closed connection stays closed, and nothing more arrives. -/
theorem closed_is_final (c : Conn) (acts : List Act) (h : c.isOpen = false) : run c acts = c := by
  induction acts with
  | nil => rfl
  | cons a acts ih =>
    have : step c a = c := by cases a <;> simp [step, h]
    rw [run, List.foldl_cons, this]
    exact ih

theorem run_append (c : Conn) (a b : List Act) : run c (a ++ b) = run (run c a) b := by simp [run]

theorem out_le (cap : Nat) (acts : List Act) : (run { cap := cap } acts).out.length ≤ size (sent acts) := by
  obtain ⟨_, ps, ⟨q, h2⟩, h3, _⟩ := inv_run cap acts
  have := congrArg List.length h3
  rw [frames_length, List.length_append] at this
  have e : size (sent acts) = size ps + size q := by rw [← h2]; simp [size]
  omega

/-- What fits into the buffer as a whole arrives, however slowly the viewer reads. -/
theorem small_recording_arrives_partial (cap : Nat) (acts : List Act) (h : size (sent acts) < cap) : (run { cap := cap } acts).isOpen = true := by
  have key : ∀ n, ∀ l, l.length = n → size (sent l) < cap → (run { cap := cap } l).isOpen = true := by
    intro n
    induction n with
    | zero => intro l hl _; rw [List.length_eq_zero_iff.1 hl]; rfl
    | succ n ih =>
      intro l hl hs
      have hne : l ≠ [] := fun e => by rw [e] at hl; simp at hl
      obtain ⟨l', a, rfl⟩ : ∃ l' a, l = l' ++ [a] := ⟨l.dropLast, l.getLast hne, (List.dropLast_concat_getLast hne).symm⟩
      have hs' : sent (l' ++ [a]) = sent l' ++ sent [a] := by simp [sent]
      have hsz : size (sent (l' ++ [a])) = size (sent l') + size (sent [a]) := by rw [hs']; simp [size]
      have ho := ih l' (by simpa using hl) (by omega)
      rw [run_append]
      show (step (run { cap := cap } l') a).isOpen = true
      cases a with
      | drain k => simp [step, ho]
      | send p =>
        have e : sent [Act.send p] = [p] := rfl
        rw [e] at hsz
        have e2 : size [p] = (frame p).length := by simp [size]
        have := out_le cap l'
        have hc : (run { cap := cap } l').cap = cap := (inv_run cap l').cap_eq
        simp only [step, ho, if_true]
        rw [if_pos (by rw [hc]; omega)]
  exact key _ acts rfl h

/-- A viewer that reads nothing loses the connection exactly if not everything fits. -/
theorem idle_viewer (cap : Nat) (ps : List Bytes) (hc : 0 < cap) : (run { cap := cap } (ps.map .send)).isOpen = decide (size ps < cap) := by
  have key : ∀ (ps : List Bytes) (c : Conn), c.isOpen = true → c.out.length < c.cap → (run c (ps.map .send)).isOpen = decide (c.out.length + size ps < c.cap) := by
    intro ps
    induction ps with
    | nil => intro c ho hl; simp [run, ho, size, hl]
    | cons p ps ih =>
      intro c ho hl
      have e : size (p :: ps) = (frame p).length + size ps := by simp [size]
      rw [List.map_cons, run, List.foldl_cons]
      by_cases hf : c.out.length + (frame p).length < c.cap
      · have hs : step c (.send p) = { c with out := c.out ++ frame p } := by simp [step, ho, hf]
        rw [hs]
        have := ih { c with out := c.out ++ frame p } ho (by simpa using hf)
        rw [run] at this
        rw [this, e]
        simp [Nat.add_assoc]
      · have hs : step c (.send p) = { c with isOpen := false } := by simp [step, ho, hf]
        rw [hs]
        have := closed_is_final { c with isOpen := false } (ps.map .send) rfl
        rw [run] at this
        rw [this, e]
        simp
        omega
  have := key ps { cap := cap } rfl (by simpa using hc)
  simpa using this

/-- A viewer that has read everything before the next text is sent gets everything, however much it is in total, as long as each text fits. -/
theorem keeping_up_arrives_partial (cap : Nat) (ps : List Bytes) (h : ∀ p ∈ ps, (frame p).length < cap) :
    let acts := ps.flatMap fun p => [Act.send p, .drain (frame p).length]
    (run { cap := cap } acts).isOpen = true ∧ (run { cap := cap } acts).out = [] := by
  have key : ∀ (ps : List Bytes) (c : Conn), (∀ p ∈ ps, (frame p).length < c.cap) → c.isOpen = true → c.out = [] →
      (run c (ps.flatMap fun p => [Act.send p, .drain (frame p).length])).isOpen = true ∧ (run c (ps.flatMap fun p => [Act.send p, .drain (frame p).length])).out = [] := by
    intro ps
    induction ps with
    | nil => intro c _ ho hl; exact ⟨ho, hl⟩
    | cons p ps ih =>
      intro c hp ho hl
      have hf := hp p (by simp)
      rw [List.flatMap_cons, run_append]
      apply ih
      · intro q hq
        have : (run c [Act.send p, .drain (frame p).length]).cap = c.cap := by simp [run, step, ho, hl, hf]
        rw [this]
        exact hp q (by simp [hq])
      · simp [run, step, ho, hl, hf]
      · simp [run, step, ho, hl, hf]
  exact key ps { cap := cap } h rfl rfl

/-- A text that does not fit into the empty buffer closes every connection, however fast the viewer reads: neither it nor anything sent later arrives. -/
theorem large_text_closes (cap : Nat) (before after : List Act) (p : Bytes) (h : cap ≤ (frame p).length) (hb : ∀ q ∈ sent before, q.length < 2 ^ 64) :
    got (run { cap := cap } (before ++ .send p :: after)) <+: sent before := by
  have hc : (run { cap := cap } before).cap = cap := (inv_run cap before).cap_eq
  have e : before ++ .send p :: after = before ++ ([.send p] ++ after) := by simp
  have h2 : run { cap := cap } (before ++ .send p :: after) = run (step (run { cap := cap } before) (.send p)) after := by
    rw [e, run_append, run_append]
    rfl
  have hclosed : (step (run { cap := cap } before) (.send p)).isOpen = false ∧ (step (run { cap := cap } before) (.send p)).wire = (run { cap := cap } before).wire := by
    simp only [step]
    split
    · rw [if_neg (by rw [hc]; omega)]
      exact ⟨rfl, rfl⟩
    · rename_i ho
      exact ⟨by simpa using ho, rfl⟩
  rw [h2, closed_is_final _ after hclosed.1, got, hclosed.2]
  exact got_prefix cap before hb

/-! ## Recordings -/

open JsonText (Str J Text Clean)
open Session (processMessage HasMethod lit member dataMessage Eff)

/-- An ended recording that fits: the viewer gets the reply, all events once and in order in data messages, and the completion message, however slowly it reads. -/
theorem recording_arrives_partial (m : List (Str × J)) (hm : Clean (.obj m)) (he : HasMethod m "Tracing.end") (results : List (List J)) (h : ∀ l ∈ results, ∀ j ∈ l, Clean j)
    (cap : Nat) (acts : List Act) (hs : sent acts = sends (processMessage (results.map .ok) (some (.obj m))).1) (hfit : size (sent acts) < cap) (hlen : ∀ p ∈ sent acts, p.length < 2 ^ 64)
    (k : Nat) (hk : size (sent acts) ≤ k) :
    ∃ (reply : Text) (texts : List Text) (chunks : List (List J)) (done : Text),
      got (run { cap := cap } (acts ++ [.drain k])) = utf8 reply :: texts.map utf8 ++ [utf8 done] ∧
      JsonText.read reply = some (.obj [(lit "id", member m "id"), (lit "result", .null)]) ∧
      texts.map JsonText.read = chunks.map (fun c => some (dataMessage c)) ∧ chunks.flatten = results.flatten ∧
      JsonText.read done = some (.obj [(lit "method", .str (lit "Tracing.tracingComplete")), (lit "params", .arr [])]) := by
  obtain ⟨reply, texts, chunks, done, h1, h2, h3, h4, _, h6⟩ := C37.end_exact m hm he results h
  refine ⟨reply, texts, chunks, done, ?_, h2, h3, h4, h6⟩
  rw [open_loses_nothing cap acts hlen (small_recording_arrives_partial cap acts hfit) k (Nat.le_trans (out_le cap acts) hk), hs, h1]
  have hno : ∀ (n : Nat) (f : Nat → Eff), (∀ i t, f i ≠ .send t) → sends ((List.range n).map f) = [] := by
    intro n f hf
    simp only [sends, List.filterMap_map, List.filterMap_eq_nil_iff]
    intro i _
    have := hf i
    cases hfi : f i with
    | send t => exact absurd hfi (this t)
    | _ => simp [hfi]
  have ha : ∀ a b, sends (a ++ b) = sends a ++ sends b := by intro a b; simp [sends]
  have ht : ∀ ts : List Text, sends (ts.map .send) = ts.map utf8 := by
    intro ts
    induction ts with
    | nil => rfl
    | cons t ts ih => simp [sends] at ih ⊢
  simp only [ha]
  rw [hno _ _ (by simp), hno _ _ (by simp), ht]
  simp [sends]

/-- Different texts have different bytes: the viewer can read them. -/
theorem utf8_injective (s t : Text) (h : utf8 s = utf8 t) : s = t := by
  have h1 : List.utf8Encode s = List.utf8Encode t := by
    unfold List.utf8Encode
    exact congrArg List.toByteArray h
  have h2 : (String.ofList s).toByteArray = (String.ofList t).toByteArray := by rw [String.toByteArray_ofList, String.toByteArray_ofList, h1]
  have h3 := String.toByteArray_inj.1 h2
  have := congrArg String.toList h3
  simpa using this

theorem utf8_length (t : Text) : t.length ≤ (utf8 t).length := by
  induction t with
  | nil => simp
  | cons c t ih =>
    have : 0 < (String.utf8EncodeChar c).length := List.length_pos_iff.2 String.utf8EncodeChar_ne_nil
    simp only [utf8, List.flatMap_cons, List.length_append, List.length_cons] at ih ⊢
    omega

/-- An event whose name has `n` letters. -/
def named (n : Nat) : J := .obj [(lit "name", .str (some (List.replicate n 'a')))]

theorem named_clean (n : Nat) : Clean (named n) := by
  refine .obj _ ?_ ?_
  · simp [lit]
  · intro m hm
    simp only [List.mem_cons, List.not_mem_nil, or_false] at hm
    rw [hm]
    exact .str _

theorem named_text (n : Nat) : ∃ t, Session.formatEvents [named n] = some t ∧ n ≤ t.length := by
  have h : (List.replicate n 'a').flatMap JsonText.escape = List.replicate n 'a' := by
    induction n with
    | zero => rfl
    | succ n ih => rw [List.replicate_succ, List.flatMap_cons, ih]; rfl
  refine ⟨_, rfl, ?_⟩
  simp only [JsonText.sepBy, JsonText.quote, h, List.length_append, List.length_cons, List.length_replicate]
  omega

theorem split_at (acts : List Act) (a b : List Bytes) (p : Bytes) (h : sent acts = a ++ p :: b) : ∃ before after, acts = before ++ .send p :: after ∧ sent before = a := by
  induction acts generalizing a with
  | nil => simp [sent] at h
  | cons x acts ih =>
    cases x with
    | drain k =>
      obtain ⟨before, after, h1, h2⟩ := ih a h
      exact ⟨.drain k :: before, after, by rw [h1]; rfl, h2⟩
    | send q =>
      have e : sent (.send q :: acts) = q :: sent acts := rfl
      rw [e] at h
      cases a with
      | nil =>
        have := List.cons.inj h
        exact ⟨[], acts, by rw [this.1]; rfl, rfl⟩
      | cons x a =>
        have hx := List.cons.inj h
        obtain ⟨before, after, h1, h2⟩ := ih a hx.2
        refine ⟨.send q :: before, after, by rw [h1]; rfl, ?_⟩
        show q :: sent before = x :: a
        rw [h2, hx.1]

/-- Every recording that ends arrives, if the viewer reads what is sent. -/
def AlwaysArrives (cap : Nat) : Prop :=
  ∀ (m : List (Str × J)), Clean (.obj m) → HasMethod m "Tracing.end" → ∀ results : List (List J), (∀ l ∈ results, ∀ j ∈ l, Clean j) →
    ∃ acts, sent acts = sends (processMessage (results.map .ok) (some (.obj m))).1 ∧ got (run { cap := cap } acts) = sent acts

/-- It fails for every size of the buffer: a name that is as long as the buffer closes the connection, however fast the viewer reads. -/
theorem not_AlwaysArrives (cap : Nat) : ¬ AlwaysArrives cap := by
  intro h
  obtain ⟨acts, h1, h2⟩ := h [(lit "method", .str (lit "Tracing.end"))] (by
      refine .obj _ (by simp [lit]) ?_
      intro m hm
      simp only [List.mem_cons, List.not_mem_nil, or_false] at hm
      rw [hm]
      exact .str _) rfl [[named cap]] (by
      intro l hl j hj
      simp only [List.mem_cons, List.not_mem_nil, or_false] at hl
      rw [hl] at hj
      simp only [List.mem_cons, List.not_mem_nil, or_false] at hj
      rw [hj]
      exact named_clean cap)
  obtain ⟨t, ht, hlen⟩ := named_text cap
  obtain ⟨r, hr⟩ : ∃ r, JsonText.dump (Session.emptyReply .null) = some r := ⟨_, rfl⟩
  obtain ⟨d, hd⟩ : ∃ d, JsonText.dump Session.completeMessage = some d := ⟨_, rfl⟩
  have hs : sends (processMessage ([[named cap]].map .ok) (some (.obj [(lit "method", .str (lit "Tracing.end"))]))).1 = [utf8 r, utf8 t, utf8 d] := by
    have e : Session.slices [named cap] = [[named cap]] := by simp [Session.slices, Session.chunkSize]
    simp [processMessage, Session.index, Session.isMethod, lit, Session.andThen, Session.outgoing, hr, hd, Session.finishAll, Res.bind, e, Session.transmitAll, ht, sends]
  rw [hs] at h1
  obtain ⟨before, after, rfl, hbefore⟩ := split_at acts [utf8 r] [utf8 d] (utf8 t) h1
  have hfr : cap ≤ (frame (utf8 t)).length := by
    have := utf8_length t
    simp only [frame, List.length_append]
    omega
  have hr64 : ∀ q ∈ sent before, q.length < 2 ^ 64 := by
    rw [hbefore]
    intro q hq
    simp only [List.mem_cons, List.not_mem_nil, or_false] at hq
    rw [hq]
    have : JsonText.dump (Session.emptyReply .null) = some "{\"id\":null,\"result\":null}".toList := by decide +kernel
    rw [this] at hr
    cases hr
    decide +kernel
  have := (large_text_closes cap before after _ hfr hr64).length_le
  rw [h2, h1, hbefore] at this
  simp at this

/-! ## Examples -/

/-- two texts of 200 bytes -/
example : size [List.replicate 200 7, List.replicate 200 8] = 408 := by decide +kernel

/-- they fit into a buffer of 500 bytes, and arrive when the viewer reads at last -/
example : got (run { cap := 500 } [.send (List.replicate 200 7), .drain 3, .send (List.replicate 200 8), .drain 405]) = [List.replicate 200 7, List.replicate 200 8] := by decide +kernel

/-- they do not fit into a buffer of 300 bytes: a viewer that has read 10 bytes gets nothing as a whole -/
example : (run { cap := 300 } [.send (List.replicate 200 7), .drain 10, .send (List.replicate 200 8), .drain 405]).isOpen = false ∧
    got (run { cap := 300 } [.send (List.replicate 200 7), .drain 10, .send (List.replicate 200 8), .drain 405]) = [] := by decide +kernel

/-- a viewer that keeps up gets both -/
example : got (run { cap := 300 } [.send (List.replicate 200 7), .drain 204, .send (List.replicate 200 8), .drain 204]) = [List.replicate 200 7, List.replicate 200 8] := by decide +kernel

/-- a recording of two events meets the hypotheses of `recording_arrives_partial`, for a buffer of 300 bytes -/
example : let acts := (sends (processMessage ([[named 2], [named 3]].map .ok) (some (.obj [(lit "method", .str (lit "Tracing.end"))]))).1).map Act.send
    (sent acts).length = 3 ∧ size (sent acts) < 300 ∧ ∀ p ∈ sent acts, p.length < 2 ^ 64 := by decide +kernel

end Scalopus.C129
