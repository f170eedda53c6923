import Verif.Props.C17_Discovery

/-!
# C17: no server is missed, whatever other sockets are called
-/

namespace Scalopus.C17

open Protocol Discovery SocketTable

theorem rfind_found (c : UInt8) (l : Bytes) (i : Nat) (hi : l[i]? = some c) : ∀ p, i ≤ p → ∃ j, rfind c l p = some j ∧ i ≤ j := by
  intro p
  induction p with
  | zero =>
    intro h
    have : i = 0 := by omega
    subst this
    exact ⟨0, by simp [rfind, hi], Nat.le_refl _⟩
  | succ p ih =>
    intro h
    rw [rfind]
    split
    · exact ⟨p + 1, rfl, h⟩
    · rename_i hn
      apply ih
      rcases Nat.lt_or_ge p i with h1 | h1
      · have : i = p + 1 := by omega
        subst this; exact absurd hi hn
      · exact h1

theorem line_two_spaces (a b c : Bytes) : ∃ r, lineServer (a ++ 32 :: b ++ 32 :: c) = .ok r := by
  have h1 : (a ++ 32 :: b ++ 32 :: c)[a.length]? = some sp := by simp [sp]
  have h2 : (a ++ 32 :: b ++ 32 :: c)[(a ++ 32 :: b).length]? = some sp := by
    rw [List.getElem?_append_right (Nat.le_refl _)]; simp [sp]
  obtain ⟨j, hj, hle⟩ := rfind_found sp _ _ h2 (a ++ 32 :: b ++ 32 :: c).length (by simp)
  unfold lineServer
  split
  · exact ⟨_, rfl⟩
  · split
    · simp only [hj]
      obtain ⟨k, hk, -⟩ := rfind_found sp _ _ h1 (if j = 0 then (a ++ 32 :: b ++ 32 :: c).length else j - 1) (by
        split
        · simp
        · simp at hle; omega)
      simp only [hk]
      split <;> exact ⟨_, rfl⟩
    · exact ⟨_, rfl⟩

/-- The line of any socket is read without an exception, whatever the socket is called. -/
theorem line_never_throws (s : Sock) : ∃ r, lineServer s.line = .ok r := by
  unfold Sock.line
  cases ha : s.addr with
  | unbound =>
    refine ⟨none, line_other _ ?_⟩
    simp only [Addr.print, List.append_nil]
    exact padded_noSuffix _ _
  | abstract n => exact line_two_spaces _ _ _
  | file p => exact line_two_spaces _ _ _

theorem line_of_server (s : Sock) (hi : s.inode < 2 ^ 32) (pid : Nat) (hp : pid < 2 ^ 32) (ha : s.addr = serverAddr pid) :
    lineServer s.line = .ok (if s.inode = 0 then none else some pid) := by
  unfold Sock.line
  rw [ha]
  unfold serverAddr Addr.print
  rw [scalopus_eq]
  exact line_server s.columns s.inode pid 64 (by decide) hi (by omega)

theorem line_found_suffix (s : Sock) (pid : Nat) (h : lineServer s.line = .ok (some pid)) : scalopus <:+ text s.addr := by
  apply Classical.byContradiction
  intro hn
  rw [line_other] at h
  · cases h
  · unfold Sock.line
    intro h'
    rw [scalopus_eq] at hn
    cases ha : s.addr with
    | unbound =>
      rw [ha] at h'
      simp only [Addr.print, List.append_nil] at h'
      exact padded_noSuffix _ _ h'
    | abstract n =>
      rw [ha] at h' hn
      rcases List.suffix_cons_iff.1 (suffix_of_append_space _ _ h') with e | h''
      · exact absurd e (by simp [suffix])
      · exact hn h''
    | file p =>
      rw [ha] at h' hn
      exact hn (suffix_of_append_space _ _ h')

theorem lines_spec (socks : List Sock) : ∃ l, linesServers (socks.map Sock.line) = .ok l ∧
    ∀ pid, pid ∈ l ↔ ∃ s ∈ socks, lineServer s.line = .ok (some pid) := by
  induction socks with
  | nil => exact ⟨[], rfl, by simp⟩
  | cons s socks ih =>
    obtain ⟨l, h1, h2⟩ := ih
    obtain ⟨r, h3⟩ := line_never_throws s
    refine ⟨r.toList ++ l, by simp only [List.map_cons, linesServers, h1, h3, Res.bind], ?_⟩
    intro pid
    simp only [List.mem_append, Option.mem_toList, Option.mem_def, h2, List.mem_cons, exists_eq_or_imp, h3, Res.ok.injEq]

/-- **C17, whatever other sockets are called.** For every socket table: discovery does not fail; it finds every process that has a server socket with a non-zero inode; and
    every number it finds comes from a listed socket whose name ends in `_scalopus`. -/
theorem no_server_missed (header : Bytes) (socks : List Sock) (hh : 10 ∉ header) (hs : ¬ scalopus <:+ header) (hp : ∀ s ∈ socks, Plain s) :
    ∃ l, discover (file header socks) = .ok l ∧
      (∀ s ∈ socks, ∀ pid < 2 ^ 32, s.inode ≠ 0 → s.addr = serverAddr pid → pid ∈ l) ∧
      (∀ pid ∈ l, ∃ s ∈ socks, scalopus <:+ text s.addr) := by
  obtain ⟨l, h1, h2⟩ := lines_spec socks
  refine ⟨l.map (· % 2 ^ 32), ?_, ?_, ?_⟩
  · unfold discover getTransportServers
    rw [getlines_file header socks hh hp]
    rw [scalopus_eq] at hs
    simp only [linesServers, line_other _ hs, h1, Res.bind]
    simp
  · intro s hm pid hlt h0 ha
    rw [List.mem_map]
    refine ⟨pid, (h2 pid).2 ⟨s, hm, ?_⟩, Nat.mod_eq_of_lt hlt⟩
    rw [line_of_server s (hp s hm).1 pid hlt ha, if_neg h0]
  · intro pid hm
    obtain ⟨p, hm', -⟩ := List.mem_map.1 hm
    obtain ⟨s, hs', h⟩ := (h2 p).1 hm'
    exact ⟨s, hs', line_found_suffix s p h⟩

/-- **C17, sockets do not disturb each other.** Which numbers are found is decided line by line: what is found with two groups of sockets together is what is found with each of them. -/
theorem found_separately (header : Bytes) (as bs : List Sock) (hh : 10 ∉ header) (hs : ¬ scalopus <:+ header) (hp : ∀ s ∈ as ++ bs, Plain s) :
    ∃ la lb l, discover (file header as) = .ok la ∧ discover (file header bs) = .ok lb ∧ discover (file header (as ++ bs)) = .ok l ∧
      ∀ pid, pid ∈ l ↔ pid ∈ la ∨ pid ∈ lb := by
  have key : ∀ socks : List Sock, (∀ s ∈ socks, Plain s) → ∃ l, discover (file header socks) = .ok l ∧
      ∀ pid, pid ∈ l ↔ ∃ s ∈ socks, ∃ p, lineServer s.line = .ok (some p) ∧ p % 2 ^ 32 = pid := by
    intro socks hp
    obtain ⟨l, h1, h2⟩ := lines_spec socks
    refine ⟨l.map (· % 2 ^ 32), ?_, ?_⟩
    · unfold discover getTransportServers
      rw [getlines_file header socks hh hp]
      rw [scalopus_eq] at hs
      simp only [linesServers, line_other _ hs, h1, Res.bind]
      simp
    · intro pid
      simp only [List.mem_map, h2]
      constructor
      · rintro ⟨p, ⟨s, h3, h4⟩, h5⟩; exact ⟨s, h3, p, h4, h5⟩
      · rintro ⟨s, h3, p, h4, h5⟩; exact ⟨p, ⟨s, h3, h4⟩, h5⟩
  obtain ⟨la, h1, h1'⟩ := key as (fun s h => hp s (by simp [h]))
  obtain ⟨lb, h2, h2'⟩ := key bs (fun s h => hp s (by simp [h]))
  obtain ⟨l, h3, h3'⟩ := key (as ++ bs) hp
  refine ⟨la, lb, l, h1, h2, h3, ?_⟩
  intro pid
  rw [h1', h2', h3']
  constructor
  · rintro ⟨s, hm, h⟩
    rcases List.mem_append.1 hm with hm | hm
    · exact .inl ⟨s, hm, h⟩
    · exact .inr ⟨s, hm, h⟩
  · rintro (⟨s, hm, h⟩ | ⟨s, hm, h⟩)
    · exact ⟨s, List.mem_append_left _ hm, h⟩
    · exact ⟨s, List.mem_append_right _ hm, h⟩

/-- A server between a socket named ` _scalopus` and one named `x y_scalopus`. -/
example : ∀ s ∈ ([⟨[48], 7, .abstract (32 :: scalopus)⟩, ⟨[48], 8, serverAddr 5⟩, ⟨[48], 9, .file ([120, 32, 121] ++ scalopus)⟩] : List Sock), Plain s := by
  intro s hs
  simp only [List.mem_cons, List.not_mem_nil, or_false] at hs
  rcases hs with rfl | rfl | rfl <;> exact ⟨by decide, by decide, by decide +kernel⟩

end Scalopus.C17
