import Verif.Model.Discovery
import Verif.Spec.SocketTable

/-!
# C17: discovery
-/

namespace Scalopus.C17

open Protocol Discovery SocketTable

/-! ## Numbers -/

theorem digitsVal_append (a b : Bytes) (h : ∀ x ∈ a, isDigit x = true) : ∀ acc, digitsVal acc (a ++ b) = digitsVal (digitsVal acc a) b := by
  induction a with
  | nil => intro acc; rfl
  | cons x a ih =>
    intro acc
    have hx := h x (by simp)
    simp only [List.cons_append, digitsVal, hx, if_true]
    exact ih (fun y hy => h y (by simp [hy])) _

theorem digit_isDigit (d : Nat) (h : d < 10) : isDigit (UInt8.ofNat (48 + d)) = true := by
  revert d; decide

theorem digit_val (d : Nat) (h : d < 10) : (UInt8.ofNat (48 + d)).toNat - 48 = d := by
  revert d; decide

theorem decimal_digits (n : Nat) : ∀ x ∈ decimal n, isDigit x = true := by
  fun_induction decimal n with
  | case1 n h => intro x hx; rw [List.mem_singleton] at hx; subst hx; exact digit_isDigit n h
  | case2 n h ih =>
    intro x hx
    simp only [List.mem_append, List.mem_singleton] at hx
    rcases hx with hx | hx
    · exact ih x hx
    · subst hx; exact digit_isDigit _ (by omega)

theorem decimal_val (n : Nat) : digitsVal 0 (decimal n) = n := by
  fun_induction decimal n with
  | case1 n h =>
    simp only [digitsVal, digit_isDigit n h, if_true, digit_val n h]; omega
  | case2 n h ih =>
    rw [digitsVal_append _ _ (decimal_digits _), ih]
    have hm : n % 10 < 10 := by omega
    simp only [digitsVal, digit_isDigit _ hm, if_true, digit_val _ hm]
    omega

theorem decimal_ne_nil (n : Nat) : decimal n ≠ [] := by
  unfold decimal; split <;> simp

theorem digit_facts (x : UInt8) (h : isDigit x = true) : x ≠ 0 ∧ isSpace x = false ∧ x ≠ 45 ∧ x ≠ 43 ∧ x ≠ 32 ∧ x ≠ 10 := by
  unfold isDigit at h
  simp only [Bool.and_eq_true, decide_eq_true_eq] at h
  unfold isSpace
  have h1 : 48 ≤ x.toNat := by have := UInt8.le_iff_toNat_le.1 h.1; simpa using this
  have h2 : x.toNat ≤ 57 := by have := UInt8.le_iff_toNat_le.1 h.2; simpa using this
  refine ⟨?_, ?_, ?_, ?_, ?_, ?_⟩
  · rintro rfl; simp at h1
  · simp only [Bool.or_eq_false_iff, Bool.and_eq_false_iff, decide_eq_false_iff_not]
    refine ⟨by rintro rfl; simp at h1, Or.inr ?_⟩
    intro hc
    have := UInt8.le_iff_toNat_le.1 hc
    simp at this; omega
  · rintro rfl; simp at h1
  · rintro rfl; simp at h1
  · rintro rfl; simp at h1
  · rintro rfl; simp at h1

theorem cStr_noNul (s : Bytes) (h : ∀ x ∈ s, x ≠ 0) : cStr s = s := by
  unfold cStr
  induction s with
  | nil => rfl
  | cons x s ih =>
    have := h x (by simp)
    rw [List.takeWhile_cons_of_pos (by simpa using this), ih (fun y hy => h y (by simp [hy]))]

theorem dropWhile_digits (n : Nat) : (decimal n).dropWhile isSpace = decimal n := by
  cases h : decimal n with
  | nil => rfl
  | cons x xs =>
    have := (digit_facts x (decimal_digits n x (by rw [h]; simp))).2.1
    simp [List.dropWhile, this]

theorem strtoul_decimal (n : Nat) (h : n < 2 ^ 64) : strtoul (decimal n) = n := by
  unfold strtoul
  rw [cStr_noNul _ (fun x hx => (digit_facts x (decimal_digits n x hx)).1), dropWhile_digits]
  cases hd : decimal n with
  | nil => exact absurd hd (decimal_ne_nil n)
  | cons x xs =>
    have hx := digit_facts x (decimal_digits n x (by rw [hd]; simp))
    have hv := decimal_val n
    rw [hd] at hv
    split
    · rename_i r heq; simp only [List.cons.injEq] at heq; exact absurd heq.1 hx.2.2.1
    · rename_i r heq; simp only [List.cons.injEq] at heq; exact absurd heq.1 hx.2.2.2.1
    · rw [hv]; omega

theorem atoi_decimal (n : Nat) (h : n < 2 ^ 32) : (atoi (32 :: decimal n) = 0 ↔ n = 0) := by
  have hs : strtol (32 :: decimal n) = n := by
    unfold strtol
    rw [cStr_noNul _ (by
      intro x hx
      simp only [List.mem_cons] at hx
      rcases hx with rfl | hx
      · decide
      · exact (digit_facts x (decimal_digits n x hx)).1)]
    have : (32 :: decimal n).dropWhile isSpace = decimal n := by
      rw [List.dropWhile_cons_of_pos (by decide)]; exact dropWhile_digits n
    rw [this]
    cases hd : decimal n with
    | nil => exact absurd hd (decimal_ne_nil n)
    | cons x xs =>
      have hx := digit_facts x (decimal_digits n x (by rw [hd]; simp))
      have hv := decimal_val n
      rw [hd] at hv
      split
      · rename_i r heq; simp only [List.cons.injEq] at heq; exact absurd heq.1 hx.2.2.1
      · rename_i r heq; simp only [List.cons.injEq] at heq; exact absurd heq.1 hx.2.2.2.1
      · rw [hv]; omega
  unfold atoi
  rw [hs]
  constructor
  · intro h0
    rw [Int.bmod_def] at h0
    omega
  · rintro rfl; rfl

/-! ## Searching -/

theorem rfind_eq (c : UInt8) (l : Bytes) (i : Nat) (hi : l[i]? = some c) (p : Nat) (hp : i ≤ p)
    (hno : ∀ j, i < j → j ≤ p → l[j]? ≠ some c) : rfind c l p = some i := by
  induction p with
  | zero =>
    have : i = 0 := by omega
    subst this; simp [rfind, hi]
  | succ p ih =>
    by_cases he : i = p + 1
    · subst he; simp [rfind, hi]
    · rw [rfind, if_neg (hno (p + 1) (by omega) (Nat.le_refl _))]
      exact ih (by omega) (fun j h1 h2 => hno j h1 (by omega))

theorem rfind_last (c : UInt8) (a b : Bytes) (p : Nat) (hp : a.length ≤ p) (hb : ∀ j, j < p - a.length → b[j]? ≠ some c) :
    rfind c (a ++ c :: b) p = some a.length := by
  apply rfind_eq _ _ _ (by simp) _ hp
  intro j h1 h2
  rw [List.getElem?_append_right (by omega)]
  rw [show j - a.length = (j - a.length - 1) + 1 by omega, List.getElem?_cons_succ]
  exact hb _ (by omega)

/-! ## Lines -/

/-- Whether a printed line ends in the suffix. -/
theorem isSuffix_iff (line : Bytes) : (¬ line.length < suffix.length ∧ line.drop (line.length - suffix.length) = suffix) ↔
    suffix <:+ line := by
  constructor
  · rintro ⟨_, h2⟩
    exact ⟨line.take (line.length - suffix.length), by conv => lhs; rhs; rw [← h2]
                                                       exact List.take_append_drop _ _⟩
  · rintro ⟨t, rfl⟩
    simp

theorem suffix_of_append_space (a b : Bytes) (h : suffix <:+ (a ++ 32 :: b)) : suffix <:+ b := by
  rcases List.suffix_or_suffix_of_suffix h (List.suffix_append a (32 :: b)) with h' | h'
  · rcases List.suffix_cons_iff.1 h' with e | h''
    · have : (32 : UInt8) ∈ suffix := by rw [e]; simp
      exact absurd this (by decide)
    · exact h''
  · have : (32 : UInt8) ∈ suffix := h'.subset (by simp)
    exact absurd this (by decide)

theorem scalopus_eq : scalopus = suffix := by decide

theorem suffix_noSpace : ∀ x ∈ suffix, x ≠ 32 := by decide

/-- A line that does not end in the suffix gives nothing. -/
theorem line_other (line : Bytes) (h : ¬ suffix <:+ line) : lineServer line = .ok none := by
  unfold lineServer
  split
  · rfl
  · rename_i h1
    rw [if_neg]
    intro h2
    exact h ((isSuffix_iff line).1 ⟨h1, h2⟩)

/-- A line `<columns> <inode> <c><digits>_scalopus` with any character `c` in front of the digits gives the number, unless the
    inode is zero. -/
theorem line_server (columns : Bytes) (inode pid : Nat) (c : UInt8) (hc : c ≠ 32) (hi : inode < 2 ^ 32) (hp : pid < 2 ^ 64) :
    lineServer (columns ++ 32 :: padded inode ++ 32 :: c :: (decimal pid ++ suffix)) =
      .ok (if inode = 0 then none else some pid) := by
  -- the columns and all but the last of the spaces that precede the inode
  obtain ⟨a, ha⟩ : ∃ a, columns ++ 32 :: padded inode = a ++ 32 :: decimal inode := by
    unfold padded
    generalize 5 - (decimal inode).length = k
    refine ⟨columns ++ List.replicate k 32, ?_⟩
    have : (32 : UInt8) :: (List.replicate k 32 ++ decimal inode) = List.replicate k 32 ++ 32 :: decimal inode := by
      rw [← List.cons_append, ← List.replicate_succ, List.replicate_succ']
      simp
    rw [this]; simp
  rw [ha]
  generalize hpath : decimal pid ++ suffix = path
  have hsuf : suffix <:+ (a ++ 32 :: decimal inode ++ 32 :: c :: path) := by
    subst hpath
    exact ⟨a ++ 32 :: decimal inode ++ 32 :: c :: decimal pid, by simp⟩
  obtain ⟨h1, h2⟩ := (isSuffix_iff _).2 hsuf
  have hspace : ∀ x ∈ c :: path, x ≠ 32 := by
    intro x hx
    subst hpath
    simp only [List.mem_cons, List.mem_append] at hx
    rcases hx with rfl | hx | hx
    · exact hc
    · exact (digit_facts x (decimal_digits pid x hx)).2.2.2.2.1
    · exact suffix_noSpace x hx
  have hspace2 : ∀ x ∈ decimal inode, x ≠ 32 := fun x hx => (digit_facts x (decimal_digits inode x hx)).2.2.2.2.1
  have r1 : rfind sp (a ++ 32 :: decimal inode ++ 32 :: c :: path) (a ++ 32 :: decimal inode ++ 32 :: c :: path).length =
      some (a ++ 32 :: decimal inode).length := by
    apply rfind_last
    · simp
    · intro j _ hj
      exact hspace _ (List.mem_of_getElem? hj) rfl
  have r2 : rfind sp (a ++ 32 :: decimal inode ++ 32 :: c :: path)
      (if (a ++ 32 :: decimal inode).length = 0 then (a ++ 32 :: decimal inode ++ 32 :: c :: path).length
        else (a ++ 32 :: decimal inode).length - 1) = some a.length := by
    rw [if_neg (by simp)]
    rw [List.append_assoc, List.cons_append]
    apply rfind_last
    · simp
    · intro j hj hc
      have hlen : j < (decimal inode).length := by simp at hj; omega
      rw [List.getElem?_append_left hlen] at hc
      exact hspace2 _ (List.mem_of_getElem? hc) rfl
  unfold lineServer
  rw [if_neg h1, if_pos h2]
  simp only [r1, r2]
  have hino : ((a ++ 32 :: decimal inode ++ 32 :: c :: path).drop a.length).take ((a ++ 32 :: decimal inode).length - a.length) =
      32 :: decimal inode := by
    rw [List.append_assoc, List.drop_left]
    rw [show (a ++ 32 :: decimal inode).length - a.length = (32 :: decimal inode).length by simp]
    exact List.take_left
  have hpth : (a ++ 32 :: decimal inode ++ 32 :: c :: path).drop ((a ++ 32 :: decimal inode).length + 2) = path := by
    rw [List.drop_append]
    simp
  rw [hino, hpth]
  by_cases h0 : inode = 0
  · rw [if_pos ((atoi_decimal inode hi).2 h0), if_pos h0]
  · rw [if_neg (fun hc => h0 ((atoi_decimal inode hi).1 hc)), if_neg h0]
    subst hpath
    rw [if_neg (by simp)]
    have : (decimal pid ++ suffix).take ((decimal pid ++ suffix).length - suffix.length) = decimal pid := by
      rw [List.length_append, Nat.add_sub_cancel]; exact List.take_left
    rw [this, strtoul_decimal pid hp]

/-- The text of an address. -/
def text : Addr → Bytes
  | .unbound => []
  | .abstract n => n
  | .file p => p

/-- What the kernel guarantees about a line, apart from the address: inode numbers of sockets are 32-bit, and the columns
    contain no line break. Addresses with line breaks are excluded too. -/
def Plain (s : Sock) : Prop := s.inode < 2 ^ 32 ∧ 10 ∉ s.columns ∧ 10 ∉ text s.addr

/-- No socket other than those of scalopus servers has a name that ends in `_scalopus`. -/
def OnlyServersUseTheSuffix (socks : List Sock) : Prop :=
  ∀ s ∈ socks, scalopus <:+ text s.addr → ∃ pid < 2 ^ 32, s.addr = serverAddr pid

/-- Discovery is exact for this table: a process id is found iff there is a listed socket with the address of a server of that
    process and a non-zero inode. -/
def Exact (header : Bytes) (socks : List Sock) : Prop :=
  ∃ l, discover (file header socks) = .ok l ∧
    ∀ pid, pid ∈ l ↔ ∃ s ∈ socks, s.inode ≠ 0 ∧ s.addr = serverAddr pid

/-- The full property C17 (false, see `other_sockets_are_found`). -/
def AlwaysExact : Prop :=
  ∀ (header : Bytes) (socks : List Sock), 10 ∉ header → ¬ scalopus <:+ header → (∀ s ∈ socks, Plain s) → Exact header socks

theorem decimal_inj (m n : Nat) (h : decimal m = decimal n) : m = n := by
  have := decimal_val m
  rw [h, decimal_val] at this
  exact this.symm

theorem serverAddr_inj (m n : Nat) (h : serverAddr m = serverAddr n) : m = n := by
  unfold serverAddr at h
  simp only [Addr.abstract.injEq] at h
  exact decimal_inj m n (List.append_cancel_right h)

theorem padded_noSuffix (columns : Bytes) (inode : Nat) : ¬ suffix <:+ (columns ++ 32 :: padded inode) := by
  intro h
  have h2 := suffix_of_append_space _ _ h
  have : (95 : UInt8) ∈ padded inode := h2.subset (by decide)
  unfold padded at this
  simp only [List.mem_append, List.mem_replicate] at this
  rcases this with h3 | h3
  · revert h3; simp
  · have := decimal_digits _ _ h3
    revert this; decide

theorem line_spec (s : Sock) (hp : Plain s) (hs : scalopus <:+ text s.addr → ∃ pid < 2 ^ 32, s.addr = serverAddr pid) :
    ∃ r, lineServer s.line = .ok r ∧ ∀ pid, r = some pid ↔ (pid < 2 ^ 32 ∧ s.inode ≠ 0 ∧ s.addr = serverAddr pid) := by
  by_cases hsuf : scalopus <:+ text s.addr
  · obtain ⟨pid, hpid, ha⟩ := hs hsuf
    refine ⟨if s.inode = 0 then none else some pid, ?_, ?_⟩
    · unfold Sock.line
      rw [ha]
      unfold serverAddr Addr.print
      rw [scalopus_eq]
      exact line_server s.columns s.inode pid 64 (by decide) hp.1 (by omega)
    · intro pid'
      constructor
      · intro h
        split at h
        · simp at h
        · rename_i h0
          simp only [Option.some.injEq] at h
          subst h
          exact ⟨hpid, h0, ha⟩
      · rintro ⟨_, h0, ha'⟩
        rw [ha] at ha'
        rw [if_neg h0, serverAddr_inj _ _ ha']
  · refine ⟨none, ?_, ?_⟩
    · apply line_other
      unfold Sock.line
      intro h
      cases ha : s.addr with
      | unbound =>
        rw [ha] at h
        simp only [Addr.print, List.append_nil] at h
        exact padded_noSuffix _ _ h
      | abstract n =>
        rw [ha] at h
        have h' := suffix_of_append_space _ _ h
        rw [ha, scalopus_eq] at hsuf
        rcases List.suffix_cons_iff.1 h' with e | h''
        · exact absurd e (by simp [suffix])
        · exact hsuf h''
      | file p =>
        rw [ha] at h
        have h' := suffix_of_append_space _ _ h
        rw [ha, scalopus_eq] at hsuf
        exact hsuf h'
    · intro pid
      constructor
      · intro h; simp at h
      · rintro ⟨_, _, ha⟩
        exact absurd ⟨decimal pid, by rw [ha]; rfl⟩ hsuf

theorem getlines_line (l rest : Bytes) (h : 10 ∉ l) : getlines (l ++ 10 :: rest) = l :: getlines rest := by
  induction l with
  | nil => simp [getlines]
  | cons b l ih =>
    simp only [List.mem_cons, not_or] at h
    simp only [List.cons_append, getlines]
    rw [if_neg (fun e => h.1 e.symm), ih h.2]

theorem line_noBreak (s : Sock) (hp : Plain s) : 10 ∉ s.line := by
  obtain ⟨_, h1, h2⟩ := hp
  unfold Sock.line padded
  simp only [List.mem_append, List.mem_cons, List.mem_replicate, not_or]
  refine ⟨⟨h1, by decide, by simp, ?_⟩, ?_⟩
  · intro h; exact (digit_facts _ (decimal_digits _ _ h)).2.2.2.2.2 rfl
  · cases ha : s.addr with
    | unbound => simp [Addr.print]
    | abstract n => rw [ha] at h2; simp [Addr.print]; exact h2
    | file p => rw [ha] at h2; simp [Addr.print]; exact h2

theorem getlines_file (header : Bytes) (socks : List Sock) (hh : 10 ∉ header) (hp : ∀ s ∈ socks, Plain s) :
    getlines (file header socks) = header :: socks.map Sock.line := by
  unfold file
  rw [getlines_line _ _ hh]
  congr 1
  induction socks with
  | nil => rfl
  | cons s socks ih =>
    simp only [List.map_cons, List.flatten_cons, List.append_assoc, List.singleton_append]
    rw [getlines_line _ _ (line_noBreak s (hp s (by simp))), ih (fun s hs => hp s (by simp [hs]))]

/-- **C17, partial.** Whatever other sockets the kernel lists (any number, any names that do not end in `_scalopus`, with or
    without spaces), discovery finds exactly the processes that have a server socket with a non-zero inode. Missing from the full
    property: other sockets whose name ends in `_scalopus` too. -/
theorem discovery_exact_partial (header : Bytes) (socks : List Sock) (hh : 10 ∉ header) (hs : ¬ scalopus <:+ header)
    (hp : ∀ s ∈ socks, Plain s) (honly : OnlyServersUseTheSuffix socks) : Exact header socks := by
  unfold Exact discover getTransportServers
  rw [getlines_file header socks hh hp]
  have key : ∃ l, linesServers (socks.map Sock.line) = .ok l ∧
      ∀ pid, pid ∈ l ↔ pid < 2 ^ 32 ∧ ∃ s ∈ socks, s.inode ≠ 0 ∧ s.addr = serverAddr pid := by
    clear hh hs
    induction socks with
    | nil => exact ⟨[], rfl, by simp⟩
    | cons s socks ih =>
      obtain ⟨l, h1, h2⟩ := ih (fun s hs => hp s (by simp [hs])) (fun s hs => honly s (by simp [hs]))
      obtain ⟨r, h3, h4⟩ := line_spec s (hp s (by simp)) (honly s (by simp))
      refine ⟨r.toList ++ l, by simp only [List.map_cons, linesServers, h1, h3, Res.bind], ?_⟩
      intro pid
      simp only [List.mem_append, Option.mem_toList, Option.mem_def, h4, h2, List.mem_cons, exists_eq_or_imp]
      grind
  obtain ⟨l, h1, h2⟩ := key
  refine ⟨l.map (· % 2 ^ 32), ?_, ?_⟩
  · rw [scalopus_eq] at hs
    simp only [linesServers, line_other _ hs, h1, Res.bind]
    simp
  · intro pid
    simp only [List.mem_map]
    constructor
    · rintro ⟨p, hp', he⟩
      have := (h2 p).1 hp'
      rw [Nat.mod_eq_of_lt this.1] at he
      subst he; exact this.2
    · rintro ⟨s, hs', h0, ha⟩
      obtain ⟨pid', hlt, ha'⟩ := honly s hs' ⟨decimal pid, by rw [ha]; rfl⟩
      have := serverAddr_inj pid pid' (by rw [← ha, ha'])
      subst this
      exact ⟨pid, (h2 pid).2 ⟨hlt, s, hs', h0, ha⟩, Nat.mod_eq_of_lt hlt⟩

/-- **C17 is violated in general**: for every number there is a socket bound to a path in the file system, thus not a scalopus
    server, that is reported as a server of the process with that number. -/
theorem spoofed_server (columns : Bytes) (inode pid : Nat) (hi : inode < 2 ^ 32) (h0 : inode ≠ 0) (hp : pid < 2 ^ 64) :
    lineServer (Sock.mk columns inode (.file (47 :: decimal pid ++ scalopus))).line = .ok (some pid) := by
  have := line_server columns inode pid 47 (by decide) hi hp
  rw [if_neg h0] at this
  rw [scalopus_eq]
  exact this

/-- **C17 is violated**: a socket at `/5_scalopus` makes discovery report process 5. -/
theorem other_sockets_are_found : ¬ AlwaysExact := by
  intro h
  obtain ⟨l, h1, h2⟩ := h [78] [⟨[48], 7, .file [47, 53, 95, 115, 99, 97, 108, 111, 112, 117, 115]⟩] (by decide) (by decide)
    (by intro s hs; simp only [List.mem_singleton] at hs; subst hs; exact ⟨by decide, by decide, by decide⟩)
  have h3 : discover (file [78] [⟨[48], 7, .file [47, 53, 95, 115, 99, 97, 108, 111, 112, 117, 115]⟩]) = .ok [5] := by
    unfold discover getTransportServers
    rw [getlines_file _ _ (by decide) (by intro s hs; simp only [List.mem_singleton] at hs; subst hs; exact ⟨by decide, by decide, by decide⟩)]
    have := spoofed_server [48] 7 5 (by decide) (by decide) (by decide)
    have hd : (47 : UInt8) :: decimal 5 ++ scalopus = [47, 53, 95, 115, 99, 97, 108, 111, 112, 117, 115] := by
      unfold decimal; decide
    rw [hd] at this
    simp only [List.map_cons, List.map_nil, linesServers, this, line_other [78] (by decide), Res.bind]
    rfl
  rw [h3] at h1
  simp only [Res.ok.injEq] at h1
  subst h1
  obtain ⟨s, hs, _, ha⟩ := (h2 5).1 (by simp)
  simp only [List.mem_singleton] at hs
  subst hs
  simp [serverAddr] at ha

/-- A table with a server, a client end of a connection, an unbound socket and a socket with spaces in its name. -/
example : OnlyServersUseTheSuffix
    [⟨[48, 58], 23519, serverAddr 16121⟩, ⟨[48, 58], 0, serverAddr 77⟩, ⟨[48], 12, .unbound⟩, ⟨[48], 13, .file [47, 32, 98]⟩] ∧
    (∀ s ∈ ([⟨[48, 58], 23519, serverAddr 16121⟩, ⟨[48, 58], 0, serverAddr 77⟩, ⟨[48], 12, .unbound⟩,
      ⟨[48], 13, .file [47, 32, 98]⟩] : List Sock), s.inode < 2 ^ 32) := by
  constructor
  · intro s hs hsuf
    simp only [List.mem_cons, List.not_mem_nil, or_false] at hs
    rcases hs with rfl | rfl | rfl | rfl
    · exact ⟨16121, by decide, rfl⟩
    · exact ⟨77, by decide, rfl⟩
    · revert hsuf; decide
    · revert hsuf; decide
  · intro s hs
    simp only [List.mem_cons, List.not_mem_nil, or_false] at hs
    rcases hs with rfl | rfl | rfl | rfl <;> decide

end Scalopus.C17
