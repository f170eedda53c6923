import Verif.Model.Cbor

/-! # Reading what was written -/

namespace Scalopus.Cbor

theorem ofBigEndian_append (a b : Bytes) : ofBigEndian (a ++ b) = ofBigEndian a * 256 ^ b.length + ofBigEndian b := by
  have key : ∀ (b : Bytes) (n : Nat), b.foldl (fun n x => n * 256 + x.toNat) n = n * 256 ^ b.length + ofBigEndian b := by
    intro b
    induction b with
    | nil => intro n; simp [ofBigEndian]
    | cons x b ih =>
      intro n
      simp only [List.foldl_cons, ofBigEndian, List.length_cons, Nat.pow_succ]
      rw [ih, ih (0 * 256 + x.toNat)]
      grind
  unfold ofBigEndian
  rw [List.foldl_append, key]
  rfl

theorem length_bigEndian (k n : Nat) : (bigEndian k n).length = k := by
  induction k with
  | zero => rfl
  | succ k ih => simp [bigEndian, ih]

theorem ofBigEndian_bigEndian (k n : Nat) : ofBigEndian (bigEndian k n) = n % 256 ^ k := by
  induction k with
  | zero => simp [bigEndian, ofBigEndian, Nat.mod_one]
  | succ k ih =>
    rw [bigEndian, show UInt8.ofNat (n / 256 ^ k) :: bigEndian k n = [UInt8.ofNat (n / 256 ^ k)] ++ bigEndian k n from rfl, ofBigEndian_append,
      length_bigEndian, ih]
    simp only [ofBigEndian, List.foldl_cons, List.foldl_nil, Nat.zero_mul, Nat.zero_add]
    rw [Nat.pow_succ, Nat.mod_mul]
    simp only [UInt8.toNat_ofNat']
    rw [Nat.mul_comm, Nat.add_comm]

theorem take_append (a b : Bytes) : take a.length (a ++ b) = some (a, b) := by
  simp [take]

theorem take_bigEndian (k n : Nat) (r : Bytes) : take k (bigEndian k n ++ r) = some (bigEndian k n, r) := by
  have := take_append (bigEndian k n) r
  rwa [length_bigEndian] at this

theorem first_byte {major info : Nat} (hm : major < 8) (hi : info < 32) :
    (UInt8.ofNat (major * 32 + info)).toNat / 32 = major ∧ (UInt8.ofNat (major * 32 + info)).toNat % 32 = info := by
  simp only [UInt8.toNat_ofNat']
  omega

theorem readHead_head (major n : Nat) (hm : major < 8) (hn : n < 2 ^ 64) (r : Bytes) : readHead (head major n ++ r) = some (major, n, r) := by
  unfold head
  split
  · rename_i h
    obtain ⟨h1, h2⟩ := first_byte (info := n) hm (by omega)
    simp only [List.cons_append, List.nil_append, readHead, h1, h2, h, ↓reduceIte]
  · split
    · rename_i h
      obtain ⟨h1, h2⟩ := first_byte (info := 24) hm (by omega)
      simp only [List.cons_append, readHead, h1, h2, take_bigEndian, ofBigEndian_bigEndian, Nat.lt_irrefl, ↓reduceIte, Option.map_some]
      rw [Nat.mod_eq_of_lt h]
    · split
      · rename_i h
        obtain ⟨h1, h2⟩ := first_byte (info := 25) hm (by omega)
        simp only [List.cons_append, readHead, h1, h2, take_bigEndian, ofBigEndian_bigEndian, Option.map_some]
        rw [Nat.mod_eq_of_lt h]
        rfl
      · split
        · rename_i h
          obtain ⟨h1, h2⟩ := first_byte (info := 26) hm (by omega)
          simp only [List.cons_append, readHead, h1, h2, take_bigEndian, ofBigEndian_bigEndian, Option.map_some]
          rw [Nat.mod_eq_of_lt (show n < 256 ^ 4 by omega)]
          rfl
        · obtain ⟨h1, h2⟩ := first_byte (info := 27) hm (by omega)
          simp only [List.cons_append, readHead, h1, h2, take_bigEndian, ofBigEndian_bigEndian, Option.map_some]
          rw [Nat.mod_eq_of_lt (show n < 256 ^ 8 by omega)]
          rfl

theorem head_length (major n : Nat) : 1 ≤ (head major n).length := by
  unfold head
  repeat' split
  all_goals simp

theorem expect_head (major n : Nat) (hm : major < 8) (hn : n < 2 ^ 64) (r : Bytes) : expect major (head major n ++ r) = some (n, r) := by
  simp [expect, readHead_head major n hm hn r]

theorem readUInt_head (lim n : Nat) (hl : lim ≤ 2 ^ 64) (hn : n < lim) (r : Bytes) : readUInt lim (head 0 n ++ r) = some (n, r) := by
  simp only [readUInt, expect_head 0 n (by decide) (by omega), Option.bind_some, hn, ↓reduceIte]

theorem readBytes_head (major : Nat) (hm : major < 8) (d r : Bytes) (hd : d.length < 2 ^ 64) :
    readBytes major (head major d.length ++ d ++ r) = some (d, r) := by
  rw [List.append_assoc]
  simp only [readBytes, expect_head major d.length hm hd, Option.bind_some, take_append]

theorem times_map {α : Type} (f : Bytes → Option (α × Bytes)) (enc : α → Bytes) (l : List α)
    (h : ∀ x ∈ l, ∀ r, f (enc x ++ r) = some (x, r)) (r : Bytes) : times f l.length ((l.map enc).flatten ++ r) = some (l, r) := by
  induction l with
  | nil => rfl
  | cons x l ih =>
    simp only [List.length_cons, times, List.map_cons, List.flatten_cons, List.append_assoc]
    rw [h x (by simp)]
    simp only [Option.bind_some]
    rw [ih (fun y hy => h y (by simp [hy]))]
    rfl

theorem readEvent_encode (e : Event) (h : e.Valid) (r : Bytes) : readEvent (e.encode ++ r) = some (e, r) := by
  obtain ⟨h1, h2, h3, h4⟩ := h
  unfold Event.encode readEvent
  cases hd : e.data with
  | none =>
    simp only [List.append_assoc]
    rw [expect_head 4 3 (by decide) (by decide), Option.bind_some, readUInt_head _ _ (by decide) h1, Option.bind_some,
      readUInt_head _ _ (by decide) h2, Option.bind_some, readUInt_head _ _ (by decide) h3, Option.bind_some]
    simp only [show ¬ 3 ≥ 4 by decide, ↓reduceIte]
    rw [← hd]
  | some d =>
    have hr : readData (head 2 d.length ++ (d ++ r)) = some (some d, r) := by
      unfold readData
      rw [readHead_head 2 d.length (by decide) (h4 d hd)]
      simp only
      rw [← List.append_assoc, readBytes_head 2 (by decide) d r (h4 d hd)]
      rfl
    simp only [List.append_assoc]
    rw [expect_head 4 4 (by decide) (by decide), Option.bind_some, readUInt_head _ _ (by decide) h1, Option.bind_some,
      readUInt_head _ _ (by decide) h2, Option.bind_some, readUInt_head _ _ (by decide) h3, Option.bind_some]
    simp only [ge_iff_le, Nat.le_refl, ↓reduceIte]
    rw [hr, Option.bind_some, ← hd]

/-- A message of one process: what fits into the members, and the order of a `std::map`. -/
structure ThreadsValid (m : Threads) : Prop where
  sorted : m.Pairwise fun x y => x.1 < y.1
  tid : ∀ x ∈ m, x.1 < 2 ^ 64
  count : m.length < 2 ^ 64
  counts : ∀ x ∈ m, x.2.length < 2 ^ 64
  events : ∀ x ∈ m, ∀ e ∈ x.2, e.Valid

theorem readThread_encode (x : Nat × List Event) (h1 : x.1 < 2 ^ 64) (h2 : x.2.length < 2 ^ 64) (h3 : ∀ e ∈ x.2, e.Valid) (r : Bytes) :
    readThread (encodeThread x ++ r) = some (x, r) := by
  unfold readThread encodeThread readEvents
  simp only [List.append_assoc]
  rw [readUInt_head _ _ (by decide) h1, Option.bind_some]
  simp only
  rw [expect_head 4 _ (by decide) h2, Option.bind_some]
  simp only
  rw [times_map readEvent Event.encode x.2 (fun e he r => readEvent_encode e (h3 e he) r)]
  rfl

theorem insertKey_last (m : Threads) (k : Nat) (v : List Event) (h : ∀ x ∈ m, x.1 < k) : insertKey m k v = m ++ [(k, v)] := by
  induction m with
  | nil => rfl
  | cons x m ih =>
    have h1 := h x (by simp)
    rw [insertKey, if_neg (by omega), if_neg (by omega), ih (fun y hy => h y (by simp [hy]))]
    rfl

theorem foldl_insertKey (acc l : Threads) (h : (acc ++ l).Pairwise fun x y => x.1 < y.1) :
    l.foldl (fun m x => insertKey m x.1 x.2) acc = acc ++ l := by
  induction l generalizing acc with
  | nil => simp
  | cons x l ih =>
    simp only [List.foldl_cons]
    rw [insertKey_last acc x.1 x.2 (by
      intro y hy
      exact (List.pairwise_append.mp h).2.2 y hy x (by simp))]
    rw [ih _ (by simpa using h)]
    simp

theorem readThreads_encode (m : Threads) (h : ThreadsValid m) (r : Bytes) : readThreads (encodeThreads m ++ r) = some (m, r) := by
  unfold readThreads encodeThreads
  rw [List.append_assoc, expect_head 5 _ (by decide) h.count, Option.bind_some]
  simp only
  rw [times_map readThread encodeThread m (fun x hx r => readThread_encode x (h.tid x hx) (h.counts x hx) (h.events x hx) r), Option.bind_some]
  rw [foldl_insertKey [] m (by simpa using h.sorted)]
  rfl

/-! ### Passing over items -/

/-- These bytes are `k` items, whatever follows them and with whatever fuel is left. -/
def Items (k : Nat) (b : Bytes) : Prop := ∀ (r : Bytes) (fuel j : Nat), ∃ f', f' + b.length ≥ fuel ∧ fuel ≥ f' ∧
  (b.length ≤ fuel → skip fuel (k + j) (b ++ r) = skip f' j r)

theorem items_nil : Items 0 [] := fun r fuel j => ⟨fuel, by simp, by omega, fun _ => by simp⟩

theorem items_append {k l : Nat} {a b : Bytes} (ha : Items k a) (hb : Items l b) : Items (k + l) (a ++ b) := by
  intro r fuel j
  obtain ⟨f1, h1, h1', e1⟩ := ha (b ++ r) fuel (l + j)
  obtain ⟨f2, h2, h2', e2⟩ := hb r f1 j
  refine ⟨f2, by simp; omega, by omega, fun hl => ?_⟩
  simp only [List.length_append] at hl
  rw [List.append_assoc, Nat.add_assoc, e1 (by omega), e2 (by omega)]

theorem items_flatten (l : List Bytes) (c : Nat) (h : ∀ b ∈ l, Items c b) : Items (l.length * c) l.flatten := by
  induction l with
  | nil => simpa using items_nil
  | cons b l ih =>
    have := items_append (h b (by simp)) (ih (fun b hb => h b (by simp [hb])))
    simp only [List.length_cons, List.flatten_cons]
    rwa [show (l.length + 1) * c = c + l.length * c by rw [Nat.add_mul]; omega]

theorem items_head {major n k : Nat} (hm : major < 8) (hn : n < 2 ^ 64) {b : Bytes} (hb : Items k b)
    (hk : ∀ fuel j r, skip (fuel + 1) (1 + j) (head major n ++ r) = skip fuel (k + j) r) : Items 1 (head major n ++ b) := by
  intro r fuel j
  have hl := head_length major n
  cases fuel with
  | zero => exact ⟨0, by omega, by omega, fun h => by simp at h; have := h.1; rw [this] at hl; simp at hl⟩
  | succ fuel =>
    obtain ⟨f', h1, h1', e⟩ := hb r fuel j
    refine ⟨f', by simp; omega, by omega, fun h => ?_⟩
    simp only [List.length_append] at h
    rw [List.append_assoc, hk, e (by omega)]

theorem skip_head {major n : Nat} (hm : major < 8) (hn : n < 2 ^ 64) (fuel j : Nat) (r : Bytes) :
    skip (fuel + 1) (1 + j) (head major n ++ r) =
      if major = 2 ∨ major = 3 then (take n r).bind fun p => skip fuel j p.2
      else if major = 4 then skip fuel (j + n) r
      else if major = 5 then skip fuel (j + 2 * n) r
      else if major = 6 then skip fuel (j + 1) r
      else skip fuel j r := by
  rw [Nat.add_comm 1 j, skip, readHead_head major n hm hn]

theorem items_num {n : Nat} (hn : n < 2 ^ 64) : Items 1 (head 0 n) := by
  have := items_head (major := 0) (by decide) hn items_nil (fun fuel j r => by
    rw [skip_head (by decide) hn]; simp)
  simpa using this

theorem items_bytes {major : Nat} (hm : major = 2 ∨ major = 3) {d : Bytes} (hd : d.length < 2 ^ 64) : Items 1 (head major d.length ++ d) := by
  intro r fuel j
  have hl := head_length major d.length
  cases fuel with
  | zero => exact ⟨0, by omega, by omega, fun h => by simp at h; have := h.1; rw [this] at hl; simp at hl⟩
  | succ fuel =>
    refine ⟨fuel, by simp; omega, by omega, fun h => ?_⟩
    rw [List.append_assoc, skip_head (by omega) hd, if_pos hm, take_append]
    rfl

theorem items_array {n : Nat} (hn : n < 2 ^ 64) {b : Bytes} (hb : Items n b) : Items 1 (head 4 n ++ b) :=
  items_head (by decide) hn hb (fun fuel j r => by rw [skip_head (by decide) hn]; simp [Nat.add_comm])

theorem items_map {n : Nat} (hn : n < 2 ^ 64) {b : Bytes} (hb : Items (2 * n) b) : Items 1 (head 5 n ++ b) :=
  items_head (by decide) hn hb (fun fuel j r => by rw [skip_head (by decide) hn]; simp [Nat.add_comm])

theorem items_event (e : Event) (h : e.Valid) : Items 1 e.encode := by
  obtain ⟨h1, h2, h3, h4⟩ := h
  have h12 := items_append (items_num (n := e.time) (by omega)) (items_num (n := e.id) (by omega))
  have h123 := items_append h12 (items_num (n := e.type) (by omega))
  unfold Event.encode
  cases hd : e.data with
  | none =>
    simp only [List.append_assoc] at h123 ⊢
    exact items_array (by decide) h123
  | some d =>
    have := items_append h123 (items_bytes (major := 2) (.inl rfl) (h4 d hd))
    simp only [List.append_assoc] at this ⊢
    exact items_array (by decide) this

theorem items_threads (m : Threads) (h : ThreadsValid m) : Items 1 (encodeThreads m) := by
  unfold encodeThreads
  apply items_map h.count
  have := items_flatten (m.map encodeThread) 2 (by
    intro b hb
    obtain ⟨x, hx, rfl⟩ := List.mem_map.mp hb
    refine items_append (k := 1) (l := 1) (items_num (h.tid x hx)) (items_array (h.counts x hx) ?_)
    have := items_flatten (x.2.map Event.encode) 1 (by
      intro b hb
      obtain ⟨e, he, rfl⟩ := List.mem_map.mp hb
      exact items_event e (h.events x hx e he))
    simpa using this)
  simpa [Nat.mul_comm] using this

theorem readRaw_items {b : Bytes} (h : Items 1 b) (r : Bytes) : readRaw (b ++ r) = some (b, r) := by
  obtain ⟨f', _, _, e⟩ := h r (b ++ r).length 0
  rw [readRaw, show (1 : Nat) = 1 + 0 from rfl, e (by simp), skip]
  · simp

end Scalopus.Cbor
