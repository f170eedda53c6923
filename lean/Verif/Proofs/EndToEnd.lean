import Verif.Spec.EndToEnd
import Verif.Proofs.Collector
import Verif.Proofs.Protocol
import Verif.Props.C11_Broadcast
import Verif.Props.C34_Recording

/-!
# Invariants of the whole system
-/

namespace Scalopus.EndToEnd

open Collector (Ev Batch)

/-! ### Steps of the collector -/

section
variable {α : Type}

theorem coll_log {c c' : Collector.State α} {a : Collector.Act α} (h : Collector.step c a = .ok c') :
    c'.log = c.log ∨ ∃ t v lag b, a = .emit t v lag ∧ c'.log = c.log ++ [(⟨t, c.rounds, v⟩, b)] := by
  cases a with
  | emit t v lag =>
    simp only [Collector.step] at h
    split at h
    · simp_all
    · split at h
      · simp at h
      · simp_all
      · split at h
        · simp at h
        · split at h
          · simp_all
          · right
            split at h <;> simp only [Res.ok.injEq] at h <;> subst h
            · exact ⟨t, v, lag, true, rfl, rfl⟩
            · exact ⟨t, v, lag, false, rfl, rfl⟩
  | _ =>
    left
    simp only [Collector.step] at h
    repeat' (first | (simp only [Res.ok.injEq] at h; subst h; rfl) | (cases h; done) | split at h)

theorem coll_batches {c c' : Collector.State α} {a : Collector.Act α} (h : Collector.step c a = .ok c') :
    c'.batches = c.batches ∨ a = .finish ∧ ∃ b : Batch α, b.sent = c.transport ∧ b.events = c.events ∧ c'.batches = c.batches ++ [b] := by
  cases a with
  | finish =>
    simp only [Collector.step] at h
    split at h
    · simp only [Res.ok.injEq] at h
      subst h
      simp only
      by_cases hc : c.collected = 0
      · left; rw [if_pos hc]
      · right; rw [if_neg hc]; exact ⟨trivial, ⟨c.transport, c.events⟩, rfl, rfl, rfl⟩
    · simp_all
  | _ =>
    left
    simp only [Collector.step] at h
    repeat' (first | (simp only [Res.ok.injEq] at h; subst h; rfl) | (cases h; done) | split at h)

/-- Identifiers of threads stay. -/
theorem coll_threads {c c' : Collector.State α} {a : Collector.Act α} (h : Collector.step c a = .ok c') :
    (∀ th' ∈ c'.threads, (∃ th ∈ c.threads, th.tid = th'.tid) ∨ a = .start th'.tid) ∧
    ∀ (t : Nat) th, c.threads[t]? = some th → ∃ th', c'.threads[t]? = some th' ∧ th'.tid = th.tid := by
  have hset : ∀ (t : Nat) (th th2 : Collector.Thread), c.threads[t]? = some th → th2.tid = th.tid →
      (∀ th' ∈ c.threads.set t th2, (∃ th ∈ c.threads, th.tid = th'.tid) ∨ a = .start th'.tid) ∧
      ∀ (t' : Nat) th', c.threads[t']? = some th' → ∃ th'', (c.threads.set t th2)[t']? = some th'' ∧ th''.tid = th'.tid := by
    intro t th th2 ht he
    refine ⟨fun th' hm => ?_, fun t' th' ht' => ?_⟩
    · rcases List.mem_or_eq_of_mem_set hm with hm | rfl
      · exact .inl ⟨th', hm, rfl⟩
      · exact .inl ⟨th, List.mem_of_getElem? ht, he.symm⟩
    · rw [List.getElem?_set]
      by_cases e : t = t'
      · subst e
        rw [ht] at ht'
        cases ht'
        have := (List.getElem?_eq_some_iff.mp ht).1
        exact ⟨th2, by simp [this], he⟩
      · exact ⟨th', by simp [e, ht'], rfl⟩
  have same : c'.threads = c.threads → _ := fun e => (show (∀ th' ∈ c'.threads, (∃ th ∈ c.threads, th.tid = th'.tid) ∨ a = .start th'.tid) ∧
    ∀ (t : Nat) th, c.threads[t]? = some th → ∃ th', c'.threads[t]? = some th' ∧ th'.tid = th.tid by
      rw [e]; exact ⟨fun th hm => .inl ⟨th, hm, rfl⟩, fun t th ht => ⟨th, ht, rfl⟩⟩)
  cases a with
  | retire t =>
    simp only [Collector.step] at h
    cases ht : c.threads[t]? with
    | none => rw [ht] at h; simp at h; subst h; exact same rfl
    | some th =>
      rw [ht] at h
      simp only at h
      split at h
      · split at h <;> simp only [Res.ok.injEq] at h <;> subst h <;> exact hset t th _ ht rfl
      · simp only [Res.ok.injEq] at h; subst h; exact same rfl
  | erase t =>
    simp only [Collector.step] at h
    cases ht : c.threads[t]? with
    | none => rw [ht] at h; simp at h; subst h; exact same rfl
    | some th =>
      rw [ht] at h
      simp only at h
      split at h
      · simp only [Res.ok.injEq] at h; subst h; exact hset t th _ ht rfl
      · simp only [Res.ok.injEq] at h; subst h; exact same rfl
  | start tid =>
    have hadd : ∀ th2 : Collector.Thread, th2.tid = tid → c'.threads = c.threads ++ [th2] → (∀ th' ∈ c'.threads, (∃ th ∈ c.threads, th.tid = th'.tid) ∨ Collector.Act.start tid = (.start th'.tid : Collector.Act α)) ∧
        ∀ (t : Nat) th, c.threads[t]? = some th → ∃ th', c'.threads[t]? = some th' ∧ th'.tid = th.tid := by
      intro th2 he hc
      rw [hc]
      refine ⟨fun th' hm => ?_, fun t th ht => ⟨th, ?_, rfl⟩⟩
      · rcases List.mem_append.mp hm with hm | hm
        · exact .inl ⟨th', hm, rfl⟩
        · simp at hm; subst hm; exact .inr (by rw [he])
      · rw [List.getElem?_append_left (List.getElem?_eq_some_iff.mp ht).1, ht]
    simp only [Collector.step] at h
    split at h
    · simp only [Res.ok.injEq] at h; subst h; exact same rfl
    · split at h
      · simp only [Res.ok.injEq] at h; subst h; exact hadd _ rfl rfl
      · split at h
        · simp at h
        · simp only [Res.ok.injEq] at h; subst h; exact hadd _ rfl rfl
  | _ =>
    apply same
    simp only [Collector.step] at h
    repeat' (first | (simp only [Res.ok.injEq] at h; subst h; rfl) | (cases h; done) | split at h)

/-- Every key of the current round and of the batches is the identifier of a thread. -/
def KeysBelow (c : Collector.State α) : Prop := (∀ x ∈ c.events, x.1 < 2 ^ 64) ∧ ∀ b ∈ c.batches, ∀ x ∈ b.events, x.1 < 2 ^ 64

theorem coll_events {c c' : Collector.State α} {a : Collector.Act α} (h : Collector.step c a = .ok c') :
    c'.events = c.events ∨ c'.events = [] ∨
      ∃ x l, x ∈ Collector.todo c.sender ∧ c'.events = Collector.addTo c.events x.tid l := by
  cases a with
  | collect k =>
    simp only [Collector.step] at h
    split at h
    · split at h
      · simp at h
      · simp only [Res.ok.injEq] at h
        subst h
        rename_i e rest hs _ _ _
        exact .inr (.inr ⟨e, _, by rw [hs]; simp [Collector.todo], rfl⟩)
    · simp_all
  | finish =>
    simp only [Collector.step] at h
    split at h <;> simp only [Res.ok.injEq] at h <;> subst h
    · exact .inr (.inl rfl)
    · exact .inl rfl
  | _ =>
    left
    simp only [Collector.step] at h
    repeat' (first | (simp only [Res.ok.injEq] at h; subst h; rfl) | (cases h; done) | split at h)

theorem keysBelow_step {c c' : Collector.State α} {a : Collector.Act α} (hw : Collector.Wf c) (hk : KeysBelow c)
    (ht : ∀ th ∈ c.threads, th.tid < 2 ^ 64) (h : Collector.step c a = .ok c') : KeysBelow c' := by
  constructor
  · intro x hx
    rcases coll_events h with e | e | ⟨y, l, hy, e⟩
    · rw [e] at hx; exact hk.1 x hx
    · rw [e] at hx; cases hx
    · obtain ⟨t, th, h1, h2, _⟩ := hw.todo y hy
      have := (Collector.keys_addTo c.events y.tid l x.1).mp (by rw [← e]; exact List.mem_map_of_mem hx)
      rcases this with e' | e'
      · obtain ⟨z, hz, hzx⟩ := List.mem_map.mp e'
        rw [← hzx]; exact hk.1 z hz
      · rw [e', ← h2]; exact ht th (List.mem_of_getElem? h1)
  · intro b hb x hx
    rcases coll_batches h with e | ⟨_, b', _, e1, e2⟩
    · rw [e] at hb; exact hk.2 b hb x hx
    · rw [e2] at hb
      rcases List.mem_append.mp hb with hb | hb
      · exact hk.2 b hb x hx
      · simp at hb; subst hb; rw [e1] at hx; exact hk.1 x hx

end

/-! ### The invariant of a process -/

/-- What holds of the threads and the sender of a process. -/
structure CInv (c : Collector.State Emission) : Prop where
  wf : Collector.Wf c
  cons : Collector.Conserved c
  serial : ∀ (j : Nat) y, c.log[j]? = some y → y.1.val.serial = j
  fits : ∀ y ∈ c.log, Fits y.1.val.point y.1.val.time = true
  tids : ∀ th ∈ c.threads, th.tid < 2 ^ 64
  keys : KeysBelow c

theorem cinv_init : CInv {} where
  wf := Collector.wf_init 10000
  cons := Collector.conserved_init 10000
  serial := by simp
  fits := by simp
  tids := by simp
  keys := ⟨by simp, by simp⟩

theorem cinv_step {c c' : Collector.State Emission} {a : Collector.Act Emission} (h : CInv c) (hs : Collector.step c a = .ok c')
    (hstart : ∀ tid, a = .start tid → tid < 2 ^ 64)
    (hemit : ∀ t v lag, a = .emit t v lag → v.serial = c.log.length ∧ Fits v.point v.time = true) : CInv c' where
  wf := Collector.wf_step h.wf a hs
  cons := Collector.conserved_step h.wf h.cons a hs
  serial := by
    intro j y hy
    rcases coll_log hs with e | ⟨t, v, lag, b, ha, e⟩
    · rw [e] at hy; exact h.serial j y hy
    · rw [e] at hy
      by_cases hj : j < c.log.length
      · rw [List.getElem?_append_left hj] at hy; exact h.serial j y hy
      · rw [List.getElem?_append_right (by omega)] at hy
        have hj' : j - c.log.length = 0 := by
          by_contra hne
          rw [List.getElem?_eq_none (by simp; omega)] at hy
          cases hy
        rw [hj'] at hy
        simp at hy
        subst hy
        rw [(hemit t v lag ha).1]
        omega
  fits := by
    intro y hy
    rcases coll_log hs with e | ⟨t, v, lag, b, ha, e⟩
    · rw [e] at hy; exact h.fits y hy
    · rw [e] at hy
      rcases List.mem_append.mp hy with hy | hy
      · exact h.fits y hy
      · simp at hy; subst hy; exact (hemit t v lag ha).2
  tids := by
    intro th hth
    rcases (coll_threads hs).1 th hth with ⟨th', h1, h2⟩ | e
    · rw [← h2]; exact h.tids th' h1
    · exact hstart _ e
  keys := keysBelow_step h.wf h.keys h.tids hs

def batchAt (x : Proc) (k : Nat) : Batch Emission := x.coll.batches.getD k ⟨true, []⟩

def item (x : Proc) (k : Nat) : Bytes × Bytes := (sendName, payload x.pid (batchAt x k))

/-- What holds of the messages of a process; `arr` are its batches that have arrived. -/
structure QInv (x : Proc) (arr : List Nat) : Prop where
  queue : x.server.queue = x.queued.map (item x)
  wire : x.wire = x.wired.flatMap fun k => Protocol.encode (Broadcast.message (item x k))
  nodup : (x.queued ++ x.wired ++ arr).Nodup
  bound : ∀ k ∈ x.queued ++ x.wired ++ arr, k < x.coll.batches.length
  conns : x.server.conns.Nodup
  namesNodup : (x.names.map (·.1)).Nodup
  namesBound : ∀ y ∈ x.names, y.1 < 2 ^ 32

theorem batchAt_append {x x' : Proc} {l : List (Batch Emission)} (hb : x'.coll.batches = x.coll.batches ++ l) (k : Nat)
    (hk : k < x.coll.batches.length) : batchAt x' k = batchAt x k := by
  unfold batchAt
  rw [hb]
  simp only [List.getD_eq_getElem?_getD]
  rw [List.getElem?_append_left hk]

theorem item_append {x x' : Proc} {l : List (Batch Emission)} (hp : x'.pid = x.pid) (hb : x'.coll.batches = x.coll.batches ++ l) (k : Nat)
    (hk : k < x.coll.batches.length) : item x' k = item x k := by
  unfold item
  rw [hp, batchAt_append hb k hk]

/-- Batches are added, the messages stay. -/
theorem qinv_grow {x x' : Proc} {arr : List Nat} {l : List (Batch Emission)} (h : QInv x arr) (hp : x'.pid = x.pid) (hn : x'.names = x.names)
    (hb : x'.coll.batches = x.coll.batches ++ l) (hs : x'.server = x.server) (hw : x'.wire = x.wire) (hq : x'.queued = x.queued) (hw' : x'.wired = x.wired) :
    QInv x' arr := by
  have hi : ∀ k ∈ x.queued ++ x.wired ++ arr, item x' k = item x k := fun k hk => item_append hp hb k (h.bound k hk)
  constructor
  · rw [hs, hq, h.queue]
    exact List.map_congr_left fun k hk => (hi k (by simp [hk])).symm
  · rw [hw, hw', h.wire]
    simp only [List.flatMap_def]
    congr 1
    exact List.map_congr_left fun k hk => by rw [hi k (by simp [hk])]
  · rw [hq, hw']; exact h.nodup
  · rw [hq, hw', hb]
    intro k hk
    have := h.bound k hk
    simp; omega
  · rw [hs]; exact h.conns
  · rw [hn]; exact h.namesNodup
  · rw [hn]; exact h.namesBound

/-- The sender broadcasts a new batch. -/
theorem qinv_broadcast {x : Proc} {arr : List Nat} (h : QInv x arr) (c : Collector.State Emission) (b : Batch Emission)
    (hb : c.batches = x.coll.batches ++ [b]) :
    QInv { x with
      coll := c
      server := Broadcast.step x.server (.broadcast sendName (payload x.pid b))
      queued := x.queued ++ [x.coll.batches.length] } arr := by
  have hg := qinv_grow (x' := { x with coll := c }) (l := [b]) h rfl rfl hb rfl rfl rfl rfl
  have hlast : item { x with coll := c } x.coll.batches.length = (sendName, payload x.pid b) := by
    simp [item, batchAt, hb]
  have hnot : x.coll.batches.length ∉ x.queued ++ x.wired ++ arr := fun hm => Nat.lt_irrefl _ (h.bound _ hm)
  constructor
  · simp only [Broadcast.step]
    rw [List.map_append, show x.server.queue = x.queued.map (item { x with coll := c }) from hg.queue]
    simp only [List.map_cons, List.map_nil]
    rw [← hlast]
    rfl
  · exact hg.wire
  · have := h.nodup
    simp only [List.mem_append, not_or] at hnot
    simp only [List.append_assoc, List.singleton_append] at this ⊢
    rw [List.nodup_append] at this ⊢
    refine ⟨this.1, ?_, ?_⟩
    · exact List.nodup_cons.mpr ⟨by simp [hnot], this.2.1⟩
    · intro a ha b hb'
      rcases List.mem_cons.mp hb' with rfl | hb'
      · intro e; subst e; exact hnot.1.1 ha
      · exact this.2.2 a ha b hb'
  · intro k hk
    simp only [List.mem_append, List.mem_singleton] at hk
    simp only [hb, List.length_append, List.length_singleton]
    rcases hk with ((hk | hk) | hk) | hk
    · have := h.bound k (by simp [hk]); omega
    · omega
    · have := h.bound k (by simp [hk]); omega
    · have := h.bound k (by simp [hk]); omega
  · exact h.conns
  · exact h.namesNodup
  · exact h.namesBound

theorem qinv_conns {x : Proc} {arr : List Nat} (h : QInv x arr) (a : Broadcast.Act) (ha : (∃ c, a = .connect c) ∨ ∃ c, a = .disconnect c) :
    QInv { x with server := Broadcast.step x.server a } arr := by
  have hq : (Broadcast.step x.server a).queue = x.server.queue := by
    rcases ha with ⟨c, rfl⟩ | ⟨c, rfl⟩ <;> rfl
  exact ⟨by rw [hq]; exact h.queue, h.wire, h.nodup, h.bound, C11.nodup_step _ _ h.conns, h.namesNodup, h.namesBound⟩

theorem qinv_register {x : Proc} {arr : List Nat} (h : QInv x arr) (id : Nat) (n : String) (hi : id < 2 ^ 32)
    (hf : x.names.all (fun y => y.1 ≠ id) = true) : QInv { x with names := x.names ++ [(id, n)] } arr := by
  refine ⟨h.queue, h.wire, h.nodup, h.bound, h.conns, ?_, ?_⟩
  · simp only [List.map_append, List.map_cons, List.map_nil]
    rw [List.nodup_append]
    refine ⟨h.namesNodup, by simp, ?_⟩
    intro a ha b hb
    simp at hb
    subst hb
    obtain ⟨y, hy, rfl⟩ := List.mem_map.mp ha
    simpa using List.all_eq_true.mp hf y hy
  · intro y hy
    rcases List.mem_append.mp hy with hy | hy
    · exact h.namesBound y hy
    · simp at hy; subst hy; exact hi

theorem last_cases {α : Type} (l : List α) : l = [] ∨ ∃ l' a, l = l' ++ [a] := by
  cases h : l.getLast? with
  | none => left; simpa using h
  | some m => right; exact ⟨l.dropLast, m, by rw [List.getLast?_eq_some_iff] at h; obtain ⟨l, rfl⟩ := h; simp⟩

/-- The effect of handling a broadcast. -/
theorem pump_cases {x : Proc} {arr : List Nat} (h : QInv x arr) (broken : List Nat) (hc : consumer ∉ broken) :
    (x.queued = [] ∧ pump x broken = x) ∨ ∃ q k, x.queued = q ++ [k] ∧ (pump x broken).queued = q ∧ (pump x broken).server.queue = q.map (item x) ∧
      (if consumer ∈ x.server.conns then (pump x broken).wired = x.wired ++ [k] ∧ (pump x broken).wire = x.wire ++ Protocol.encode (Broadcast.message (item x k))
        else (pump x broken).wired = x.wired ∧ (pump x broken).wire = x.wire) := by
  rcases last_cases x.queued with hq | ⟨q, k, hq⟩
  · left
    refine ⟨hq, ?_⟩
    have h1 : x.server.queue = [] := by rw [h.queue, hq]; rfl
    have h2 : Broadcast.step x.server (.process broken) = x.server := by simp [Broadcast.step, h1, Broadcast.popBroadcast]
    unfold pump
    simp only [h2, hq, List.drop_length, List.flatMap_nil, List.append_nil, List.dropLast_nil, List.getLast?_nil, Option.toList_none, ite_self]
    rw [← hq]
  · right
    have h1 : x.server.queue = q.map (item x) ++ [item x k] := by rw [h.queue, hq]; simp
    refine ⟨q, k, hq, by simp [pump, hq], ?_, ?_⟩
    · simp only [pump, Broadcast.step, h1, C11.pop_snoc]
    · have h2 := C11.deliveredTo_process consumer x.server _ _ broken h1 h.conns
      unfold pump
      simp only
      rw [h2, List.drop_append_of_le_length (Nat.le_refl _), List.drop_length, List.nil_append]
      by_cases hcc : consumer ∈ x.server.conns
      · simp [hcc, hc, hq]
      · simp [hcc]

theorem pump_rest (x : Proc) (broken : List Nat) : (pump x broken).pid = x.pid ∧ (pump x broken).coll = x.coll ∧ (pump x broken).names = x.names ∧
    (pump x broken).server.conns = x.server.conns := by
  refine ⟨rfl, rfl, rfl, ?_⟩
  simp only [pump, Broadcast.step]
  split <;> rfl

theorem qinv_pump {x : Proc} {arr : List Nat} (h : QInv x arr) (broken : List Nat) (hc : consumer ∉ broken) : QInv (pump x broken) arr := by
  obtain ⟨r1, r2, r3, r4⟩ := pump_rest x broken
  rcases pump_cases h broken hc with ⟨_, e⟩ | ⟨q, k, e1, e2, e3, e4⟩
  · rw [e]; exact h
  · have hi : item (pump x broken) = item x := by funext j; simp [item, batchAt, r1, r2]
    have hnd := h.nodup
    have hbd := h.bound
    rw [e1] at hnd hbd
    by_cases hcc : consumer ∈ x.server.conns
    · rw [if_pos hcc] at e4
      refine ⟨by rw [e3, e2, hi], ?_, ?_, ?_, by rw [r4]; exact h.conns, by rw [r3]; exact h.namesNodup, by rw [r3]; exact h.namesBound⟩
      · rw [e4.1, e4.2, hi, h.wire]; simp
      · rw [e2, e4.1]
        refine (List.Perm.nodup_iff ?_).mp hnd
        simp only [List.append_assoc]
        refine List.Perm.append_left q ?_
        rw [← List.append_assoc, ← List.append_assoc]
        exact List.perm_append_comm.append_right arr
      · rw [e2, e4.1, r2]
        intro j hj
        apply hbd
        simp only [List.mem_append, List.mem_singleton] at hj ⊢
        tauto
    · rw [if_neg hcc] at e4
      refine ⟨by rw [e3, e2, hi], ?_, ?_, ?_, by rw [r4]; exact h.conns, by rw [r3]; exact h.namesNodup, by rw [r3]; exact h.namesBound⟩
      · rw [e4.1, e4.2, hi, h.wire]
      · rw [e2, e4.1]
        refine List.Sublist.nodup ?_ hnd
        simp only [List.append_assoc]
        exact List.Sublist.append_left (List.sublist_append_right _ _) q
      · rw [e2, e4.1, r2]
        intro j hj
        apply hbd
        simp only [List.mem_append, List.mem_singleton] at hj ⊢
        tauto

theorem encode_ne_nil (m : Protocol.Msg) : Protocol.encode m ≠ [] := by
  simp [Protocol.encode, Protocol.sendParts, Protocol.leBytes]

/-- Reading a message from the wire. -/
theorem receive_cases {x : Proc} {arr : List Nat} (h : QInv x arr) (hsmall : ∀ b ∈ x.coll.batches, (payload x.pid b).length < 2 ^ 32)
    (hw : x.wire ≠ []) (pending : List UnixClient.Key) (hp : pending.any (fun k => k.2 = 0) = false) :
    ∃ k rest, x.wired = k :: rest ∧
      Protocol.receive { bytes := x.wire } = .ok (true, Broadcast.message (item x k), { bytes := rest.flatMap fun k => Protocol.encode (Broadcast.message (item x k)) }) ∧
      UnixClient.onReadable pending { bytes := x.wire } = .ok { lost := false, fulfilled := none, unsolicited := some (item x k) } := by
  cases hwd : x.wired with
  | nil => exfalso; apply hw; rw [h.wire, hwd]; rfl
  | cons k rest =>
    have hk : k < x.coll.batches.length := h.bound k (by simp [hwd])
    have hfit : Spec.Wire.Fits (Broadcast.message (item x k)) := by
      refine ⟨by simp [Broadcast.message], by simp [Broadcast.message, item, sendName], ?_⟩
      simp only [Broadcast.message, item]
      apply hsmall
      unfold batchAt
      rw [List.getD_eq_getElem?_getD, List.getElem?_eq_getElem hk]
      exact List.getElem_mem hk
    have hr : Protocol.receive { bytes := x.wire } = .ok (true, Broadcast.message (item x k), { bytes := rest.flatMap fun k => Protocol.encode (Broadcast.message (item x k)) }) := by
      rw [h.wire, hwd, List.flatMap_cons]
      have := Protocol.receive_encode (Broadcast.message (item x k)) (rest.flatMap fun k => Protocol.encode (Broadcast.message (item x k))) [] hfit (by simp [Spec.Wire.NoShortRead])
      simpa using this
    refine ⟨k, rest, rfl, hr, ?_⟩
    unfold UnixClient.onReadable
    rw [hr]
    simp only [Res.bind]
    rw [if_neg]
    · simp [Broadcast.message, item]
    · intro hm
      have := List.any_eq_false.mp hp _ hm
      simp [Broadcast.message] at this

theorem qinv_receive {x : Proc} {arr : List Nat} (h : QInv x arr) (k : Nat) (rest : List Nat) (hw : x.wired = k :: rest) :
    QInv { x with wire := rest.flatMap (fun k => Protocol.encode (Broadcast.message (item x k))), wired := rest } (arr ++ [k]) := by
  have hnd := h.nodup
  have hbd := h.bound
  rw [hw] at hnd hbd
  refine ⟨h.queue, rfl, ?_, ?_, h.conns, h.namesNodup, h.namesBound⟩
  · refine (List.Perm.nodup_iff ?_).mp hnd
    simp only [List.append_assoc, List.cons_append]
    refine List.Perm.append_left x.queued ?_
    rw [← List.append_assoc]
    exact List.perm_append_comm (l₁ := [k])
  · intro j hj
    apply hbd
    simp only [List.mem_append, List.mem_singleton, List.mem_cons] at hj ⊢
    tauto

/-! ### The invariant of the system -/

def ofProc (p : Nat) (arrivals : List (Nat × Nat)) : List Nat := arrivals.filterMap fun y => if y.1 = p then some y.2 else none

structure Inv (pids : List Nat) (s : State) : Prop where
  pids : s.procs.map (·.pid) = pids
  coll : ∀ x ∈ s.procs, CInv x.coll
  msgs : ∀ (p : Nat) x, s.procs[p]? = some x → QInv x (ofProc p s.arrivals)
  reach : Recording.Reachable s.rec'
  known : ∀ y ∈ s.arrivals, y.1 < s.procs.length
  calls : ∀ n d, .called n d ∈ s.rec'.log ↔ ∃ p k x, s.arrivals[n]? = some (p, k) ∧ s.procs[p]? = some x ∧ d = payload x.pid (batchAt x k)
  fresh : ∀ n, s.arrivals.length ≤ n → Recording.isNone (s.rec'.arr n)

theorem inv_init (pids : List Nat) : Inv pids (init pids) where
  pids := by simp [init, Function.comp_def]
  coll := by
    intro x hx
    simp only [init, List.mem_map] at hx
    obtain ⟨n, _, rfl⟩ := hx
    exact cinv_init
  msgs := by
    intro p x hx
    have := List.mem_of_getElem? hx
    simp only [init, List.mem_map] at this
    obtain ⟨n, _, rfl⟩ := this
    constructor <;> simp [ofProc, init]
  reach := .init
  known := by simp [init]
  calls := by simp [init]
  fresh := by intro n _; simp [init, Recording.isNone]

/-- Process `p` becomes `x'`; batches are only added. -/
theorem inv_setProc {pids : List Nat} {s : State} (h : Inv pids s) {p : Nat} {x x' : Proc} (hx : s.procs[p]? = some x) (hp : x'.pid = x.pid)
    (hc : CInv x'.coll) (hq : QInv x' (ofProc p s.arrivals)) (hb : ∃ l, x'.coll.batches = x.coll.batches ++ l) : Inv pids (setProc s p x') := by
  have hlt := (List.getElem?_eq_some_iff.mp hx).1
  have hget : ∀ (q : Nat), (s.procs.set p x')[q]? = if p = q then some x' else s.procs[q]? := by
    intro q
    rw [List.getElem?_set]
    split
    · rename_i e; subst e; simp [hlt]
    · rfl
  refine ⟨?_, ?_, ?_, h.reach, ?_, ?_, h.fresh⟩
  · rw [← h.pids]
    simp only [setProc, List.map_set]
    rw [hp]
    apply List.ext_getElem?
    intro q
    rw [List.getElem?_set]
    split
    · rename_i e; subst e; simp [hlt, (List.getElem?_eq_some_iff.mp hx).2]
    · rfl
  · intro y hy
    rcases List.mem_or_eq_of_mem_set hy with hy | rfl
    · exact h.coll y hy
    · exact hc
  · intro q y hy
    simp only [setProc] at hy ⊢
    rw [hget] at hy
    split at hy
    · rename_i e; subst e; cases hy; exact hq
    · exact h.msgs q y hy
  · simpa [setProc] using h.known
  · intro n d
    rw [show (setProc s p x').rec' = s.rec' from rfl, h.calls n d]
    simp only [setProc]
    have key : ∀ k, s.arrivals[n]? = some (p, k) → payload x'.pid (batchAt x' k) = payload x.pid (batchAt x k) := by
      intro k hk
      obtain ⟨l, hl⟩ := hb
      have : k ∈ ofProc p s.arrivals := by
        unfold ofProc
        rw [List.mem_filterMap]
        exact ⟨(p, k), List.mem_of_getElem? hk, by simp⟩
      rw [hp, batchAt_append hl k ((h.msgs p x hx).bound k (by simp [this]))]
    constructor
    · rintro ⟨q, k, y, h1, h2, h3⟩
      by_cases e : p = q
      · subst e
        rw [hx] at h2; cases h2
        exact ⟨p, k, x', h1, by rw [hget, if_pos rfl], by rw [h3, key k h1]⟩
      · exact ⟨q, k, y, h1, by rw [hget, if_neg e]; exact h2, h3⟩
    · rintro ⟨q, k, y, h1, h2, h3⟩
      rw [hget] at h2
      by_cases e : p = q
      · subst e
        rw [if_pos rfl] at h2; cases h2
        exact ⟨p, k, x, h1, hx, by rw [h3, key k h1]⟩
      · rw [if_neg e] at h2
        exact ⟨q, k, y, h1, h2, h3⟩

theorem okOption_some {α : Type} {r : Res α} {a : α} (h : okOption r = some a) : r = .ok a := by
  cases r <;> simp [okOption] at h
  rw [h]

/-- Steps of the consumer other than the arrival of data. -/
theorem rec_step_other {r r' : Recording.State Bytes} {a : Recording.Act Bytes} (h : Recording.step r a = some r') (ha : ∀ n d, a ≠ .call n d) :
    (∀ n d, .called n d ∈ r'.log ↔ .called n d ∈ r.log) ∧ ∀ n, Recording.isNone (r.arr n) → Recording.isNone (r'.arr n) := by
  cases a with
  | call n d => exact absurd rfl (ha n d)
  | make => simp only [Recording.step, Option.some.injEq] at h; subst h; exact ⟨fun _ _ => Iff.rfl, fun _ h => h⟩
  | lock n =>
    simp only [Recording.step] at h
    split at h
    · simp only [Option.some.injEq] at h; subst h
      refine ⟨fun _ _ => by simp [Recording.State.setArr], fun m hm => ?_⟩
      simp only [Recording.State.setArr]
      split
      · rename_i ha e; subst e; rw [ha] at hm; exact hm.elim
      · exact hm
    · simp at h
  | check n i =>
    simp only [Recording.step] at h
    split at h
    · split at h
      · simp only [Option.some.injEq] at h; subst h
        refine ⟨fun _ _ => by simp [Recording.State.setArr], fun m hm => ?_⟩
        simp only [Recording.State.setArr]
        split
        · rename_i ha _ e; subst e; rw [ha] at hm; exact hm.elim
        · exact hm
      · simp at h
    · simp at h
  | unlock n =>
    simp only [Recording.step] at h
    split at h
    · simp only [Option.some.injEq] at h; subst h
      refine ⟨fun _ _ => by simp [Recording.State.setArr], fun m hm => ?_⟩
      simp only [Recording.State.setArr]
      split
      · rename_i ha e; subst e; rw [ha] at hm; exact hm.elim
      · exact hm
    · simp at h
  | add n i =>
    simp only [Recording.step] at h
    split at h
    · split at h
      · simp only [Option.some.injEq] at h; subst h
        refine ⟨fun _ _ => by simp [Recording.State.setArr, Recording.State.setSrc], fun m hm => ?_⟩
        simp only [Recording.State.setArr, Recording.State.setSrc]
        split
        · rename_i ha _ e; subst e; rw [ha] at hm; exact hm.elim
        · exact hm
      · simp at h
    · simp at h
  | ret n =>
    simp only [Recording.step] at h
    split at h
    · simp only [Option.some.injEq] at h; subst h
      refine ⟨fun _ _ => by simp [Recording.State.setArr], fun m hm => ?_⟩
      simp only [Recording.State.setArr]
      split
      · rename_i ha e; subst e; rw [ha] at hm; exact hm.elim
      · exact hm
    · simp at h
  | _ =>
    simp only [Recording.step] at h
    split at h
    · simp only [Option.some.injEq] at h; subst h
      exact ⟨fun _ _ => by simp [Recording.State.setSrc], fun _ h => h⟩
    · simp at h

theorem rec_step_call {r : Recording.State Bytes} (n : Nat) (d : Bytes) (h : Recording.isNone (r.arr n)) :
    Recording.step r (.call n d) = some (r.setArr n (.called d) [.called n d]) := by
  simp only [Recording.step]
  cases ha : r.arr n <;> rw [ha] at h <;> first | rfl | exact h.elim

/-- What a step does to the processes. -/
theorem step_procs {s s' : State} {a : Act} (h : step s a = some s') :
    s'.procs = s.procs ∨ ∃ p x x', s.procs[p]? = some x ∧ s'.procs = s.procs.set p x' ∧ x'.pid = x.pid ∧
      (x'.coll = x.coll ∨ ∃ b, Collector.step x.coll b = .ok x'.coll) := by
  cases a with
  | register p id n =>
    simp only [step, Option.bind_eq_some_iff] at h
    obtain ⟨x, hx, h⟩ := h
    split at h
    · simp only [Option.some.injEq] at h; subst h; exact .inr ⟨p, x, _, hx, rfl, rfl, .inl rfl⟩
    · cases h
  | trace p t point time lag =>
    simp only [step, Option.bind_eq_some_iff] at h
    obtain ⟨x, hx, h⟩ := h
    split at h
    · simp only [Option.map_eq_some_iff] at h
      obtain ⟨c, hc, rfl⟩ := h
      exact .inr ⟨p, x, _, hx, rfl, rfl, .inr ⟨_, okOption_some hc⟩⟩
    · cases h
  | collector p b =>
    simp only [step, Option.bind_eq_some_iff] at h
    obtain ⟨x, hx, h⟩ := h
    cases b with
    | emit t v lag => cases h
    | start tid =>
      simp only at h
      split at h
      · simp only [Option.map_eq_some_iff] at h
        obtain ⟨c, hc, rfl⟩ := h
        exact .inr ⟨p, x, _, hx, rfl, rfl, .inr ⟨_, okOption_some hc⟩⟩
      · cases h
    | finish =>
      simp only [Option.map_eq_some_iff] at h
      obtain ⟨c, hc, h⟩ := h
      split at h
      · split at h <;> subst h <;> exact .inr ⟨p, x, _, hx, rfl, rfl, .inr ⟨_, okOption_some hc⟩⟩
      · subst h; exact .inr ⟨p, x, _, hx, rfl, rfl, .inr ⟨_, okOption_some hc⟩⟩
    | _ =>
      simp only [Option.map_eq_some_iff] at h
      obtain ⟨c, hc, rfl⟩ := h
      exact .inr ⟨p, x, _, hx, rfl, rfl, .inr ⟨_, okOption_some hc⟩⟩
  | connect p c =>
    simp only [step, Option.map_eq_some_iff] at h
    obtain ⟨x, hx, rfl⟩ := h
    exact .inr ⟨p, x, _, hx, rfl, rfl, .inl rfl⟩
  | disconnect p c =>
    simp only [step, Option.bind_eq_some_iff] at h
    obtain ⟨x, hx, h⟩ := h
    split at h
    · cases h
    · simp only [Option.some.injEq] at h; subst h; exact .inr ⟨p, x, _, hx, rfl, rfl, .inl rfl⟩
  | pump p broken =>
    simp only [step, Option.bind_eq_some_iff] at h
    obtain ⟨x, hx, h⟩ := h
    split at h
    · cases h
    · simp only [Option.some.injEq] at h; subst h; exact .inr ⟨p, x, _, hx, rfl, rfl, .inl rfl⟩
  | receive p pending =>
    simp only [step, Option.bind_eq_some_iff] at h
    obtain ⟨x, hx, h⟩ := h
    split at h
    · cases h
    · split at h
      · split at h
        · split at h
          · simp only [Option.map_eq_some_iff] at h
            obtain ⟨r, _, rfl⟩ := h
            exact .inr ⟨p, x, _, hx, rfl, rfl, .inl rfl⟩
          · simp only [Option.some.injEq] at h; subst h; exact .inr ⟨p, x, _, hx, rfl, rfl, .inl rfl⟩
        · simp only [Option.some.injEq] at h; subst h; exact .inr ⟨p, x, _, hx, rfl, rfl, .inl rfl⟩
      · cases h
  | consume b =>
    left
    cases b <;> simp only [step, Option.map_eq_some_iff, reduceCtorEq] at h <;> (obtain ⟨r, _, rfl⟩ := h; rfl)

/-- `x'` is what has become of process `x`. -/
structure Later (x x' : Proc) : Prop where
  pid : x'.pid = x.pid
  batches : ∃ l, x'.coll.batches = x.coll.batches ++ l
  log : ∃ l, x'.coll.log = x.coll.log ++ l
  threads : ∀ (t : Nat) th, x.coll.threads[t]? = some th → ∃ th', x'.coll.threads[t]? = some th' ∧ th'.tid = th.tid

theorem Later.refl (x : Proc) : Later x x := ⟨rfl, ⟨[], by simp⟩, ⟨[], by simp⟩, fun t th h => ⟨th, h, rfl⟩⟩

theorem Later.trans {x y z : Proc} (h : Later x y) (h' : Later y z) : Later x z := by
  obtain ⟨l1, e1⟩ := h.batches
  obtain ⟨l2, e2⟩ := h'.batches
  obtain ⟨l3, e3⟩ := h.log
  obtain ⟨l4, e4⟩ := h'.log
  refine ⟨by rw [h'.pid, h.pid], ⟨l1 ++ l2, by rw [e2, e1, List.append_assoc]⟩, ⟨l3 ++ l4, by rw [e4, e3, List.append_assoc]⟩, ?_⟩
  intro t th ht
  obtain ⟨th', h1, h2⟩ := h.threads t th ht
  obtain ⟨th'', h3, h4⟩ := h'.threads t th' h1
  exact ⟨th'', h3, by rw [h4, h2]⟩

theorem later_coll {x x' : Proc} (hp : x'.pid = x.pid) (h : x'.coll = x.coll ∨ ∃ b, Collector.step x.coll b = .ok x'.coll) : Later x x' := by
  rcases h with e | ⟨b, hb⟩
  · exact ⟨hp, ⟨[], by rw [e]; simp⟩, ⟨[], by rw [e]; simp⟩, fun t th h => ⟨th, by rw [e]; exact h, rfl⟩⟩
  · refine ⟨hp, ?_, ?_, (coll_threads hb).2⟩
    · rcases coll_batches hb with e | ⟨_, b', _, _, e⟩
      · exact ⟨[], by rw [e]; simp⟩
      · exact ⟨_, e⟩
    · rcases coll_log hb with e | ⟨_, _, _, _, _, e⟩
      · exact ⟨[], by rw [e]; simp⟩
      · exact ⟨_, e⟩

theorem step_later {s s' : State} {a : Act} (h : step s a = some s') (p : Nat) (x : Proc) (hx : s.procs[p]? = some x) :
    ∃ x', s'.procs[p]? = some x' ∧ Later x x' := by
  rcases step_procs h with e | ⟨q, y, y', hy, e, h1, h2⟩
  · exact ⟨x, by rw [e]; exact hx, .refl x⟩
  · rw [e, List.getElem?_set]
    by_cases hq : q = p
    · subst hq
      rw [hx] at hy; cases hy
      have := (List.getElem?_eq_some_iff.mp hx).1
      exact ⟨y', by simp [this], later_coll h1 h2⟩
    · exact ⟨x, by simp [hq, hx], .refl x⟩

theorem steps_later {s s' : State} (h : Steps s s') (p : Nat) (x : Proc) (hx : s.procs[p]? = some x) :
    ∃ x', s'.procs[p]? = some x' ∧ Later x x' := by
  induction h with
  | refl => exact ⟨x, hx, .refl x⟩
  | step _ h ih =>
    obtain ⟨y, hy, hl⟩ := ih
    obtain ⟨z, hz, hl'⟩ := step_later h p y hy
    exact ⟨z, hz, hl.trans hl'⟩

theorem small_earlier {s s' : State} (h : Steps s s') (hs : SmallBatches s') : SmallBatches s := by
  intro x hx b hb
  obtain ⟨p, hp⟩ := List.getElem?_of_mem hx
  obtain ⟨x', hx', hl⟩ := steps_later h p x hp
  obtain ⟨l, e⟩ := hl.batches
  have := hs x' (List.mem_of_getElem? hx') b (by rw [e]; simp [hb])
  rwa [hl.pid] at this

theorem Steps.single {s s' : State} {a : Act} (h : EndToEnd.step s a = some s') : Steps s s' := .step (.refl s) h

theorem Steps.trans {s s' s'' : State} (h : Steps s s') (h' : Steps s' s'') : Steps s s'' := by
  induction h' with
  | refl => exact h
  | step _ h2 ih => exact .step ih h2

theorem ofProc_snoc (p q k : Nat) (l : List (Nat × Nat)) : ofProc p (l ++ [(q, k)]) = ofProc p l ++ if q = p then [k] else [] := by
  unfold ofProc
  rw [List.filterMap_append]
  congr 1
  by_cases h : q = p <;> simp [h]

/-- What a receive step does. -/
theorem receive_step {pids : List Nat} {s s' : State} (h : Inv pids s) (hsmall : SmallBatches s) {p : Nat} {pending : List UnixClient.Key}
    (hs : step s (.receive p pending) = some s') :
    ∃ x k rest, s.procs[p]? = some x ∧ x.wired = k :: rest ∧
      s' = { setProc s p { x with wire := rest.flatMap (fun k => Protocol.encode (Broadcast.message (item x k))), wired := rest } with
        rec' := s.rec'.setArr s.arrivals.length (.called (payload x.pid (batchAt x k))) [.called s.arrivals.length (payload x.pid (batchAt x k))]
        arrivals := s.arrivals ++ [(p, k)] } := by
  simp only [step, Option.bind_eq_some_iff] at hs
  obtain ⟨x, hx, hs⟩ := hs
  by_cases hc : x.wire = [] ∨ pending.any (fun k => k.2 = 0) = true
  · rw [if_pos hc] at hs; cases hs
  · rw [if_neg hc] at hs
    simp only [not_or, Bool.not_eq_true] at hc
    obtain ⟨k, rest, e1, e2, e3⟩ := receive_cases (h.msgs p x hx) (hsmall x (List.mem_of_getElem? hx)) hc.1 pending hc.2
    rw [e2, e3] at hs
    simp only at hs
    rw [if_pos (show (item x k).1 = receiverName from rfl), rec_step_call _ _ (h.fresh _ (Nat.le_refl _))] at hs
    simp only [Option.map_some, Option.some.injEq] at hs
    refine ⟨x, k, rest, hx, e1, ?_⟩
    rw [← hs, e1]
    rfl

theorem inv_step {pids : List Nat} {s s' : State} {a : Act} (h : Inv pids s) (hsmall : SmallBatches s) (hs : step s a = some s') : Inv pids s' := by
  cases a with
  | register p id n =>
    simp only [step, Option.bind_eq_some_iff] at hs
    obtain ⟨x, hx, hs⟩ := hs
    split at hs
    · rename_i hc
      simp only [Option.some.injEq] at hs; subst hs
      exact inv_setProc h hx rfl (h.coll x (List.mem_of_getElem? hx)) (qinv_register (h.msgs p x hx) id n hc.1 hc.2) ⟨[], by simp⟩
    · cases hs
  | trace p t point time lag =>
    simp only [step, Option.bind_eq_some_iff] at hs
    obtain ⟨x, hx, hs⟩ := hs
    split at hs
    · rename_i hf
      simp only [Option.map_eq_some_iff] at hs
      obtain ⟨c, hc, rfl⟩ := hs
      have hc := okOption_some hc
      have hb : c.batches = x.coll.batches := by
        rcases coll_batches hc with e | ⟨e, _⟩
        · exact e
        · cases e
      refine inv_setProc h hx rfl (cinv_step (h.coll x (List.mem_of_getElem? hx)) hc (by simp) ?_)
        (qinv_grow (l := []) (h.msgs p x hx) rfl rfl (by simp [hb]) rfl rfl rfl rfl) ⟨[], by simp [hb]⟩
      intro t' v lag' e
      simp only [Collector.Act.emit.injEq] at e
      obtain ⟨_, e, _⟩ := e
      subst e
      exact ⟨rfl, hf⟩
    · cases hs
  | collector p b =>
    simp only [step, Option.bind_eq_some_iff] at hs
    obtain ⟨x, hx, hs⟩ := hs
    have hcx := h.coll x (List.mem_of_getElem? hx)
    have plain : ∀ c, Collector.step x.coll b = .ok c → b ≠ .finish → (∀ tid, b = .start tid → tid < 2 ^ 64) → (∀ t v lag, b ≠ .emit t v lag) →
        Inv pids (setProc s p { x with coll := c }) := by
      intro c hc hne h1 h2
      have hb : c.batches = x.coll.batches := by
        rcases coll_batches hc with e | ⟨e, _⟩
        · exact e
        · exact absurd e hne
      exact inv_setProc h hx rfl (cinv_step hcx hc h1 (fun t v lag e => absurd e (h2 t v lag)))
        (qinv_grow (l := []) (h.msgs p x hx) rfl rfl (by simp [hb]) rfl rfl rfl rfl) ⟨[], by simp [hb]⟩
    cases b with
    | emit t v lag => cases hs
    | start tid =>
      simp only at hs
      split at hs
      · rename_i ht
        simp only [Option.map_eq_some_iff] at hs
        obtain ⟨c, hc, rfl⟩ := hs
        exact plain c (okOption_some hc) (by simp) (by simpa using ht) (by simp)
      · cases hs
    | finish =>
      simp only [Option.map_eq_some_iff] at hs
      obtain ⟨c, hc, hs⟩ := hs
      have hc := okOption_some hc
      have hcc : CInv c := cinv_step hcx hc (by simp) (by simp)
      rcases coll_batches hc with e | ⟨_, b, h1, h2, e⟩
      · rw [e, List.getElem?_eq_none (Nat.le_refl _)] at hs
        simp only at hs
        subst hs
        exact inv_setProc h hx rfl hcc (qinv_grow (l := []) (h.msgs p x hx) rfl rfl (by simp [e]) rfl rfl rfl rfl) ⟨[], by simp [e]⟩
      · rw [e] at hs
        simp only [List.length_append, List.length_singleton, Nat.lt_add_one, List.getElem?_eq_getElem, Nat.le_refl, List.getElem_append_right,
          Nat.sub_self, List.getElem_singleton] at hs
        split at hs
        · subst hs
          exact inv_setProc h hx rfl hcc (qinv_broadcast (h.msgs p x hx) c b e) ⟨_, e⟩
        · subst hs
          exact inv_setProc h hx rfl hcc (qinv_grow (h.msgs p x hx) rfl rfl e rfl rfl rfl rfl) ⟨_, e⟩
    | _ =>
      simp only [Option.map_eq_some_iff] at hs
      obtain ⟨c, hc, rfl⟩ := hs
      exact plain c (okOption_some hc) (by simp) (by simp) (by simp)
  | connect p c =>
    simp only [step, Option.map_eq_some_iff] at hs
    obtain ⟨x, hx, rfl⟩ := hs
    exact inv_setProc h hx rfl (h.coll x (List.mem_of_getElem? hx)) (qinv_conns (h.msgs p x hx) _ (.inl ⟨c, rfl⟩)) ⟨[], by simp⟩
  | disconnect p c =>
    simp only [step, Option.bind_eq_some_iff] at hs
    obtain ⟨x, hx, hs⟩ := hs
    split at hs
    · cases hs
    · simp only [Option.some.injEq] at hs; subst hs
      exact inv_setProc h hx rfl (h.coll x (List.mem_of_getElem? hx)) (qinv_conns (h.msgs p x hx) _ (.inr ⟨c, rfl⟩)) ⟨[], by simp⟩
  | pump p broken =>
    simp only [step, Option.bind_eq_some_iff] at hs
    obtain ⟨x, hx, hs⟩ := hs
    split at hs
    · cases hs
    · rename_i hc
      simp only [Option.some.injEq] at hs; subst hs
      exact inv_setProc h hx rfl (h.coll x (List.mem_of_getElem? hx)) (qinv_pump (h.msgs p x hx) broken hc) ⟨[], by simp [pump]⟩
  | receive p pending =>
    obtain ⟨x, k, rest, hx, hw, rfl⟩ := receive_step h hsmall hs
    have hlt := (List.getElem?_eq_some_iff.mp hx).1
    let x' : Proc := { x with wire := rest.flatMap (fun k => Protocol.encode (Broadcast.message (item x k))), wired := rest }
    have hq := qinv_receive (h.msgs p x hx) k rest hw
    have hget : ∀ (q : Nat), (s.procs.set p x')[q]? = if p = q then some x' else s.procs[q]? := by
      intro q
      rw [List.getElem?_set]
      split
      · rename_i e; subst e; simp [hlt]
      · rfl
    refine ⟨?_, ?_, ?_, ?_, ?_, ?_, ?_⟩
    · rw [← h.pids]
      simp only [setProc, List.map_set]
      apply List.ext_getElem?
      intro q
      rw [List.getElem?_set]
      split
      · rename_i e; subst e; simp [hlt, (List.getElem?_eq_some_iff.mp hx).2]
      · rfl
    · intro y hy
      simp only [setProc] at hy
      rcases List.mem_or_eq_of_mem_set hy with hy | rfl
      · exact h.coll y hy
      · exact h.coll x (List.mem_of_getElem? hx)
    · intro q y hy
      simp only [setProc] at hy ⊢
      rw [hget] at hy
      rw [ofProc_snoc]
      by_cases e : p = q
      · subst e
        rw [if_pos rfl] at hy
        cases hy
        rw [if_pos rfl]
        exact hq
      · rw [if_neg e] at hy
        rw [if_neg e, List.append_nil]
        exact h.msgs q y hy
    · exact .step h.reach (rec_step_call _ _ (h.fresh _ (Nat.le_refl _)))
    · intro y hy
      simp only [setProc, List.length_set] at hy ⊢
      rcases List.mem_append.mp hy with hy | hy
      · exact h.known y hy
      · simp at hy; subst hy; exact hlt
    · intro n d
      simp only [Recording.State.setArr, setProc, List.mem_append, List.mem_singleton, h.calls n d, Recording.Obs.called.injEq]
      have hsame : ∀ (q : Nat) (y : Proc), (s.procs.set p x')[q]? = some y → ∃ z, s.procs[q]? = some z ∧ ∀ k, payload y.pid (batchAt y k) = payload z.pid (batchAt z k) := by
        intro q y hy
        rw [hget] at hy
        by_cases e : p = q
        · subst e
          rw [if_pos rfl] at hy
          cases hy
          exact ⟨x, hx, fun _ => rfl⟩
        · rw [if_neg e] at hy
          exact ⟨y, hy, fun _ => rfl⟩
      have hsame' : ∀ (q : Nat) (y : Proc), s.procs[q]? = some y → ∃ z, (s.procs.set p x')[q]? = some z ∧ ∀ k, payload y.pid (batchAt y k) = payload z.pid (batchAt z k) := by
        intro q y hy
        rw [hget]
        by_cases e : p = q
        · subst e
          rw [hx] at hy
          cases hy
          exact ⟨x', by rw [if_pos rfl], fun _ => rfl⟩
        · exact ⟨y, by rw [if_neg e]; exact hy, fun _ => rfl⟩
      constructor
      · rintro (⟨q, j, y, h1, h2, h3⟩ | ⟨rfl, rfl⟩)
        · obtain ⟨z, h4, h5⟩ := hsame' q y h2
          exact ⟨q, j, z, by rw [List.getElem?_append_left (List.getElem?_eq_some_iff.mp h1).1]; exact h1, h4, by rw [h3, h5]⟩
        · obtain ⟨z, h4, h5⟩ := hsame' p x hx
          exact ⟨p, k, z, by simp, h4, h5 k⟩
      · rintro ⟨q, j, y, h1, h2, h3⟩
        obtain ⟨z, h4, h5⟩ := hsame q y h2
        by_cases hn : n < s.arrivals.length
        · rw [List.getElem?_append_left hn] at h1
          exact .inl ⟨q, j, z, h1, h4, by rw [h3, h5]⟩
        · have hn' : n = s.arrivals.length := by
            by_contra hne
            rw [List.getElem?_eq_none (by simp; omega)] at h1
            cases h1
          subst hn'
          simp at h1
          obtain ⟨rfl, rfl⟩ := h1
          rw [hx] at h4
          cases h4
          exact .inr ⟨rfl, by rw [h3, h5]⟩
    · intro n hn
      simp only [List.length_append, List.length_singleton] at hn
      simp only [Recording.State.setArr]
      rw [if_neg (by omega)]
      exact h.fresh n (by omega)
  | consume b =>
    have plain : ∀ r, Recording.step s.rec' b = some r → (∀ n d, b ≠ .call n d) → Inv pids { s with rec' := r } := by
      intro r hr hne
      obtain ⟨h1, h2⟩ := rec_step_other hr hne
      exact ⟨h.pids, h.coll, h.msgs, .step h.reach hr, h.known, fun n d => by rw [h1]; exact h.calls n d, fun n hn => h2 n (h.fresh n hn)⟩
    cases b <;> simp only [step, Option.map_eq_some_iff, reduceCtorEq] at hs <;>
      (obtain ⟨r, hr, rfl⟩ := hs; exact plain r hr (by simp))

theorem inv_reachable {pids : List Nat} {s : State} (h : Reachable pids s) (hsmall : SmallBatches s) : Inv pids s := by
  unfold Reachable at h
  generalize hi : init pids = s0 at h
  induction h with
  | refl => subst hi; exact inv_init pids
  | step h1 h2 ih =>
    have := small_earlier (Steps.single h2) hsmall
    exact inv_step (ih this) this h2

end Scalopus.EndToEnd
