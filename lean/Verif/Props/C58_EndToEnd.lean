import Mathlib.Data.List.Perm.Basic
import Verif.Proofs.EndToEndLossless
import Verif.Props.C31_NativeSource
import Verif.Props.C35_ScopeNames

/-!
# C58: from a tracepoint to the viewer

Quantifies over every number of processes, threads and consumers' sources and every interleaving of their steps.
-/

namespace Scalopus.EndToEnd

open Collector (Ev Batch listed)
open NativeSource (Entry)
open TraceState (Point)

theorem split_first (n : String) : (ScopeNames.splitCounterSeriesName n).1 = String.ofList (n.toList.takeWhile (· ≠ '/')) := by
  unfold ScopeNames.splitCounterSeriesName
  by_cases h : n.toList.contains '/' = true
  · rw [if_pos h]
  · rw [if_neg h]
    have : n.toList.takeWhile (· ≠ '/') = n.toList := by
      have hm : ∀ x ∈ n.toList, x ≠ '/' := by
        rintro x hx rfl
        exact h (by simpa using hx)
      revert hm
      generalize n.toList = l
      intro hm
      induction l with
      | nil => rfl
      | cons a l ih =>
        rw [List.takeWhile_cons, if_pos (by simpa using hm a (by simp)), ih fun x hx => hm x (by simp [hx])]
    rw [this, String.ofList_toList]

theorem split_second (n : String) : (ScopeNames.splitCounterSeriesName n).2 = seriesIn n := by
  unfold ScopeNames.splitCounterSeriesName seriesIn
  by_cases h : '/' ∈ n.toList
  · rw [if_pos h, if_pos (by simpa using h)]
  · rw [if_neg h, if_neg (by simpa using h)]

/-- Phase and scope of an event. -/
theorem phase_eventOf (e : Emission) : (NativeSource.Spec.phase (eventOf e).type).getD ("", none) = phaseOf e.point ∧ (eventOf e).id = idOf e.point ∧
    (eventOf e).time = e.time ∧ ((eventOf e).type = 6 ↔ ∃ id v, e.point = .count id v) := by
  obtain ⟨n, p, t⟩ := e
  cases p with
  | entry id => simp [eventOf, TraceState.record, NativeSource.Spec.phase, phaseOf, idOf]
  | exit id => simp [eventOf, TraceState.record, NativeSource.Spec.phase, phaseOf, idOf]
  | mark id l => cases l <;> simp [eventOf, TraceState.record, NativeSource.Spec.phase, phaseOf, idOf]
  | count id v => simp [eventOf, TraceState.record, NativeSource.Spec.phase, phaseOf, idOf]

/-- What is shown of a recorded event is what should be shown of the emission. -/
theorem shows_of_shown (names : Endpoints.TraceMap) (p : Proc) (tid : Nat) (e : Emission) (x : Entry) (hf : Fits e.point e.time = true)
    (hn : ∀ id n, (id, n) ∈ p.names → ScopeNames.getScopeName names p.pid id = n)
    (h1 : x.shape = NativeSource.Spec.shown names ⟨p.pid, tid, eventOf e⟩)
    (h2 : ∀ s z, NativeSource.Spec.seriesOf names x.pid x.name ⟨p.pid, tid, eventOf e⟩ = some (s, z) → (x.args.getD []).lookup s = some z) :
    Shows p tid e x := by
  obtain ⟨g1, g2, g3, g4⟩ := phase_eventOf e
  have e1 : x.ts = Double.ts (eventOf e).time := congrArg NativeSource.Spec.Shown.ts h1
  have e2 : x.tid = tid := congrArg NativeSource.Spec.Shown.tid h1
  have e3 : x.pid = p.pid := congrArg NativeSource.Spec.Shown.pid h1
  have e4 : x.name = NativeSource.Spec.shownName names ⟨p.pid, tid, eventOf e⟩ := congrArg NativeSource.Spec.Shown.name h1
  have e5 : x.ph = ((NativeSource.Spec.phase (eventOf e).type).getD ("", none)).1 := congrArg NativeSource.Spec.Shown.ph h1
  have e6 : x.s = ((NativeSource.Spec.phase (eventOf e).type).getD ("", none)).2 := congrArg NativeSource.Spec.Shown.s h1
  refine ⟨?_, e3, e2, by rw [e1, g3], ?_, ?_⟩
  · rw [e5, e6, g1]
  · intro n hm
    rw [e4]
    unfold NativeSource.Spec.shownName
    simp only
    rw [g2, hn _ _ hm]
    by_cases hc : (eventOf e).type = 6
    · rw [if_pos hc]
      obtain ⟨id, v, hp⟩ := g4.mp hc
      rw [split_first, hp]
      rfl
    · rw [if_neg hc]
      cases hp : e.point with
      | count id v => exact absurd (g4.mpr ⟨id, v, hp⟩) hc
      | _ => rfl
  · intro id v n hp hm
    have hc := g4.mpr ⟨id, v, hp⟩
    have hid : (eventOf e).id = id := by rw [g2, hp]; rfl
    apply h2
    unfold NativeSource.Spec.seriesOf
    rw [if_pos ⟨hc, e3.symm, e4.symm⟩]
    simp only
    rw [hid, hn _ _ hm, split_second]
    have hd : (eventOf e).data = some (Cbor.encodeCounter v) := by
      unfold eventOf
      rw [hp]
      rfl
    have hv : -2 ^ 63 ≤ v ∧ v < 2 ^ 63 := by
      unfold Fits at hf
      rw [hp] at hf
      simp at hf
      exact ⟨hf.2.1.2, hf.2.2⟩
    unfold NativeSource.Spec.counterValue
    rw [hd]
    simp only [(C30.counter_round_trip v hv).1]
    rfl

end Scalopus.EndToEnd

namespace Scalopus.C58

open EndToEnd
open Collector (Ev listed)
open NativeSource (Entry)

/-- **C58.** In every history of the whole system, what `finishInterval()` of any source returns consists of one entry for each event of a list without repetitions. Each of
    these events was emitted by a thread of one of the processes and not handed over before the start of the interval, and its entry shows phase, process, thread, time, name and counter value of it. Every event that was
    emitted while the source recorded, and collected and transmitted before the recording ended, is in the list. The entries are in the order of time. -/
theorem reaches_viewer_once {pids : List Nat} {s : State} (h : Reachable pids s) (hn : pids.Nodup) (hp : ∀ n ∈ pids, n < 2 ^ 31) (hsmall : SmallBatches s)
    (i : Nat) (ds : List (Nat × Bytes)) (l1 l2 : List (Recording.Obs Bytes)) (hl : s.rec'.log = l1 ++ .returned i ds :: l2) (old : Endpoints.TraceMap) :
    ∃ res events, result s old ds = .ok res ∧ events.Nodup ∧
      List.Forall₂ (fun (x : Entry) (pe : Nat × Ev Emission) => ∃ proc tid, s.procs[pe.1]? = some proc ∧ Emitted s pe.1 tid pe.2 ∧
        NotBefore s i l1 pe.1 pe.2 ∧ Shows proc tid pe.2.val x) res events ∧
      (∀ p e, Captured pids s i l1 p e → (p, e) ∈ events) ∧
      res.Pairwise fun x y => x.ts ≤ y.ts := by
  have inv := inv_reachable h hsmall
  /- where the data came from -/
  obtain ⟨k, hk⟩ := exists_forall₂ (fun (nd : Nat × Bytes) (y : Src) => s.arrivals[nd.1]? = some (y.1, y.2.1) ∧ s.procs[y.1]? = some y.2.2 ∧
      nd.2 = payload y.2.2.pid (batchAt y.2.2 y.2.1)) ds (by
    intro nd hnd
    obtain ⟨a, b, c, hab, _, _, hcall, _⟩ := C34.returned_arrived inv.reach i nd.1 nd.2 ds l1 l2 hl hnd
    have hc : .called nd.1 nd.2 ∈ s.rec'.log := by rw [hl, hab]; exact List.mem_append_left _ (List.mem_append_left _ hcall)
    obtain ⟨p, j, x, g1, g2, g3⟩ := (inv.calls nd.1 nd.2).mp hc
    exact ⟨(p, j, x), g1, g2, g3⟩)
  have hdata : ds.map (·.2) = NativeSource.encoded (k.map toBatch) := by
    unfold NativeSource.encoded
    rw [List.map_map]
    exact forall₂_map_eq _ _ hk fun a b hab => hab.2.2
  have hkn : (k.map fun y => (y.1, y.2.1)).Nodup := by
    refine forall₂_nodup _ _ hk (returned_nodup inv.reach i ds l1 l2 hl) ?_
    intro a b a' b' h1 h2 e
    have hlt := (List.getElem?_eq_some_iff.mp h1.1).1
    refine (List.getElem?_inj hlt (arrivals_nodup inv)).mp ?_
    rw [h1.1, h2.1]
    exact congrArg some e
  have hproc : ∀ y ∈ k, s.procs[y.1]? = some y.2.2 := fun y hy => by
    obtain ⟨_, _, hr⟩ := forall₂_mem_right hk y hy
    exact hr.2.1
  have hcoll : ∀ y ∈ k, CInv y.2.2.coll := fun y hy => inv.coll _ (List.mem_of_getElem? (hproc y hy))
  have hlen : ∀ y ∈ k, y.2.1 < y.2.2.coll.batches.length := fun y hy => by
    obtain ⟨_, _, hr⟩ := forall₂_mem_right hk y hy
    exact (inv.msgs _ _ (hproc y hy)).bound _ (by
      simp only [List.mem_append]
      right
      exact List.mem_filterMap.mpr ⟨_, List.mem_of_getElem? hr.1, by simp⟩)
  have hat : ∀ y ∈ k, y.2.2.coll.batches[y.2.1]? = some (batchAt y.2.2 y.2.1) := by
    intro y hy
    unfold batchAt
    rw [List.getD_eq_getElem?_getD, List.getElem?_eq_getElem (hlen y hy)]
    rfl
  have hbm : ∀ y ∈ k, batchAt y.2.2 y.2.1 ∈ y.2.2.coll.batches := fun y hy => List.mem_of_getElem? (hat y hy)
  have hkeys : ∀ y ∈ k, ((batchAt y.2.2 y.2.1).events.map (·.1)).Nodup := fun y hy => ((hcoll y hy).cons.keysB _ (hbm y hy)).1
  have hpid : ∀ x ∈ s.procs, x.pid ∈ pids := fun x hx => by rw [← inv.pids]; exact List.mem_map_of_mem hx
  have hvalid : NativeSource.Valid (k.map toBatch) := by
    intro b hb
    obtain ⟨y, hy, rfl⟩ := List.mem_map.mp hb
    have hm := List.mem_of_getElem? (hproc y hy)
    exact ⟨hp _ (hpid _ hm), batch_valid (hcoll y hy) _ (hbm y hy) y.2.2.pid (hsmall _ hm _ (hbm y hy))⟩
  have hperm := recorded_perm k hkeys
  /- each of the events was emitted -/
  have hev : ∀ q ∈ k.flatMap Src.events, ∃ y ∈ k, q.1 = y.1 ∧ q.2.1 = y.2.2 ∧ listed (batchAt y.2.2 y.2.1) q.2.2.1 q.2.2.2 := by
    intro q hq
    obtain ⟨y, hy, hq⟩ := List.mem_flatMap.mp hq
    obtain ⟨z, hz, hq⟩ := List.mem_flatMap.mp hq
    obtain ⟨e, he, rfl⟩ := List.mem_map.mp hq
    exact ⟨y, hy, rfl, rfl, z, hz, rfl, he⟩
  have hemit : ∀ q ∈ k.flatMap Src.events, s.procs[q.1]? = some q.2.1 ∧ Emitted s q.1 q.2.2.1 q.2.2.2 ∧ Fits q.2.2.2.val.point q.2.2.2.val.time = true := by
    intro q hq
    obtain ⟨y, hy, e1, e2, z, hz, e3, he⟩ := hev q hq
    obtain ⟨g5, th, g6, g7⟩ := (hcoll y hy).cons.tidsB _ (hbm y hy) z hz _ he
    rw [e1, e2, ← e3]
    exact ⟨hproc y hy, ⟨_, th, hproc y hy, g5, g6, g7⟩, (hcoll y hy).fits _ g5⟩
  have hbefore : ∀ q ∈ k.flatMap Src.events, NotBefore s i l1 q.1 q.2.2.2 := by
    intro q hq
    obtain ⟨y, hy, e1, e2, hlist⟩ := hev q hq
    obtain ⟨nd, hnd, hr⟩ := forall₂_mem_right hk y hy
    obtain ⟨a, b, c, hab, hns, hnc, _⟩ := C34.returned_arrived inv.reach i nd.1 nd.2 ds l1 l2 hl hnd
    rw [e1]
    exact ⟨_, _, _, nd.1, _, a, b ++ c, hproc y hy, hat y hy, hlist, hr.1, by rw [hab]; simp, hns, hnc⟩
  have hknown : ∀ r ∈ NativeSource.Spec.recorded (k.map toBatch), NativeSource.Spec.Known r.event := by
    intro r hr
    obtain ⟨q, hq, rfl⟩ := List.mem_map.mp (hperm.mem_iff.mp hr)
    exact (fits_valid _ (hemit q hq).2.2).2
  /- the names -/
  obtain ⟨names, hm, hnames⟩ := C35.refreshed_names_exact old (s.procs.map fun p => ((p.pid : Int), p.names))
    (by
      rw [List.map_map]
      have : ((fun x : Int × List (Nat × String) => x.1) ∘ fun p : Proc => ((p.pid : Int), p.names)) = (fun n : Nat => (n : Int)) ∘ (·.pid) := rfl
      rw [this, ← List.map_map, inv.pids]
      exact hn.map fun a b => Int.ofNat.inj)
    (by
      intro x hx
      obtain ⟨p, hpm, rfl⟩ := List.mem_map.mp hx
      have := hp _ (hpid p hpm)
      simp only
      omega)
    (by
      intro x hx
      obtain ⟨p, hpm, rfl⟩ := List.mem_map.mp hx
      obtain ⟨j, hj⟩ := List.getElem?_of_mem hpm
      exact (inv.msgs j p hj).namesNodup)
    (by
      intro x hx
      obtain ⟨p, hpm, rfl⟩ := List.mem_map.mp hx
      obtain ⟨j, hj⟩ := List.getElem?_of_mem hpm
      exact (inv.msgs j p hj).namesBound)
  rw [List.map_map] at hm
  obtain ⟨res, order, hres, hord, hshow⟩ := C32.own_value_kept names _ hvalid hknown
  obtain ⟨res', hres', -, hsorted, -⟩ := C31.interval_exact names _ hvalid hknown
  rw [hres] at hres'
  simp only [Res.ok.injEq] at hres'
  subst hres'
  obtain ⟨src, hsrc, hmap⟩ : ∃ src : List (Nat × Proc × Nat × Ev Emission), src.Perm (k.flatMap Src.events) ∧ src.map toRec = order := by
    have hq := hord.trans hperm
    obtain ⟨src, g1, g2⟩ := List.perm_comp_forall₂ (r := fun r q => r = toRec q) hq (by
      rw [List.forall₂_map_left_iff]
      exact List.forall₂_same.mpr fun _ _ => rfl)
    refine ⟨src, g2, ?_⟩
    have := forall₂_map_eq id toRec g1 fun a b e => e
    rw [List.map_id] at this
    exact this.symm
  subst hmap
  refine ⟨res, src.map fun q => (q.1, q.2.2.2), ?_, ?_, ?_, ?_, hsorted⟩
  · unfold result
    rw [← hres, hdata]
    congr 2
  · exact (hsrc.map _).nodup_iff.mpr (events_nodup k hkn s.procs hproc hlen hcoll)
  · rw [List.forall₂_map_right_iff] at hshow ⊢
    have hall : ∀ q ∈ src, q ∈ k.flatMap Src.events := fun q hq => hsrc.mem_iff.mp hq
    revert hall
    clear hsrc hord hres hsorted
    induction hshow with
    | nil => intro _; exact .nil
    | @cons x q res src h1 _ ih =>
      intro hall
      refine .cons ?_ (ih fun q hq => hall q (by simp [hq]))
      have hq := hall q (by simp)
      obtain ⟨g1, g2, g3⟩ := hemit q hq
      refine ⟨q.2.1, q.2.2.1, g1, g2, hbefore q hq, shows_of_shown names _ _ _ _ g3 ?_ h1.1 h1.2⟩
      intro id n hid
      exact hnames _ (List.mem_map_of_mem (List.mem_of_getElem? g1)) id n hid
  · intro p e hc
    obtain ⟨n, j, x, tid, d, g1, g2, g3, g4, z, hz, hzt, hez⟩ := captured_data h hsmall i ds l1 l2 hl p e hc
    obtain ⟨y, hy, hr1, hr2, _⟩ := forall₂_mem_left hk (n, d) g1
    simp only at hr1
    rw [g2] at hr1
    simp only [Option.some.injEq, Prod.mk.injEq] at hr1
    rw [← hr1.1, g3] at hr2
    simp only [Option.some.injEq] at hr2
    refine List.mem_map.mpr ⟨(p, x, z.1, e), hsrc.mem_iff.mpr (List.mem_flatMap.mpr ⟨y, hy, ?_⟩), rfl⟩
    refine List.mem_flatMap.mpr ⟨z, ?_, List.mem_map.mpr ⟨e, hez, ?_⟩⟩
    · rw [← hr2, ← hr1.2]; exact hz
    · rw [← hr2, ← hr1.1]

/-- **C58, nothing is lost on the way.** An event that is emitted while the source records and the process is connected to the consumer counts as captured as soon as nothing
    of its process is on its way any more: neither in a ring buffer, nor in a round of the sender, nor in a queue of the server, nor on the wire, nor in `incoming`. -/
theorem drained_is_captured {pids : List Nat} {s0 s1 s : State} (h0 : Reachable pids s0) (h01 : Steps s0 s1) (h1 : Steps s1 s) (hsmall : SmallBatches s)
    (i p tid : Nat) (e : Ev Emission) (c l4 : List (Recording.Obs Bytes)) (hr : IsRecording i s0.rec'.log) (hc : Connected s0 p)
    (hnew : ∀ tid, ¬ Emitted s0 p tid e) (he : Emitted s1 p tid e) (hd : Drained s1 p) (hlog : s1.rec'.log = s0.rec'.log ++ c) (hu : Recording.Undisturbed i c)
    (h4 : .starting i ∉ l4) (h5 : ∀ ds, .returned i ds ∉ c ++ l4) : Captured pids s i (s1.rec'.log ++ l4) p e :=
  ⟨s0, s1, c, l4, h0, h01, h1, hr, hnew, hlog, hu, drained_handed h0 h01 (small_earlier h1 hsmall) p tid e hc hnew he hd, rfl, h4, h5⟩

end Scalopus.C58

namespace Scalopus.EndToEnd.Examples

open EndToEnd
open Collector (Ev)

def run (s : State) : List Act → Option State
  | [] => some s
  | a :: as => (step s a).bind fun s => run s as

theorem run_steps (as : List Act) (s s' : State) (e : run s as = some s') : Steps s s' := by
  induction as generalizing s with
  | nil => simp only [run, Option.some.injEq] at e; subst e; exact .refl _
  | cons a as ih =>
    simp only [run, Option.bind_eq_some_iff] at e
    obtain ⟨t, h1, h2⟩ := e
    exact (Steps.single h1).trans (ih t h2)

/-- Two processes, 7 and 8, both connected; a source is started. -/
def before : List Act :=
  [.register 0 1 "f", .register 0 2 "c/a", .register 1 1 "g", .connect 0 0, .connect 0 5, .connect 1 0, .collector 0 .setTransport, .collector 1 .setTransport,
   .collector 0 (.start 100), .consume .make, .consume (.start 0), .consume (.clear 0), .consume (.on 0)]

/-- A round of the sender with one buffer. -/
def round (p : Nat) : List Act := [.collector p .takeOrphans, .collector p .snapshot, .collector p (.collect none), .collector p .finish]

/-- `incoming` in the consumer. -/
def incoming (n : Nat) : List Act :=
  [.consume (.lock n), .consume (.check n 0), .consume (.unlock n), .consume (.add n 0), .consume (.ret n)]

/-- The processes trace, their senders send, and the consumer receives. -/
def during : List Act :=
  [.trace 0 0 (.entry 1) 500000 0, .trace 0 0 (.count 2 (-5)) 1000000 0, .collector 1 (.start 200), .trace 1 0 (.mark 1 .thread) 700000 0] ++
  round 0 ++ round 1 ++ [.pump 1 [], .pump 0 [5], .receive 1 []] ++ incoming 0 ++ [.receive 0 [([1], 3)]] ++ incoming 1

def after : List Act := [.trace 0 0 (.exit 1) 2000000 0, .consume (.finish 0), .consume (.swap 0)]

def s0 : State := (run (init [7, 8]) before).getD (init [])
def s1 : State := (run s0 during).getD (init [])
def s2 : State := (run s1 after).getD (init [])

theorem some_getD {α : Type} (o : Option α) (d : α) (h : o.isSome = true) : o = some (o.getD d) := by
  cases o with
  | none => cases h
  | some a => rfl

theorem steps0 : Steps (init [7, 8]) s0 := run_steps before _ _ (some_getD _ _ (by decide +kernel))
theorem steps1 : Steps s0 s1 := run_steps during _ _ (some_getD _ _ (by decide +kernel))
theorem steps2 : Steps s1 s2 := run_steps after _ _ (some_getD _ _ (by decide +kernel))

/-- The counter event of process 7. -/
def event : Ev Emission := { thread := 0, stamp := 0, val := { serial := 1, point := .count 2 (-5), time := 1000000 } }

/-- The data of the two processes. -/
def data : List (Nat × Bytes) := s1.arrivals.zipIdx.map fun x =>
  (x.2, (s1.procs[x.1.1]?).elim [] fun p => payload p.pid (batchAt p x.1.2))

theorem log2 : s2.rec'.log = (s1.rec'.log ++ [.finishing 0]) ++ .returned 0 data :: [] := by decide +kernel

theorem captured : Captured [7, 8] s2 0 (s1.rec'.log ++ [.finishing 0]) 0 event := by
  refine ⟨s0, s1, s1.rec'.log.drop s0.rec'.log.length, [.finishing 0], steps0, steps1, steps2, ⟨[.starting 0], [], by decide +kernel, ⟨by simp, by simp, by simp⟩⟩,
    ?_, by decide +kernel, ⟨by decide +kernel, by decide +kernel, by decide +kernel⟩, ?_, rfl, by simp, ?_⟩
  · rintro tid ⟨x, th, hx, he, _⟩
    have : (s0.procs[0]?).map (fun x => x.coll.log) = some [] := by decide +kernel
    rw [hx] at this
    simp only [Option.map_some, Option.some.injEq] at this
    rw [this] at he
    cases he
  · have hx : ∃ x, s1.procs[0]? = some x := Option.isSome_iff_exists.mp (by decide +kernel)
    obtain ⟨x, hx⟩ := hx
    have hb : (s1.procs[0]?).bind (fun x => x.coll.batches[0]?) = some ⟨true, [(100, [{ event with val := ⟨0, .entry 1, 500000⟩ }, event])]⟩ := by decide +kernel
    rw [hx] at hb
    exact ⟨x, 0, _, 1, 100, hx, hb, ⟨(100, [{ event with val := ⟨0, .entry 1, 500000⟩ }, event]), by simp, rfl, by simp⟩, by decide +kernel, by decide +kernel⟩
  · intro ds
    have : s1.rec'.log.drop s0.rec'.log.length ++ [.finishing 0] =
      [.called 0 (data.map (·.2))[0]!, .completed 0, .called 1 (data.map (·.2))[1]!, .completed 1, .finishing 0] := by decide +kernel
    rw [this]
    simp

theorem small : SmallBatches s2 := by
  have : (s2.procs.all fun x => x.coll.batches.all fun b => (payload x.pid b).length < 2 ^ 32) = true := by decide +kernel
  intro x hx b hb
  simpa using List.all_eq_true.mp (List.all_eq_true.mp this x hx) b hb

end Scalopus.EndToEnd.Examples

namespace Scalopus.C58

open EndToEnd EndToEnd.Examples

/-- The conditions are met, and the theorem says that the counter event is in the result. -/
example : ∃ (res : List NativeSource.Entry) (events : List (Nat × Collector.Ev Emission)), result s2 [] data = .ok res ∧ (0, event) ∈ events ∧ events.length = res.length := by
  obtain ⟨res, events, h1, _, h3, h4, _⟩ := reaches_viewer_once ((steps0.trans steps1).trans steps2) (by decide) (by decide) small 0 data _ _ log2 []
  exact ⟨res, events, h1, h4 0 event captured, h3.length_eq.symm⟩

/-- The conditions of `drained_is_captured` are met as well. -/
example : Captured [7, 8] s2 0 (s1.rec'.log ++ [.finishing 0]) 0 event := by
  have hx : ∃ x, s1.procs[0]? = some x := Option.isSome_iff_exists.mp (by decide +kernel)
  obtain ⟨x, hx⟩ := hx
  have hy : ∃ x, s0.procs[0]? = some x := Option.isSome_iff_exists.mp (by decide +kernel)
  obtain ⟨y, hy⟩ := hy
  have f1 : (s0.procs[0]?).map (fun x => (x.coll.log, x.server.conns, x.coll.transport)) = some ([], [0, 5], true) := by decide +kernel
  have f2 : (s1.procs[0]?).map (fun x => (x.coll.log, x.coll.threads, x.coll.bufs.map (·.queue))) =
      some ([({ event with val := ⟨0, .entry 1, 500000⟩ }, true), (event, true)], [⟨100, 0, .running⟩], [[]]) := by decide +kernel
  have f3 : (s1.procs[0]?).map (fun x => (x.coll.events.length, x.server.queue.length, x.wire.length)) = some (0, 0, 0) := by decide +kernel
  rw [hy] at f1
  rw [hx] at f2 f3
  simp only [Option.map_some, Option.some.injEq, Prod.mk.injEq, List.length_eq_zero_iff] at f1 f2 f3
  have hl : s1.rec'.log.drop s0.rec'.log.length ++ [.finishing 0] =
      [.called 0 (data.map (·.2))[0]!, .completed 0, .called 1 (data.map (·.2))[1]!, .completed 1, .finishing 0] := by decide +kernel
  have hl1 : s1.rec'.log =
      [.starting 0, .started 0, .called 0 (data.map (·.2))[0]!, .completed 0, .called 1 (data.map (·.2))[1]!, .completed 1] := by decide +kernel
  refine drained_is_captured (c := s1.rec'.log.drop s0.rec'.log.length) steps0 steps1 steps2 small 0 0 100 event [.finishing 0]
    ⟨[.starting 0], [], by decide +kernel, ⟨by simp, by simp, by simp⟩⟩ ⟨y, hy, ?_, f1.2.2⟩ ?_ ⟨x, ⟨100, 0, .running⟩, hx, ?_, ?_, rfl⟩
    ⟨⟨x, hx, ?_, f3.1, f3.2.1, f3.2.2⟩, ?_⟩ (by decide +kernel) ⟨by decide +kernel, by decide +kernel, by decide +kernel⟩ (by simp) ?_
  · rw [f1.2.1]; decide
  · rintro tid ⟨x, th, hx', he, _⟩
    rw [hy] at hx'
    cases hx'
    rw [f1.1] at he
    cases he
  · rw [f2.1]; simp
  · rw [f2.2.1]; rfl
  · intro b hb
    have := List.mem_map_of_mem (f := (·.queue)) hb
    rw [f2.2.2] at this
    simpa using this
  · intro n d hm
    rw [hl1] at hm ⊢
    simp only [List.mem_cons, Recording.Obs.called.injEq, reduceCtorEq, false_or, or_false, List.not_mem_nil] at hm
    rcases hm with ⟨rfl, _⟩ | ⟨rfl, _⟩ <;> simp
  · intro ds
    rw [hl]
    simp

/-- What is returned, computed. -/
example : result s2 [] data = .ok
    [{ ts := Double.ts 500000, tid := 100, pid := 7, name := "f", ph := "B" },
     { ts := Double.ts 700000, tid := 200, pid := 8, name := "g", ph := "i", s := some "t" },
     { ts := Double.ts 1000000, tid := 100, pid := 7, name := "c", ph := "C", args := some [("a", -5)] }] := by decide +kernel

end Scalopus.C58
