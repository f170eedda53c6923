import Mathlib.Data.List.TakeWhile
import Verif.Model.Dying
import Verif.Proofs.CborPrefix
import Verif.Props.C03_Wire
import Verif.Props.C31_NativeSource

/-!
# C142: processes that end while they are recorded

Every statement is about every number of processes, every history of broadcasts and ends, and every order in which the workers of the consumer read.
-/

namespace Scalopus.C142

open Dying
open Protocol (Msg Env receive encode)
open Spec.Wire (Fits)
open Cbor (Threads encodeBatch decodeBatch ThreadsValid)
open NativeSource (finishInterval encoded Valid)
open NativeSource.Spec (recorded Known shown)
open Endpoints (TraceMap)

/-- A batch whose values fit their types and whose message fits the wire format; its events are of known kinds. -/
def BatchFits (pid : Nat) (m : Threads) : Prop :=
  pid < 2 ^ 31 ∧ ThreadsValid m ∧ (encodeBatch pid m).length < 2 ^ 32 ∧ ∀ r ∈ recorded [(pid, m)], Known r.event

/-- Everything that is written in this history fits, for every process of the list. -/
def Fit (pids : List Nat) (acts : List Action) : Prop :=
  ∀ pid ∈ pids, (∀ p m, Action.send p m ∈ acts → BatchFits pid m) ∧ ∀ p m cut, Action.die p m cut ∈ acts → BatchFits pid m

/-- The process ended inside one of the numbers in front of the payload, or inside the name. -/
def InField (cut : Nat) : Prop := 0 < cut ∧ cut < 8 ∨ cut = 9 ∨ 10 < cut ∧ cut < 31 ∨ 31 < cut ∧ cut < 35

/-- The process ended after the name of the receiver or in the payload. -/
def InPayload (cut : Nat) : Prop := cut = 31 ∨ 35 ≤ cut

instance (cut : Nat) : Decidable (InField cut) := inferInstanceAs (Decidable (_ ∨ _ ∨ _ ∨ _))
instance (cut : Nat) : Decidable (InPayload cut) := inferInstanceAs (Decidable (_ ∨ _))

/-- **C142, no misreading.** Wherever the encoding of a batch breaks off, the rest is refused as a whole: it is never taken for a batch with fewer or other events. -/
theorem part_is_refused (pid : Nat) (m : Threads) (h : BatchFits pid m) (d : Nat) (hd : d < (encodeBatch pid m).length) :
    decodeBatch ((encodeBatch pid m).take d) = .error .cbor := Cbor.decodeBatch_take pid h.1 m h.2.1 d hd

theorem encodeBatch_pos (pid : Nat) (m : Threads) : 0 < (encodeBatch pid m).length := by
  unfold encodeBatch
  simp [Cbor.head]

/-- The name is that of the receiving endpoint. -/
theorem name_text : receiverName = "native_trace_receiver".toUTF8.toList := by decide +kernel

theorem name_length : receiverName.length = 21 := rfl

theorem msg_fits (pid : Nat) (m : Threads) (h : BatchFits pid m) : Fits ⟨0, receiverName, encodeBatch pid m⟩ := by
  exact ⟨show (0 : Nat) < 2 ^ 64 by decide, show receiverName.length < 2 ^ 16 by decide, h.2.2.1⟩

theorem wire_length (pid : Nat) (m : Threads) : (wire pid m).length = 35 + (encodeBatch pid m).length := by
  unfold wire
  simp [encode, Protocol.sendParts, name_length]
  omega

theorem receive_whole (pid : Nat) (m : Threads) (h : BatchFits pid m) (rest : Protocol.Bytes) :
    receive { bytes := wire pid m ++ rest } = .ok (true, ⟨0, receiverName, encodeBatch pid m⟩, { bytes := rest }) := by
  unfold wire
  rw [Protocol.receive_encode _ rest [] (msg_fits pid m h) trivial, List.drop_nil]

theorem receive_field (pid : Nat) (m : Threads) (h : BatchFits pid m) (cut : Nat) (hc : InField cut) :
    receive { bytes := (wire pid m).take cut } = .ub := by
  have hl := wire_length pid m
  unfold InField at hc
  have hb := C10.broken_exact _ (msg_fits pid m h) cut (by rw [show encode _ = wire pid m from rfl, hl]; omega) 21 _ rfl rfl
  rw [show encode _ = wire pid m from rfl] at hb
  rw [hb, if_neg (by omega)]
  by_cases c8 : cut < 8
  · rw [if_pos c8]
  rw [if_neg c8, if_neg (by omega)]
  by_cases c10 : cut < 10
  · rw [if_pos c10]
  rw [if_neg c10]
  by_cases cn : cut < 10 + 21
  · rw [if_pos cn, if_neg (by omega)]
  rw [if_neg cn, if_neg (by omega), if_pos (by omega)]

theorem receive_payload (pid : Nat) (m : Threads) (h : BatchFits pid m) (cut : Nat) (hl : cut < (wire pid m).length) (hc : InPayload cut) :
    ∃ ok, receive { bytes := (wire pid m).take cut } = .ok (ok, ⟨0, receiverName, (encodeBatch pid m).take (cut - 35)⟩, { bytes := [] }) := by
  unfold InPayload at hc
  have hb := C10.broken_exact _ (msg_fits pid m h) cut hl 21 _ rfl rfl
  rw [show encode _ = wire pid m from rfl] at hb
  rw [hb, if_neg (by omega), if_neg (by omega), if_neg (by omega), if_neg (by omega), if_neg (by omega)]
  by_cases c : cut = 10 + 21
  · rw [if_pos c, c]
    exact ⟨false, rfl⟩
  · rw [if_neg c, if_neg (by omega)]
    exact ⟨_, rfl⟩

theorem receive_between (pid : Nat) (m : Threads) (h : BatchFits pid m) (cut : Nat) (hl : cut < (wire pid m).length) (hf : ¬ InField cut) (hc : ¬ InPayload cut) :
    receive { bytes := (wire pid m).take cut } = .ok (false, ⟨0, [], []⟩, { bytes := [] }) := by
  unfold InPayload at hc
  unfold InField at hf
  have hb := C10.broken_exact _ (msg_fits pid m h) cut hl 21 _ rfl rfl
  rw [show encode _ = wire pid m from rfl] at hb
  rw [hb]
  by_cases c0 : cut = 0
  · rw [if_pos c0]
  rw [if_neg c0, if_neg (by omega)]
  by_cases c8 : cut = 8
  · rw [if_pos c8]
  rw [if_neg c8, if_neg (by omega), if_pos (by omega), if_pos (by omega)]

/-- What is left of the message during which the process ended. -/
def tail (c : Conn) : Protocol.Bytes := (c.torn.map fun x => (wire c.pid x.1).take x.2).getD []

/-- The number of messages of this process that the receiver gets when all is read. -/
def total (c : Conn) : Nat := c.sent.length + if (c.torn.map fun x => decide (InPayload x.2)).getD false then 1 else 0

/-- What the worker gets of message `k`. -/
def payload (c : Conn) (k : Nat) : Option Protocol.Bytes :=
  if k < c.sent.length then c.sent[k]?.map (encodeBatch c.pid) else c.torn.map fun x => (encodeBatch c.pid x.1).take (x.2 - 35)

structure Good (c : Conn) : Prop where
  alive : c.alive = c.torn.isNone
  fits : ∀ m ∈ c.sent, BatchFits c.pid m
  tfits : ∀ x, c.torn = some x → BatchFits c.pid x.1 ∧ x.2 < (wire c.pid x.1).length
  bytes : c.taken ≤ c.sent.length ∧ c.lost = false ∧ c.bytes = ((c.sent.drop c.taken).map (wire c.pid)).flatten ++ tail c ∨
    c.sent.length < c.taken ∧ c.alive = false ∧ c.bytes = [] ∧ ∀ x, c.torn = some x → ¬ InField x.2

/-- The numbers of the messages that were handed over, of one process. -/
def ofProc (s : State) (p : Nat) : List Nat := (s.from'.filter fun x => x.1 = p).map (·.2)

structure Inv (s : State) : Prop where
  good : ∀ (p : Nat) (c : Conn), s.conns[p]? = some c → Good c
  count : ∀ (p : Nat) (c : Conn), s.conns[p]? = some c → ofProc s p = List.range (min c.taken (total c))
  dom : ∀ x ∈ s.from', x.1 < s.conns.length
  data : s.data.map some = s.from'.map fun x => s.conns[x.1]?.bind fun c => payload c x.2
  undef : s.ub = true → ∃ (p : Nat) (c : Conn) (m : Threads) (cut : Nat), s.conns[p]? = some c ∧ c.torn = some (m, cut) ∧ InField cut

theorem get_set {l : List Conn} {p q : Nat} {c d x : Conn} (h : l[p]? = some c) (hx : (l.set p d)[q]? = some x) : q = p ∧ x = d ∨ q ≠ p ∧ l[q]? = some x := by
  obtain ⟨hl, _⟩ := List.getElem?_eq_some_iff.1 h
  by_cases e : q = p
  · subst e
    rw [List.getElem?_set_self hl] at hx
    exact Or.inl ⟨rfl, (Option.some.inj hx).symm⟩
  · rw [List.getElem?_set_ne (Ne.symm e)] at hx
    exact Or.inr ⟨e, hx⟩

/-- The effect of a read when the receiving function returns. -/
theorem read_eq {s : State} {p : Nat} {c : Conn} {ok : Bool} {m : Msg} {e : Env} (hp : s.conns[p]? = some c) (hu : s.ub = false) (hl : c.lost = false)
    (ha : ¬ (c.alive = true ∧ c.bytes = [])) (h : receive { bytes := c.bytes } = .ok (ok, m, e)) :
    step s (.read p) = some { s with
      conns := s.conns.set p { c with bytes := e.bytes, lost := !ok, taken := c.taken + 1 }
      data := if m.endpoint = receiverName then s.data ++ [m.data] else s.data
      from' := if m.endpoint = receiverName then s.from' ++ [(p, c.taken)] else s.from' } := by
  have hn : ¬ (s.ub = true ∨ c.lost = true ∨ (c.alive = true ∧ c.bytes = [])) := by
    rw [hu, hl]
    simpa using ha
  simp only [step, hp, bind, Option.bind]
  rw [if_neg hn]
  simp only [UnixClient.onReadable, h, Res.bind, List.not_mem_nil, if_false]
  split <;> rfl

theorem read_ub {s : State} {p : Nat} {c : Conn} (hp : s.conns[p]? = some c) (hu : s.ub = false) (hl : c.lost = false)
    (ha : ¬ (c.alive = true ∧ c.bytes = [])) (h : receive { bytes := c.bytes } = .ub) : step s (.read p) = some { s with ub := true } := by
  have hn : ¬ (s.ub = true ∨ c.lost = true ∨ (c.alive = true ∧ c.bytes = [])) := by
    rw [hu, hl]
    simpa using ha
  simp only [step, hp, bind, Option.bind]
  rw [if_neg hn]
  simp only [UnixClient.onReadable, h, Res.bind]

/-- What can happen when a worker reads: it gets the next batch, undefined behaviour, a part of a batch, or the end. -/
inductive Reads (s : State) (p : Nat) (c : Conn) : State → Prop where
  | whole (m : Threads) (rest : List Threads) : c.taken < c.sent.length → c.sent.drop c.taken = m :: rest →
      Reads s p c { s with
        conns := s.conns.set p { c with bytes := (rest.map (wire c.pid)).flatten ++ tail c, lost := false, taken := c.taken + 1 }
        data := s.data ++ [encodeBatch c.pid m], from' := s.from' ++ [(p, c.taken)] }
  | undefined (m : Threads) (cut : Nat) : c.taken = c.sent.length → c.torn = some (m, cut) → InField cut → Reads s p c { s with ub := true }
  | part (m : Threads) (cut : Nat) (lost : Bool) : c.taken = c.sent.length → c.torn = some (m, cut) → InPayload cut →
      Reads s p c { s with
        conns := s.conns.set p { c with bytes := [], lost := lost, taken := c.taken + 1 }
        data := s.data ++ [(encodeBatch c.pid m).take (cut - 35)], from' := s.from' ++ [(p, c.taken)] }
  | stop : c.alive = false → total c ≤ c.taken → c.sent.length ≤ c.taken → (∀ x, c.torn = some x → ¬ InField x.2) →
      Reads s p c { s with conns := s.conns.set p { c with bytes := [], lost := true, taken := c.taken + 1 } }

theorem wire_ne (pid : Nat) (m : Threads) : wire pid m ≠ [] := by
  intro e
  have := wire_length pid m
  rw [e] at this
  simp at this
  omega

/-- A worker that may read, reads one of these. -/
theorem reads {s : State} {p : Nat} {c : Conn} (hp : s.conns[p]? = some c) (g : Good c) (hu : s.ub = false) (hl : c.lost = false)
    (ha : ¬ (c.alive = true ∧ c.bytes = [])) : ∃ s', step s (.read p) = some s' ∧ Reads s p c s' := by
  rcases g.bytes with ⟨h1, h2, h3⟩ | ⟨h1, h2, h3, h4⟩
  · cases hd : c.sent.drop c.taken with
    | cons m rest =>
      have hlt : c.taken < c.sent.length := by
        have := congrArg List.length hd
        simp only [List.length_drop, List.length_cons] at this
        omega
      have hm : m ∈ c.sent := List.mem_of_mem_drop (i := c.taken) (by rw [hd]; simp)
      have hr := receive_whole c.pid m (g.fits m hm) ((rest.map (wire c.pid)).flatten ++ tail c)
      have hb : c.bytes = wire c.pid m ++ ((rest.map (wire c.pid)).flatten ++ tail c) := by
        rw [h3, hd, List.map_cons, List.flatten_cons, List.append_assoc]
      rw [← hb] at hr
      refine ⟨_, read_eq hp hu hl ha hr, ?_⟩
      simp only [if_true]
      exact Reads.whole m rest hlt hd
    | nil =>
      have hge : c.taken = c.sent.length := by
        have := congrArg List.length hd
        simp only [List.length_drop, List.length_nil] at this
        omega
      rw [hd] at h3
      simp only [List.map_nil, List.flatten_nil, List.nil_append] at h3
      cases ht : c.torn with
      | none =>
        exfalso
        apply ha
        refine ⟨by rw [g.alive, ht]; rfl, ?_⟩
        rw [h3, tail, ht]
        rfl
      | some x =>
        obtain ⟨m, cut⟩ := x
        obtain ⟨f1, f2⟩ := g.tfits _ ht
        have hb : c.bytes = (wire c.pid m).take cut := by rw [h3, tail, ht]; rfl
        by_cases hf : InField cut
        · have hr := receive_field c.pid m f1 cut hf
          rw [← hb] at hr
          exact ⟨_, read_ub hp hu hl ha hr, Reads.undefined m cut hge ht hf⟩
        · by_cases hy : InPayload cut
          · obtain ⟨ok, hr⟩ := receive_payload c.pid m f1 cut f2 hy
            rw [← hb] at hr
            refine ⟨_, read_eq hp hu hl ha hr, ?_⟩
            simp only [if_true]
            exact Reads.part m cut (!ok) hge ht hy
          · have hr := receive_between c.pid m f1 cut f2 hf hy
            rw [← hb] at hr
            refine ⟨_, read_eq hp hu hl ha hr, ?_⟩
            have hne : ¬ (([] : Protocol.Bytes) = receiverName) := by decide
            simp only [if_neg hne]
            refine Reads.stop (by rw [g.alive, ht]; rfl) ?_ (by omega) (fun x hx => ?_)
            · simp [total, ht, hy, hge]
            · rw [ht] at hx
              cases hx
              exact hf
  · have hr := Protocol.receive_empty [] (Or.inl rfl)
    rw [← h3] at hr
    refine ⟨_, read_eq hp hu hl ha hr, ?_⟩
    have hne : ¬ (([] : Protocol.Bytes) = receiverName) := by decide
    simp only [if_neg hne]
    rw [h3]
    refine Reads.stop h2 ?_ (by omega) h4
    unfold total
    split <;> omega

/-- A step of a worker is one of these. -/
theorem reads_of_step {s s' : State} {p : Nat} (i : ∀ (p : Nat) (c : Conn), s.conns[p]? = some c → Good c) (h : step s (.read p) = some s') :
    ∃ c, s.conns[p]? = some c ∧ s.ub = false ∧ c.lost = false ∧ Reads s p c s' := by
  cases hp : s.conns[p]? with
  | none => simp [step, hp] at h
  | some c =>
    have hn : ¬ (s.ub = true ∨ c.lost = true ∨ (c.alive = true ∧ c.bytes = [])) := by
      intro hn
      simp only [step, hp, bind, Option.bind] at h
      rw [if_pos hn] at h
      cases h
    have hu : s.ub = false := by cases hub : s.ub with | false => rfl | true => exact absurd (Or.inl hub) hn
    have hl : c.lost = false := by cases hub : c.lost with | false => rfl | true => exact absurd (Or.inr (Or.inl hub)) hn
    obtain ⟨t, h1, h2⟩ := reads hp (i p c hp) hu hl (fun x => hn (Or.inr (Or.inr x)))
    rw [h] at h1
    cases h1
    exact ⟨c, rfl, hu, hl, h2⟩

theorem mem_count {s : State} (i : Inv s) {x : Nat × Nat} (hx : x ∈ s.from') {c : Conn} (hc : s.conns[x.1]? = some c) : x.2 < min c.taken (total c) := by
  have : x.2 ∈ ofProc s x.1 := by
    unfold ofProc
    exact List.mem_map_of_mem (List.mem_filter.2 ⟨hx, by simp⟩)
  rw [i.count x.1 c hc] at this
  exact List.mem_range.1 this

theorem inv_keep {s : State} (i : Inv s) {p : Nat} {c : Conn} (hp : s.conns[p]? = some c) (c' : Conn) (g : Good c')
    (ht : min c'.taken (total c') = min c.taken (total c)) (hpay : ∀ k, k < min c.taken (total c) → payload c' k = payload c k)
    (hto : ∀ x, c.torn = some x → c'.torn = some x) : Inv { s with conns := s.conns.set p c' } where
  good := fun q d hd => by
    rcases get_set hp hd with ⟨_, rfl⟩ | ⟨_, h⟩
    · exact g
    · exact i.good q d h
  count := fun q d hd => by
    rcases get_set hp hd with ⟨rfl, rfl⟩ | ⟨_, h⟩
    · rw [ht]
      exact i.count q c hp
    · exact i.count q d h
  dom := fun x hx => by
    rw [List.length_set]
    exact i.dom x hx
  data := by
    rw [i.data]
    apply List.map_congr_left
    intro x hx
    by_cases e : x.1 = p
    · have h := mem_count i hx (c := c) (by rw [e]; exact hp)
      rw [e, hp, List.getElem?_set_self (List.getElem?_eq_some_iff.1 hp).1]
      simp only [Option.bind_some]
      rw [hpay _ h]
    · rw [List.getElem?_set_ne (Ne.symm e)]
  undef := fun hu => by
    obtain ⟨q, d, m, cut, h1, h2, h3⟩ := i.undef hu
    by_cases e : q = p
    · subst e
      rw [hp] at h1
      cases h1
      exact ⟨q, c', m, cut, List.getElem?_set_self (List.getElem?_eq_some_iff.1 hp).1, hto _ h2, h3⟩
    · exact ⟨q, d, m, cut, by rw [List.getElem?_set_ne (Ne.symm e)]; exact h1, h2, h3⟩

theorem inv_add {s : State} (i : Inv s) {p : Nat} {c : Conn} (hp : s.conns[p]? = some c) (b : Protocol.Bytes) (hb : payload c c.taken = some b)
    (hc : min c.taken (total c) = c.taken) (lost : Bool) (rest : Protocol.Bytes) (g : Good { c with bytes := rest, lost := lost, taken := c.taken + 1 })
    (ht : c.taken + 1 ≤ total c) :
    Inv { s with conns := s.conns.set p { c with bytes := rest, lost := lost, taken := c.taken + 1 }, data := s.data ++ [b], from' := s.from' ++ [(p, c.taken)] } where
  good := fun q d hd => by
    rcases get_set hp hd with ⟨_, rfl⟩ | ⟨_, h⟩
    · exact g
    · exact i.good q d h
  count := fun q d hd => by
    rcases get_set hp hd with ⟨rfl, rfl⟩ | ⟨hq, h⟩
    · have h := i.count q c hp
      unfold ofProc at h ⊢
      rw [List.filter_append, List.map_append, h, hc]
      have e : min (c.taken + 1) (total c) = c.taken + 1 := by omega
      show _ = List.range (min (c.taken + 1) (total c))
      rw [e, List.range_succ]
      simp
    · have h := i.count q d h
      unfold ofProc at h ⊢
      rw [List.filter_append, List.map_append, h]
      simp [Ne.symm hq]
  dom := fun x hx => by
    rw [List.length_set]
    rcases List.mem_append.1 hx with hx | hx
    · exact i.dom x hx
    · cases List.mem_singleton.1 hx
      exact (List.getElem?_eq_some_iff.1 hp).1
  data := by
    have hs := List.getElem?_set_self (a := { c with bytes := rest, lost := lost, taken := c.taken + 1 }) (List.getElem?_eq_some_iff.1 hp).1
    rw [List.map_append, List.map_append, i.data]
    congr 1
    · apply List.map_congr_left
      intro x hx
      by_cases e : x.1 = p
      · rw [e, hp, hs]
        rfl
      · rw [List.getElem?_set_ne (Ne.symm e)]
    · simp only [List.map_cons, List.map_nil]
      rw [hs, Option.bind_some, ← hb]
      rfl
  undef := fun hu => by
    obtain ⟨q, d, m, cut, h1, h2, h3⟩ := i.undef hu
    by_cases e : q = p
    · subst e
      rw [hp] at h1
      cases h1
      exact ⟨q, _, m, cut, List.getElem?_set_self (List.getElem?_eq_some_iff.1 hp).1, h2, h3⟩
    · exact ⟨q, d, m, cut, by rw [List.getElem?_set_ne (Ne.symm e)]; exact h1, h2, h3⟩

theorem total_ge (c : Conn) : c.sent.length ≤ total c := by unfold total; omega

theorem inv_reads {s s' : State} (i : Inv s) {p : Nat} {c : Conn} (hp : s.conns[p]? = some c) (h : Reads s p c s') : Inv s' := by
  have g := i.good p c hp
  have hg := total_ge c
  cases h with
  | whole m rest h1 h2 =>
    have e : c.sent[c.taken]? = some m := by
      have := List.getElem?_drop (xs := c.sent) (i := c.taken) (j := 0)
      rw [h2] at this
      simpa using this.symm
    have e2 : c.sent.drop (c.taken + 1) = rest := by
      rw [← List.drop_drop, h2]
      rfl
    refine inv_add i hp _ ?_ (by omega) false _ ?_ (by omega)
    · unfold payload
      rw [if_pos h1, e]
      rfl
    · exact ⟨g.alive, g.fits, g.tfits, Or.inl ⟨h1, rfl, by rw [e2]; rfl⟩⟩
  | undefined m cut h1 h2 h3 => exact ⟨i.good, i.count, i.dom, i.data, fun _ => ⟨p, c, m, cut, hp, h2, h3⟩⟩
  | part m cut lost h1 h2 h3 =>
    have htot : total c = c.sent.length + 1 := by simp [total, h2, h3]
    refine inv_add i hp _ ?_ (by omega) lost _ ?_ (by omega)
    · unfold payload
      rw [if_neg (by omega), h2]
      rfl
    · refine ⟨g.alive, g.fits, g.tfits, Or.inr ⟨?_, by rw [g.alive, h2]; rfl, rfl, fun x hx => ?_⟩⟩
      · show c.sent.length < c.taken + 1
        omega
      · rw [show c.torn = some x from hx] at h2
        cases h2
        unfold InField
        unfold InPayload at h3
        show ¬ (0 < cut ∧ cut < 8 ∨ cut = 9 ∨ 10 < cut ∧ cut < 31 ∨ 31 < cut ∧ cut < 35)
        omega
  | stop h1 h2 h3 h4 =>
    refine inv_keep i hp _ ?_ ?_ (fun k _ => rfl) (fun x hx => hx)
    · exact ⟨g.alive, g.fits, g.tfits, Or.inr ⟨by show c.sent.length < c.taken + 1; omega, h1, rfl, h4⟩⟩
    · show min (c.taken + 1) (total c) = _
      omega

/-- The processes do not change. -/
def SamePids (pids : List Nat) (s : State) : Prop := s.conns.map (·.pid) = pids

theorem pid_mem {pids : List Nat} {s : State} (h : SamePids pids s) {p : Nat} {c : Conn} (hp : s.conns[p]? = some c) : c.pid ∈ pids := by
  rw [← h]
  exact List.mem_map_of_mem (List.mem_of_getElem? hp)

theorem samePids_set {pids : List Nat} {s : State} (h : SamePids pids s) {p : Nat} {c c' : Conn} (hp : s.conns[p]? = some c) (e : c'.pid = c.pid) :
    (s.conns.set p c').map (·.pid) = pids := by
  rw [← h]
  apply List.ext_getElem?
  intro q
  rw [List.getElem?_map, List.getElem?_map]
  by_cases eq : q = p
  · subst eq
    rw [List.getElem?_set_self (List.getElem?_eq_some_iff.1 hp).1, hp]
    simp [e]
  · rw [List.getElem?_set_ne (Ne.symm eq)]

/-- The three kinds of steps. -/
inductive Does (s : State) : Action → State → Prop where
  | send (p : Nat) (m : Threads) (c : Conn) : s.conns[p]? = some c → c.alive = true →
      Does s (.send p m) { s with conns := s.conns.set p { c with bytes := c.bytes ++ wire c.pid m, sent := c.sent ++ [m] } }
  | die (p : Nat) (m : Threads) (cut : Nat) (c : Conn) : s.conns[p]? = some c → c.alive = true → cut < (wire c.pid m).length →
      Does s (.die p m cut) { s with conns := s.conns.set p { c with alive := false, bytes := c.bytes ++ (wire c.pid m).take cut, torn := some (m, cut) } }
  | read (p : Nat) (c : Conn) (s' : State) : s.conns[p]? = some c → s.ub = false → c.lost = false → Reads s p c s' → Does s (.read p) s'

theorem does {s s' : State} {a : Action} (i : Inv s) (h : step s a = some s') : Does s a s' := by
  cases a with
  | send p m =>
    cases hp : s.conns[p]? with
    | none => simp [step, hp] at h
    | some c =>
      simp only [step, hp, bind, Option.bind] at h
      split at h
      · rename_i ha
        cases h
        exact Does.send p m c hp ha
      · cases h
  | die p m cut =>
    cases hp : s.conns[p]? with
    | none => simp [step, hp] at h
    | some c =>
      simp only [step, hp, bind, Option.bind] at h
      split at h
      · rename_i ha
        cases h
        exact Does.die p m cut c hp ha.1 ha.2
      · cases h
  | read p =>
    obtain ⟨c, h1, h2, h3, h4⟩ := reads_of_step i.good h
    exact Does.read p c s' h1 h2 h3 h4

theorem alive_taken {c : Conn} (g : Good c) (h : c.alive = true) : c.torn = none ∧ c.taken ≤ c.sent.length ∧ c.lost = false ∧
    c.bytes = ((c.sent.drop c.taken).map (wire c.pid)).flatten := by
  have ht : c.torn = none := by
    have := g.alive
    rw [h] at this
    exact Option.isNone_iff_eq_none.1 this.symm
  rcases g.bytes with ⟨h1, h2, h3⟩ | ⟨_, h2, _⟩
  · refine ⟨ht, h1, h2, ?_⟩
    rw [h3, tail, ht]
    simp
  · rw [h] at h2
    cases h2

theorem inv_does {pids : List Nat} {s s' : State} {a : Action} (hs : SamePids pids s) (i : Inv s) (hf : Fit pids [a]) (h : Does s a s') : Inv s' ∧ SamePids pids s' := by
  cases h with
  | send p m c hp ha =>
    have g := i.good p c hp
    obtain ⟨ht, h1, h2, h3⟩ := alive_taken g ha
    have fm := (hf c.pid (pid_mem hs hp)).1 p m (by simp)
    refine ⟨inv_keep i hp _ ⟨g.alive, fun x hx => ?_, g.tfits, Or.inl ⟨?_, h2, ?_⟩⟩ ?_ (fun k hk => ?_) (fun x hx => hx), samePids_set hs hp rfl⟩
    · rcases List.mem_append.1 hx with hx | hx
      · exact g.fits x hx
      · cases List.mem_singleton.1 hx
        exact fm
    · show c.taken ≤ (c.sent ++ [m]).length
      simp
      omega
    · show c.bytes ++ wire c.pid m = (((c.sent ++ [m]).drop c.taken).map (wire c.pid)).flatten ++ tail _
      rw [h3, List.drop_append_of_le_length h1]
      simp [tail, ht]
    · simp [total, ht]
      omega
    · have : k < c.sent.length := by omega
      simp only [payload]
      rw [if_pos this, if_pos (by simp; omega), List.getElem?_append_left this]
  | die p m cut c hp ha hcut =>
    have g := i.good p c hp
    obtain ⟨ht, h1, h2, h3⟩ := alive_taken g ha
    have fm := (hf c.pid (pid_mem hs hp)).2 p m cut (by simp)
    refine ⟨inv_keep i hp _ ⟨rfl, g.fits, fun x hx => ?_, Or.inl ⟨h1, h2, ?_⟩⟩ ?_ (fun k hk => ?_) (fun x hx => ?_), samePids_set hs hp rfl⟩
    · cases hx
      exact ⟨fm, hcut⟩
    · show c.bytes ++ (wire c.pid m).take cut = _
      rw [h3]
      rfl
    · have e1 : total c = c.sent.length := by simp [total, ht]
      have e2 := total_ge { c with alive := false, bytes := c.bytes ++ (wire c.pid m).take cut, torn := some (m, cut) }
      simp only at e2 ⊢
      omega
    · have e1 : total c = c.sent.length := by simp [total, ht]
      have : k < c.sent.length := by omega
      simp only [payload]
      rw [if_pos this, if_pos this]
    · rw [ht] at hx
      cases hx
  | read p c s' hp hu hl hr =>
    refine ⟨inv_reads i hp hr, ?_⟩
    cases hr with
    | whole => exact samePids_set hs hp rfl
    | undefined => exact hs
    | part => exact samePids_set hs hp rfl
    | stop => exact samePids_set hs hp rfl

theorem inv_init (pids : List Nat) : Inv (init pids) ∧ SamePids pids (init pids) := by
  have key : ∀ (p : Nat) (c : Conn), (init pids).conns[p]? = some c → ∃ pid, c = { pid := pid } := by
    intro p c h
    have := List.mem_of_getElem? h
    simp only [init, List.mem_map] at this
    obtain ⟨x, _, rfl⟩ := this
    exact ⟨x, rfl⟩
  refine ⟨⟨fun p c h => ?_, fun p c h => ?_, fun x hx => (by cases hx), rfl, fun h => (by cases h)⟩, ?_⟩
  · obtain ⟨pid, rfl⟩ := key p c h
    exact ⟨rfl, fun m hm => (by cases hm), fun x hx => (by cases hx), Or.inl ⟨Nat.le_refl _, rfl, rfl⟩⟩
  · obtain ⟨pid, rfl⟩ := key p c h
    simp [ofProc, init]
  · simp [SamePids, init, Function.comp_def]

theorem fit_head {pids : List Nat} {a : Action} {as : List Action} (h : Fit pids (a :: as)) : Fit pids [a] ∧ Fit pids as := by
  constructor
  · intro pid hp
    refine ⟨fun p m hm => (h pid hp).1 p m ?_, fun p m cut hm => (h pid hp).2 p m cut ?_⟩
    · rw [List.mem_singleton.1 hm]; simp
    · rw [List.mem_singleton.1 hm]; simp
  · intro pid hp
    exact ⟨fun p m hm => (h pid hp).1 p m (List.mem_cons_of_mem _ hm), fun p m cut hm => (h pid hp).2 p m cut (List.mem_cons_of_mem _ hm)⟩

theorem inv_run {pids : List Nat} (acts : List Action) : ∀ {s s' : State}, SamePids pids s → Inv s → Fit pids acts → run s acts = some s' → Inv s' ∧ SamePids pids s' := by
  induction acts with
  | nil =>
    intro s s' hs i _ h
    cases h
    exact ⟨i, hs⟩
  | cons a as ih =>
    intro s s' hs i hf h
    simp only [run] at h
    obtain ⟨t, h1, h2⟩ := Option.bind_eq_some_iff.1 h
    obtain ⟨f1, f2⟩ := fit_head hf
    obtain ⟨i', hs'⟩ := inv_does hs i f1 (does i h1)
    exact ih hs' i' f2 h2

theorem reached {pids : List Nat} {acts : List Action} {s : State} (hf : Fit pids acts) (h : run (init pids) acts = some s) : Inv s :=
  (inv_run acts (inv_init pids).2 (inv_init pids).1 hf h).1

/-! ## What is shown -/

/-- The batch that this message carries, if it was written completely: message number `x.2` of the process number `x.1`. -/
def batchOf (s : State) (x : Nat × Nat) : Option (Nat × Threads) := s.conns[x.1]?.bind fun c => c.sent[x.2]?.map fun m => (c.pid, m)

/-- The complete batches that were handed over before the first part of one. -/
def shownBatches (s : State) : List (Nat × Threads) := ((s.from'.map (batchOf s)).takeWhile Option.isSome).filterMap id

theorem finish_pairs (names : TraceMap) (l : List (Option (Nat × Threads) × Protocol.Bytes)) :
    ∀ (before : List (Nat × Threads)), Valid before → (∀ r ∈ recorded before, Known r.event) →
    (∀ x ∈ l, (∀ b, x.1 = some b → x.2 = encodeBatch b.1 b.2 ∧ BatchFits b.1 b.2) ∧ (x.1 = none → ∃ e, decodeBatch x.2 = .error e)) →
    finishInterval (some (.ok names)) (encoded before ++ l.map (·.2)) =
      finishInterval (some (.ok names)) (encoded (before ++ ((l.map (·.1)).takeWhile Option.isSome).filterMap id)) := by
  induction l with
  | nil => intro before _ _ _; simp
  | cons x l ih =>
    intro before hv hk h
    obtain ⟨o, bytes⟩ := x
    obtain ⟨h1, h2⟩ := h _ List.mem_cons_self
    cases o with
    | some b =>
      obtain ⟨e, hb⟩ := h1 b rfl
      simp only at e
      have hv' : Valid (before ++ [b]) := by
        intro y hy
        rcases List.mem_append.1 hy with hy | hy
        · exact hv y hy
        · rw [List.mem_singleton.1 hy]
          exact ⟨hb.1, hb.2.1⟩
      have hk' : ∀ r ∈ recorded (before ++ [b]), Known r.event := by
        intro r hr
        unfold recorded at hr
        rw [List.flatMap_append] at hr
        rcases List.mem_append.1 hr with hr | hr
        · exact hk r hr
        · exact hb.2.2.2 r hr
      have := ih (before ++ [b]) hv' hk' (fun y hy => h y (List.mem_cons_of_mem _ hy))
      simp only [encoded, List.map_append, List.map_cons, List.map_nil, List.append_assoc, List.singleton_append] at this ⊢
      rw [e, this]
      simp
    | none =>
      obtain ⟨e, he⟩ := h2 rfl
      simp only [List.map_cons, List.takeWhile_cons, Option.isSome_none, Bool.false_eq_true, if_false, List.filterMap_nil, List.append_nil]
      exact C33.earlier_batches_kept_partial names before hv hk bytes ⟨e, he⟩ _

theorem payload_batch {s : State} (i : Inv s) {x : Nat × Nat} (hx : x ∈ s.from') {b : Protocol.Bytes}
    (hb : (s.conns[x.1]?.bind fun c => payload c x.2) = some b) :
    (∀ y, batchOf s x = some y → b = encodeBatch y.1 y.2 ∧ BatchFits y.1 y.2) ∧ (batchOf s x = none → ∃ e, decodeBatch b = .error e) := by
  obtain ⟨c, hc, hp⟩ := Option.bind_eq_some_iff.1 hb
  have g := i.good _ c hc
  have hlt := mem_count i hx hc
  unfold payload at hp
  by_cases hk : x.2 < c.sent.length
  · rw [if_pos hk, List.getElem?_eq_getElem hk] at hp
    have e : batchOf s x = some (c.pid, c.sent[x.2]) := by
      simp [batchOf, hc, List.getElem?_eq_getElem hk]
    rw [e]
    refine ⟨fun y hy => ?_, fun hn => (by cases hn)⟩
    cases hy
    simp only [Option.map_some, Option.some.injEq] at hp
    exact ⟨hp.symm, g.fits _ (List.getElem_mem hk)⟩
  · rw [if_neg hk] at hp
    have e : batchOf s x = none := by
      simp [batchOf, hc]
      omega
    rw [e]
    refine ⟨fun y hy => (by cases hy), fun _ => ?_⟩
    cases ht : c.torn with
    | none => rw [ht] at hp; cases hp
    | some z =>
      obtain ⟨m, cut⟩ := z
      rw [ht] at hp
      simp only [Option.map_some, Option.some.injEq] at hp
      obtain ⟨f1, f2⟩ := g.tfits _ ht
      have := wire_length c.pid m
      have hpos := encodeBatch_pos c.pid m
      simp only at f1 f2
      rw [← hp]
      exact ⟨_, part_is_refused c.pid m f1 (cut - 35) (by omega)⟩

theorem zip_map {α β γ : Type} (l : List α) (f : α → β) (d : List γ) (h : l.length = d.length) :
    ((l.map f).zip d).map (·.2) = d ∧ ((l.map f).zip d).map (·.1) = l.map f := by
  constructor
  · exact List.map_snd_zip (by rw [List.length_map]; omega)
  · exact List.map_fst_zip (by rw [List.length_map]; omega)

theorem finish_eq {s : State} (i : Inv s) (names : TraceMap) :
    finishInterval (some (.ok names)) s.data = finishInterval (some (.ok names)) (encoded (shownBatches s)) := by
  have hlen : s.from'.length = s.data.length := by
    have := congrArg List.length i.data
    simpa using this.symm
  obtain ⟨z1, z2⟩ := zip_map s.from' (batchOf s) s.data hlen
  have := finish_pairs names ((s.from'.map (batchOf s)).zip s.data) [] (fun b hb => (by cases hb)) (fun r hr => (by cases hr)) ?_
  · rw [z1, z2] at this
    simpa [encoded, shownBatches] using this
  · intro x hx
    obtain ⟨k, hk, rfl⟩ := List.mem_iff_getElem.1 hx
    rw [List.length_zip, List.length_map] at hk
    have hk1 : k < s.from'.length := by omega
    have hk2 : k < s.data.length := by omega
    simp only [List.getElem_zip, List.getElem_map]
    apply payload_batch i (List.getElem_mem hk1)
    have := congrArg (fun l => l[k]?) i.data
    simp only [List.getElem?_map, List.getElem?_eq_getElem hk1, List.getElem?_eq_getElem hk2, Option.map_some, Option.some.injEq] at this
    exact this.symm

theorem shownBatches_fit {s : State} (i : Inv s) : ∀ b ∈ shownBatches s, BatchFits b.1 b.2 := by
  intro b hb
  unfold shownBatches at hb
  rw [List.mem_filterMap] at hb
  obtain ⟨o, ho, e⟩ := hb
  have ho := (List.takeWhile_sublist _).subset ho
  obtain ⟨x, _, rfl⟩ := List.mem_map.1 ho
  simp only [id] at e
  unfold batchOf at e
  obtain ⟨c, hc, e⟩ := Option.bind_eq_some_iff.1 e
  obtain ⟨m, hm, rfl⟩ := Option.map_eq_some_iff.1 e
  exact (i.good _ c hc).fits m (List.mem_of_getElem? hm)

/-- **C142, what is shown.** After every history the interval has exactly one entry for each event of the complete batches that were read before the first part of a batch,
    and nothing else. -/
theorem shown_exact (pids : List Nat) (acts : List Action) (s : State) (hf : Fit pids acts) (h : run (init pids) acts = some s) (names : TraceMap) :
    ∃ res, finishInterval (some (.ok names)) s.data = .ok res ∧ (res.map NativeSource.Entry.shape).Perm ((recorded (shownBatches s)).map (shown names)) := by
  have i := reached hf h
  have fit := shownBatches_fit i
  obtain ⟨res, h1, h2, _⟩ := C31.interval_exact names (shownBatches s) (fun b hb => ⟨(fit b hb).1, (fit b hb).2.1⟩) (fun r hr => by
    unfold recorded at hr
    obtain ⟨b, hb, hr⟩ := List.mem_flatMap.1 hr
    exact (fit b hb).2.2.2 r (by unfold recorded; rw [List.flatMap_cons, List.flatMap_nil, List.append_nil]; exact hr))
  exact ⟨res, by rw [finish_eq i]; exact h1, h2⟩

/-- **C142, order.** The messages of each process are handed over in the order in which they were written, each once; the last one may be the part that was written when
    the process ended. When nothing is left to read, all complete ones were handed over. -/
theorem each_in_order (pids : List Nat) (acts : List Action) (s : State) (hf : Fit pids acts) (h : run (init pids) acts = some s) (p : Nat) (c : Conn)
    (hp : s.conns[p]? = some c) :
    ∃ n, (s.from'.filter fun x => x.1 = p).map (·.2) = List.range n ∧
      (n ≤ c.sent.length ∨ n = c.sent.length + 1 ∧ ∃ m cut, c.torn = some (m, cut) ∧ InPayload cut) ∧
      (c.bytes = [] → c.sent.length ≤ n) := by
  have i := reached hf h
  have g := i.good p c hp
  refine ⟨_, i.count p c hp, ?_, fun hb => ?_⟩
  · unfold total
    cases ht : c.torn with
    | none => simp
    | some x =>
      obtain ⟨m, cut⟩ := x
      by_cases hy : InPayload cut
      · simp only [Option.map_some, Option.getD_some, decide_eq_true hy, if_true]
        by_cases e : c.taken ≤ c.sent.length
        · left; omega
        · right; exact ⟨by omega, m, cut, rfl, hy⟩
      · simp only [Option.map_some, Option.getD_some, decide_eq_false hy]
        left
        simp
  · have := total_ge c
    rcases g.bytes with ⟨h1, _, h3⟩ | ⟨h1, _⟩
    · rw [hb] at h3
      have h3 := (List.append_eq_nil_iff.1 h3.symm).1
      have : c.sent.length ≤ c.taken := by
        cases hd : c.sent.drop c.taken with
        | nil =>
          have := congrArg List.length hd
          simp only [List.length_drop, List.length_nil] at this
          omega
        | cons m rest =>
          rw [hd, List.map_cons, List.flatten_cons] at h3
          exact absurd (List.append_eq_nil_iff.1 h3).1 (wire_ne _ _)
      omega
    · omega

/-! ## What the end of a process does to the others -/

theorem step_stable {pids : List Nat} {s s' : State} {a : Action} (hs : SamePids pids s) (i : Inv s) (h : Does s a s') :
    (∃ l, s'.from' = s.from' ++ l) ∧ ∀ x ∈ s.from', batchOf s' x = batchOf s x := by
  have same : ∀ {p : Nat} {c c' : Conn}, s.conns[p]? = some c → c'.pid = c.pid → (∀ k, k < min c.taken (total c) → c'.sent[k]? = c.sent[k]?) →
      ∀ x ∈ s.from', ((s.conns.set p c')[x.1]?.bind fun c => c.sent[x.2]?.map fun m => (c.pid, m)) = batchOf s x := by
    intro p c c' hp e1 e2 x hx
    unfold batchOf
    by_cases e : x.1 = p
    · have := mem_count i hx (c := c) (by rw [e]; exact hp)
      rw [e, hp, List.getElem?_set_self (List.getElem?_eq_some_iff.1 hp).1]
      simp only [Option.bind_some]
      rw [e2 _ this, e1]
    · rw [List.getElem?_set_ne (Ne.symm e)]
  cases h with
  | send p m c hp ha =>
    obtain ⟨ht, h1, _⟩ := alive_taken (i.good p c hp) ha
    exact ⟨⟨[], by simp⟩, same hp rfl (fun k hk => List.getElem?_append_left (by omega))⟩
  | die p m cut c hp ha hcut => exact ⟨⟨[], by simp⟩, same hp rfl (fun k _ => rfl)⟩
  | read p c s' hp hu hl hr =>
    cases hr with
    | whole => exact ⟨⟨_, rfl⟩, same hp rfl (fun k _ => rfl)⟩
    | undefined => exact ⟨⟨[], by simp⟩, fun x _ => rfl⟩
    | part => exact ⟨⟨_, rfl⟩, same hp rfl (fun k _ => rfl)⟩
    | stop => exact ⟨⟨[], by simp⟩, same hp rfl (fun k _ => rfl)⟩

theorem run_stable {pids : List Nat} (acts : List Action) : ∀ {s s' : State}, SamePids pids s → Inv s → Fit pids acts → run s acts = some s' →
    (∃ l, s'.from' = s.from' ++ l) ∧ ∀ x ∈ s.from', batchOf s' x = batchOf s x := by
  induction acts with
  | nil =>
    intro s s' _ _ _ h
    cases h
    exact ⟨⟨[], by simp⟩, fun x _ => rfl⟩
  | cons a as ih =>
    intro s s' hs i hf h
    simp only [run] at h
    obtain ⟨t, h1, h2⟩ := Option.bind_eq_some_iff.1 h
    obtain ⟨f1, f2⟩ := fit_head hf
    obtain ⟨i', hs'⟩ := inv_does hs i f1 (does i h1)
    obtain ⟨⟨l1, e1⟩, b1⟩ := step_stable hs i (does i h1)
    obtain ⟨⟨l2, e2⟩, b2⟩ := ih hs' i' f2 h2
    refine ⟨⟨l1 ++ l2, by rw [e2, e1, List.append_assoc]⟩, fun x hx => ?_⟩
    rw [b2 x (by rw [e1]; exact List.mem_append_left _ hx), b1 x hx]

theorem takeWhile_stop {α : Type} (l r : List (Option α)) (h : none ∈ l) : (l ++ r).takeWhile Option.isSome = l.takeWhile Option.isSome := by
  induction l with
  | nil => cases h
  | cons x l ih =>
    cases x with
    | none => simp
    | some y =>
      rcases List.mem_cons.1 h with h | h
      · cases h
      · simp [ih h]

/-- **C142 fails for every history in which a part of a batch was read**: whatever any process sends afterwards, nothing of it is shown. -/
theorem part_hides_later (pids : List Nat) (acts later : List Action) (s s' : State) (hf : Fit pids (acts ++ later)) (h : run (init pids) acts = some s)
    (h' : run s later = some s') (x : Nat × Nat) (hx : x ∈ s.from') (hn : batchOf s x = none) (names : TraceMap) :
    shownBatches s' = shownBatches s ∧ finishInterval (some (.ok names)) s'.data = finishInterval (some (.ok names)) s.data := by
  have f1 : Fit pids acts := fun pid hp => ⟨fun p m hm => (hf pid hp).1 p m (List.mem_append_left _ hm), fun p m cut hm => (hf pid hp).2 p m cut (List.mem_append_left _ hm)⟩
  have f2 : Fit pids later := fun pid hp => ⟨fun p m hm => (hf pid hp).1 p m (List.mem_append_right _ hm), fun p m cut hm => (hf pid hp).2 p m cut (List.mem_append_right _ hm)⟩
  obtain ⟨i, hs⟩ := inv_run acts (inv_init pids).2 (inv_init pids).1 f1 h
  obtain ⟨i', _⟩ := inv_run later hs i f2 h'
  obtain ⟨⟨l, e⟩, b⟩ := run_stable later hs i f2 h'
  have key : shownBatches s' = shownBatches s := by
    unfold shownBatches
    rw [e, List.map_append, List.map_congr_left b, takeWhile_stop]
    rw [← hn]
    exact List.mem_map_of_mem hx
  exact ⟨key, by rw [finish_eq i', finish_eq i, key]⟩

theorem run_append (s : State) (a b : List Action) : run s (a ++ b) = (run s a).bind fun t => run t b := by
  induction a generalizing s with
  | nil => rfl
  | cons x a ih =>
    simp only [List.cons_append, run]
    cases step s x with
    | none => rfl
    | some t => exact ih t

theorem one {s s' : State} {a : Action} (h : step s a = some s') : run s (List.replicate 1 a) = some s' := by
  simp [run, h]

/-- **C142 fails for every process that ends inside a field**: its worker reads past the end of a buffer when it gets there. -/
theorem field_undefined (pids : List Nat) (acts : List Action) (s : State) (hf : Fit pids acts) (h : run (init pids) acts = some s) (p : Nat) (c : Conn)
    (hp : s.conns[p]? = some c) (m : Threads) (cut : Nat) (ht : c.torn = some (m, cut)) (hc : InField cut) (hu : s.ub = false) :
    ∃ n s', run s (List.replicate n (.read p)) = some s' ∧ s'.ub = true := by
  have key : ∀ (left : Nat) (s : State) (c : Conn), Inv s → s.conns[p]? = some c → c.torn = some (m, cut) → s.ub = false → c.sent.length - c.taken ≤ left →
      ∃ n s', run s (List.replicate n (.read p)) = some s' ∧ s'.ub = true := by
    intro left
    induction left with
    | zero =>
      intro s c i hp ht hu hleft
      have g := i.good p c hp
      rcases g.bytes with ⟨h1, h2, h3⟩ | ⟨_, _, _, h4⟩
      · obtain ⟨s', e, r⟩ := reads hp g hu h2 (fun hx => by rw [g.alive, ht] at hx; cases hx.1)
        refine ⟨1, s', one e, ?_⟩
        cases r with
        | whole m' rest h5 => omega
        | undefined => rfl
        | part m' cut' lost h5 h6 h7 =>
          rw [ht] at h6
          cases h6
          unfold InField at hc
          unfold InPayload at h7
          omega
        | stop h5 h6 h7 h8 => exact absurd hc (h8 _ ht)
      · exact absurd hc (h4 _ ht)
    | succ left ih =>
      intro s c i hp ht hu hleft
      have g := i.good p c hp
      rcases g.bytes with ⟨h1, h2, h3⟩ | ⟨_, _, _, h4⟩
      · obtain ⟨s', e, r⟩ := reads hp g hu h2 (fun hx => by rw [g.alive, ht] at hx; cases hx.1)
        have i' := inv_reads i hp r
        cases r with
        | whole m' rest h5 h6 =>
          obtain ⟨n, s'', e', hu'⟩ := ih _ _ i' (List.getElem?_set_self (List.getElem?_eq_some_iff.1 hp).1) ht hu (by show c.sent.length - (c.taken + 1) ≤ left; omega)
          refine ⟨n + 1, s'', ?_, hu'⟩
          rw [List.replicate_succ]
          simp only [run]
          rw [e]
          exact e'
        | undefined => exact ⟨1, _, one e, rfl⟩
        | part m' cut' lost h5 h6 h7 =>
          rw [ht] at h6
          cases h6
          unfold InField at hc
          unfold InPayload at h7
          omega
        | stop h5 h6 h7 h8 => exact absurd hc (h8 _ ht)
      · exact absurd hc (h4 _ ht)
  exact key _ s c (reached hf h) hp ht hu (Nat.le_refl _)

/-- The end of every other process is noticed: its worker reads all that is left and stops; all complete batches were handed over, and the part of a batch if the process ended
    in the payload. -/
theorem end_noticed (pids : List Nat) (acts : List Action) (s : State) (hf : Fit pids acts) (h : run (init pids) acts = some s) (p : Nat) (c : Conn)
    (hp : s.conns[p]? = some c) (m : Threads) (cut : Nat) (ht : c.torn = some (m, cut)) (hc : ¬ InField cut) (hu : s.ub = false) :
    ∃ n s' c', run s (List.replicate n (.read p)) = some s' ∧ s'.ub = false ∧ s'.conns[p]? = some c' ∧ c'.lost = true ∧ c'.sent = c.sent ∧
      (s'.from'.filter fun x => x.1 = p).map (·.2) = List.range (c.sent.length + if InPayload cut then 1 else 0) := by
  have key : ∀ (left : Nat) (s : State) (c : Conn), Inv s → s.conns[p]? = some c → c.torn = some (m, cut) → s.ub = false → c.sent.length + 2 - c.taken ≤ left →
      ∃ n s' c', run s (List.replicate n (.read p)) = some s' ∧ s'.ub = false ∧ s'.conns[p]? = some c' ∧ c'.lost = true ∧ c'.sent = c.sent ∧
        (s'.from'.filter fun x => x.1 = p).map (·.2) = List.range (c.sent.length + if InPayload cut then 1 else 0) := by
    intro left
    induction left with
    | zero =>
      intro s c i hp ht hu hleft
      have g := i.good p c hp
      have htot : total c = c.sent.length + if InPayload cut then 1 else 0 := by simp [total, ht]
      have hle : total c ≤ c.taken := by rw [htot]; split <;> omega
      have hcount := i.count p c hp
      rw [Nat.min_eq_right hle, htot] at hcount
      cases hl : c.lost with
      | true => exact ⟨0, s, c, rfl, hu, hp, hl, rfl, hcount⟩
      | false =>
        obtain ⟨s', e, r⟩ := reads hp g hu hl (fun hx => by rw [g.alive, ht] at hx; cases hx.1)
        have i' := inv_reads i hp r
        cases r with
        | whole m' rest h5 => omega
        | undefined m' cut' h5 => omega
        | part m' cut' lost h5 => omega
        | stop h5 h6 h7 h8 => exact ⟨1, _, _, one e, hu, List.getElem?_set_self (List.getElem?_eq_some_iff.1 hp).1, rfl, rfl, hcount⟩
    | succ left ih =>
      intro s c i hp ht hu hleft
      have g := i.good p c hp
      have htot : total c = c.sent.length + if InPayload cut then 1 else 0 := by simp [total, ht]
      cases hl : c.lost with
      | true =>
        rcases g.bytes with ⟨_, h2, _⟩ | ⟨h1, _⟩
        · rw [hl] at h2
          cases h2
        · have hle : total c ≤ c.taken := by rw [htot]; split <;> omega
          have hcount := i.count p c hp
          rw [Nat.min_eq_right hle, htot] at hcount
          exact ⟨0, s, c, rfl, hu, hp, hl, rfl, hcount⟩
      | false =>
        obtain ⟨s', e, r⟩ := reads hp g hu hl (fun hx => by rw [g.alive, ht] at hx; cases hx.1)
        have i' := inv_reads i hp r
        have next : ∀ (c1 : Conn), Inv s' → s'.conns[p]? = some c1 → c1.torn = some (m, cut) → s'.ub = false → c1.sent = c.sent → c1.taken = c.taken + 1 → c.taken < c.sent.length + 2 →
            ∃ n s' c', run s (List.replicate n (.read p)) = some s' ∧ s'.ub = false ∧ s'.conns[p]? = some c' ∧ c'.lost = true ∧ c'.sent = c.sent ∧
              (s'.from'.filter fun x => x.1 = p).map (·.2) = List.range (c.sent.length + if InPayload cut then 1 else 0) := by
          intro c1 i1 hp1 ht1 hu1 es et hlt
          obtain ⟨n, s'', c'', e1, e2, e3, e4, e5, e6⟩ := ih s' c1 i1 hp1 ht1 hu1 (by rw [es, et]; omega)
          refine ⟨n + 1, s'', c'', ?_, e2, e3, e4, by rw [e5, es], by rw [e6, es]⟩
          rw [List.replicate_succ]
          simp only [run]
          rw [e]
          exact e1
        have self := fun (d : Conn) => List.getElem?_set_self (a := d) (List.getElem?_eq_some_iff.1 hp).1
        cases r with
        | whole m' rest h5 h6 => exact next _ i' (self _) ht hu rfl rfl (by omega)
        | undefined m' cut' h5 h6 h7 =>
          rw [ht] at h6
          cases h6
          exact absurd h7 hc
        | part m' cut' lost h5 h6 h7 => exact next _ i' (self _) ht hu rfl rfl (by omega)
        | stop h5 h6 h7 h8 =>
          have hcount := i.count p c hp
          rw [Nat.min_eq_right h6, htot] at hcount
          exact ⟨1, _, _, one e, hu, self _, rfl, rfl, hcount⟩
  exact key _ s c (reached hf h) hp ht hu (Nat.le_refl _)

/-- **C142, partial.** If every process that ended did so between two messages, or between the fields in front of the name, the consumer does not fail and every event of every
    complete batch that was read is shown. Missing: the other moments. -/
theorem end_between_harmless_partial (pids : List Nat) (acts : List Action) (s : State) (hf : Fit pids acts) (h : run (init pids) acts = some s)
    (hc : ∀ c ∈ s.conns, ∀ m cut, c.torn = some (m, cut) → cut = 0 ∨ cut = 8 ∨ cut = 10) (names : TraceMap) :
    s.ub = false ∧ (∀ x ∈ s.from', (batchOf s x).isSome) ∧
      ∃ res, finishInterval (some (.ok names)) s.data = .ok res ∧
        (res.map NativeSource.Entry.shape).Perm ((recorded (s.from'.filterMap (batchOf s))).map (shown names)) := by
  have i := reached hf h
  have all : ∀ x ∈ s.from', (batchOf s x).isSome := by
    intro x hx
    have hd := i.dom x hx
    have hget := List.getElem?_eq_getElem hd
    have hlt := mem_count i hx hget
    have htot : total s.conns[x.1] = s.conns[x.1].sent.length := by
      unfold total
      cases ht : s.conns[x.1].torn with
      | none => rfl
      | some z =>
        obtain ⟨m, cut⟩ := z
        have := hc _ (List.getElem_mem hd) m cut ht
        have hn : ¬ InPayload cut := by unfold InPayload; omega
        simp [hn]
    have hk : x.2 < s.conns[x.1].sent.length := by omega
    unfold batchOf
    rw [hget]
    simp [List.getElem?_eq_getElem hk]
  refine ⟨?_, all, ?_⟩
  · cases hu : s.ub with
    | false => rfl
    | true =>
      obtain ⟨p, c, m, cut, h1, h2, h3⟩ := i.undef hu
      have := hc c (List.mem_of_getElem? h1) m cut h2
      unfold InField at h3
      omega
  · have e : shownBatches s = s.from'.filterMap (batchOf s) := by
      unfold shownBatches
      rw [List.takeWhile_eq_self_iff.2, List.filterMap_map]
      · rfl
      · intro o ho
        obtain ⟨x, hx, rfl⟩ := List.mem_map.1 ho
        exact all x hx
    rw [← e]
    exact shown_exact pids acts s hf h names

/-! ## The full property, and that it fails -/

/-- **C142** in full: whenever and wherever processes end, the consumer does not fail and shows every event of every complete batch that it read. -/
def EndsHarmless : Prop :=
  ∀ (pids : List Nat) (acts : List Action) (s : State), Fit pids acts → run (init pids) acts = some s → s.ub = false ∧
    ∀ (names : TraceMap) (x : Nat × Nat) (b : Nat × Threads), x ∈ s.from' → batchOf s x = some b → ∀ r ∈ recorded [b],
      ∃ res, finishInterval (some (.ok names)) s.data = .ok res ∧ shown names r ∈ res.map NativeSource.Entry.shape

namespace Examples

local instance : DecidableEq (Option (Threads × Nat)) := inferInstance
local instance : DecidableEq (Nat × Threads) := inferInstance
local instance : DecidableEq (Option (Nat × Threads)) := inferInstance
local instance : DecidableEq (List (Nat × Threads)) := inferInstance

/-- One thread entered a scope. -/
def batch : Threads := [(2, [⟨500000, 3, 1, none⟩])]

theorem batch_fits (pid : Nat) (h : pid = 7 ∨ pid = 8) : BatchFits pid batch := by
  rcases h with rfl | rfl <;> refine ⟨by decide, ?_, by decide +kernel, by unfold Known; decide +kernel⟩ <;> constructor <;> decide

theorem fits (acts : List Action) (hs : ∀ p m, Action.send p m ∈ acts → m = batch) (hd : ∀ p m cut, Action.die p m cut ∈ acts → m = batch) : Fit [7, 8] acts := by
  intro pid hp
  have : pid = 7 ∨ pid = 8 := by simpa using hp
  exact ⟨fun p m hm => by rw [hs p m hm]; exact batch_fits pid this, fun p m cut hm => by rw [hd p m cut hm]; exact batch_fits pid this⟩

/-- The first process sends a batch and ends in the payload of the next; the second sends a batch, which is read after that. -/
def torn : List Action := [.send 0 batch, .read 0, .die 0 batch 40, .send 1 batch, .read 0, .read 1]

theorem torn_fits : Fit [7, 8] torn := fits torn (by simp [torn] <;> grind) (by simp [torn] <;> grind)

/-- The first process ends between two messages. -/
def clean : List Action := [.send 0 batch, .die 0 batch 0, .send 1 batch, .read 1, .read 0, .read 0]

theorem clean_fits : Fit [7, 8] clean := fits clean (by simp [clean] <;> grind) (by simp [clean] <;> grind)

/-- The first process ends inside the number of the request. -/
def field : List Action := [.send 0 batch, .die 0 batch 3]

theorem field_fits : Fit [7, 8] field := fits field (by simp [field]) (by simp [field] <;> grind)

theorem torn_run : (run (init [7, 8]) torn).map (fun s => (s.from', s.ub, shownBatches s, batchOf s (1, 0), batchOf s (0, 1))) =
    some ([(0, 0), (0, 1), (1, 0)], false, [(7, batch)], some (8, batch), none) := by decide +kernel

theorem clean_run : (run (init [7, 8]) clean).map (fun s => (s.from', s.ub, shownBatches s, s.conns.map (·.lost))) =
    some ([(1, 0), (0, 0)], false, [(8, batch), (7, batch)], [true, false]) := by decide +kernel

theorem clean_torn : (run (init [7, 8]) clean).map (fun s => s.conns.map (·.torn)) = some [some (batch, 0), none] := by decide +kernel

theorem field_run : (run (init [7, 8]) field).map (fun s => (s.from', s.ub)) = some ([], false) := by decide +kernel

theorem field_read : (run (init [7, 8]) (field ++ [.read 0, .read 0])).map (fun s => (s.from', s.ub)) = some ([(0, 0)], true) := by decide +kernel

end Examples

open Examples

/-- **C142 fails**: a process that ended in the payload of a message hides what another process sends afterwards. -/
theorem other_process_hidden : ¬ EndsHarmless := by
  intro h
  obtain ⟨s, hs, e⟩ := Option.map_eq_some_iff.1 torn_run
  simp only [Prod.mk.injEq] at e
  obtain ⟨e1, e2, e3, e4, e5⟩ := e
  obtain ⟨_, h2⟩ := h [7, 8] torn s torn_fits hs
  obtain ⟨res, h3, h4⟩ := h2 [] (1, 0) (8, batch) (by rw [e1]; simp) e4 ⟨8, 2, ⟨500000, 3, 1, none⟩⟩ (by decide +kernel)
  obtain ⟨res', h5, h6⟩ := shown_exact [7, 8] torn s torn_fits hs []
  rw [h3] at h5
  cases h5
  have := h6.mem_iff.1 h4
  rw [e3] at this
  revert this
  decide +kernel

/-- **C142 fails**: a process that ended inside a number of a message leads to undefined behaviour of the consumer. -/
theorem consumer_undefined : ¬ EndsHarmless := by
  intro h
  obtain ⟨s, hs, e⟩ := Option.map_eq_some_iff.1 field_read
  simp only [Prod.mk.injEq] at e
  have := (h [7, 8] _ s (fits _ (by simp [field]) (by simp [field] <;> grind)) hs).1
  rw [e.2] at this
  cases this

example : ∃ s, run (init [7, 8]) torn = some s ∧ ∃ x, x ∈ s.from' ∧ batchOf s x = none := by
  obtain ⟨s, hs, e⟩ := Option.map_eq_some_iff.1 torn_run
  simp only [Prod.mk.injEq] at e
  exact ⟨s, hs, (0, 1), by rw [e.1]; simp, e.2.2.2.2⟩

example (s : State) (h : run (init [7, 8]) clean = some s) (names : TraceMap) := end_between_harmless_partial [7, 8] clean s clean_fits h (by
  obtain ⟨t, ht, e⟩ : ∃ t, run (init [7, 8]) clean = some t ∧ t.conns.map (·.torn) = [some (batch, 0), none] :=
    Option.map_eq_some_iff.1 clean_torn
  rw [h] at ht
  cases ht
  intro c hc m cut hm
  have : c.torn ∈ s.conns.map (·.torn) := List.mem_map_of_mem hc
  rw [e, hm] at this
  simp at this
  omega) names

example := part_is_refused 7 batch (batch_fits 7 (Or.inl rfl)) 5 (by decide +kernel)
example := part_hides_later [7, 8] torn [.send 1 batch, .read 1]
example := field_undefined [7, 8] field
example := end_noticed [7, 8] clean
example := shown_exact [7, 8] torn
example := each_in_order [7, 8] torn

end Scalopus.C142
