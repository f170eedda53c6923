import Verif.Model.BsonEndpoints
import Verif.Props.C25_Configurator
import Verif.Props.C126_Bson

/-!
# C128: what the built-in endpoints serve arrives byte for byte

C25, C47, C48 and C49 speak about decoded messages. Here the bytes are followed from the request of the client through the handler back to the result of the client.
-/

namespace Scalopus.C128

open Bson BsonEndpoints C126
open Configurator (Config)
open TraceState (State)

/-! ## Specification -/

/-- A table of names that can be served: different keys below 2^63, names of less than two gigabytes. -/
def Table (m : List (Nat × Bytes)) : Prop := (m.map (·.1)).Nodup ∧ ∀ x ∈ m, x.1 < 2 ^ 63 ∧ x.2.length + 1 < 2 ^ 31

/-- A table of switches that can be served: different keys below 2^63. -/
def Switches (m : List (Nat × Bool)) : Prop := (m.map (·.1)).Nodup ∧ ∀ x ∈ m, x.1 < 2 ^ 63

/-! ## Lemmas -/

theorem read_ok {stack : Nat} {v : Val} {b : Bytes} (h : Plain (stack + 1) v) (hb : encode v = .ok b) : readBson stack b = .ok v := by
  simp [readBson, read_back stack v h b hb]

theorem encode_ok {n : Nat} {l : List (Bytes × Val)} (h : Plain n (.obj l)) : ∃ b, encode (.obj l) = .ok b := (written_iff _).2 ⟨h.writable, _, rfl⟩

theorem plain_obj (n : Nat) (l : List (Bytes × Val)) (ks : List Bytes) (hk : l.map Prod.fst = ks) (h0 : ∀ k ∈ ks, (0 : UInt8) ∉ k) (hn : ks.Nodup) (h : ∀ p ∈ l, Plain n p.2) : Plain (n + 1) (.obj l) :=
  .obj n l (fun p hp => h0 p.1 (by rw [← hk]; exact List.mem_map.2 ⟨p, hp, rfl⟩)) (by rw [hk]; exact hn) h

theorem plain_ofMap {κ ν : Type} (n : Nat) (fk : κ → Val) (fv : ν → Val) (m : List (κ × ν)) (h : ∀ x ∈ m, Plain n (fk x.1) ∧ Plain n (fv x.2)) : Plain (n + 2) (ofMap fk fv m) := by
  refine .arr _ _ fun v hv => ?_
  obtain ⟨x, hx, rfl⟩ := List.mem_map.1 hv
  refine .arr _ _ fun v hv => ?_
  simp only [List.mem_cons, List.not_mem_nil, or_false] at hv
  rcases hv with rfl | rfl
  · exact (h x hx).1
  · exact (h x hx).2

theorem plain_nat (n k : Nat) (h : k < 2 ^ 63) : Plain n (.int k) := .int _ _ (by omega) (by omega)

theorem map_round_trip {κ ν : Type} [BEq κ] [LawfulBEq κ] [DecidableEq κ] (fk : κ → Val) (fv : ν → Val) (gk : Val → Res κ) (gv : Val → Res ν) (m : List (κ × ν))
    (hk : ∀ x ∈ m, gk (fk x.1) = .ok x.1) (hv : ∀ x ∈ m, gv (fv x.2) = .ok x.2) (hn : (m.map (·.1)).Nodup) : toMap gk gv (ofMap fk fv m) = .ok m := by
  unfold toMap ofMap
  simp only [asArr, Res.bind]
  rw [Json.mapM_map _ _ (fun x => x)]
  · simp only [Res.bind, List.map_id']
    rw [Json.foldl_emplace [] m (by simpa using hn)]
    simp
  · intro x hx
    simp only [toPair, asArr, Res.bind, hk x hx, hv x hx]

theorem asULong_ok {k : Nat} (h : k < 2 ^ 63) : asULong (.int k) = .ok k := by
  simp only [asULong, Res.ok.injEq]
  omega

theorem asUInt32_ok {k : Nat} (h : k < 2 ^ 32) : asUInt32 (.int k) = .ok k := by
  simp only [asUInt32, Res.ok.injEq]
  omega

theorem asInt32_ok {n : Int} (h : -2 ^ 31 ≤ n ∧ n < 2 ^ 31) : asInt32 (.int n) = .ok n := by
  simp only [asInt32, Res.ok.injEq]
  omega

theorem faulty_map {ν : Type} (fv : ν → Val) (m : List (Nat × ν)) (x : Nat × ν) (hx : x ∈ m) (h : 2 ^ 63 ≤ x.1) : faulty (ofMap (fun k : Nat => .int k) fv m) = true := by
  cases hf : faulty (ofMap (fun k : Nat => .int k) fv m) with
  | true => rfl
  | false =>
    have := (faulty_iff _).1 hf
    cases this with
    | arr _ h1 =>
      have h2 := h1 (.arr [.int x.1, fv x.2]) (List.mem_map.2 ⟨x, hx, rfl⟩)
      cases h2 with
      | arr _ h3 =>
        have h4 := h3 (.int x.1) (by simp)
        cases h4 with
        | int _ h5 h6 => omega

/-! ## Process information -/

theorem info_request (stack : Nat) : ∃ b, infoRequest = .ok b ∧ readBson stack b = .ok (.obj [(cmd, .str info)]) := by
  have hp : Plain (stack + 1) (.obj [(cmd, .str info)]) := by
    refine plain_obj _ _ [cmd] rfl (by decide) (by decide) ?_
    intro p hp
    simp only [List.mem_cons, List.not_mem_nil, or_false] at hp
    rw [hp]
    exact .str _ _ (by decide)
  obtain ⟨b, hb⟩ := encode_ok hp
  exact ⟨b, hb, read_ok hp hb⟩

/-- The client gets the process id, the name of the process and the names of the threads of the server, byte for byte. -/
theorem info_arrives (server client : Nat) (pid : Int) (hp : -2 ^ 31 ≤ pid ∧ pid < 2 ^ 31) (name : Bytes) (hl : name.length + 1 < 2 ^ 31) (threads : List (Nat × Bytes)) (ht : Table threads) :
    ∃ request answer, infoRequest = .ok request ∧ infoHandle server pid name threads request = .ok (some answer) ∧
      infoResult (client + 2) answer = .ok { name := name, threads := threads, pid := pid } := by
  obtain ⟨req, h1, h2⟩ := info_request server
  have hP : Plain (client + 2 + 1) (.obj [(pidKey, .int pid), (nameKey, .str name), (threadsKey, ofMap (fun k : Nat => .int k) .str threads)]) := by
    refine plain_obj _ _ [pidKey, nameKey, threadsKey] rfl (by decide) (by decide) ?_
    intro p hp'
    simp only [List.mem_cons, List.not_mem_nil, or_false] at hp'
    rcases hp' with rfl | rfl | rfl
    · exact .int _ _ (by have := hp.1; omega) (by have := hp.2; omega)
    · exact .str _ _ hl
    · exact plain_ofMap client (fun k : Nat => .int k) .str threads fun x hx => ⟨plain_nat _ _ (ht.2 x hx).1, .str _ _ (ht.2 x hx).2⟩
  obtain ⟨ans, ha⟩ := encode_ok hP
  refine ⟨req, ans, h1, ?_, ?_⟩
  · have e : index (.obj [(cmd, .str info)]) cmd = .ok (.str info) := rfl
    simp [infoHandle, h2, e, asStr, ha]
  · have e1 : index (.obj [(pidKey, .int pid), (nameKey, .str name), (threadsKey, ofMap (fun k : Nat => .int k) .str threads)]) nameKey = .ok (.str name) := rfl
    have e2 : index (.obj [(pidKey, .int pid), (nameKey, .str name), (threadsKey, ofMap (fun k : Nat => .int k) .str threads)]) threadsKey =
        .ok (ofMap (fun k : Nat => .int k) .str threads) := rfl
    have e3 : index (.obj [(pidKey, .int pid), (nameKey, .str name), (threadsKey, ofMap (fun k : Nat => .int k) .str threads)]) pidKey = .ok (.int pid) := rfl
    have e4 : toMap asULong asStr (ofMap (fun k : Nat => .int k) .str threads) = .ok threads :=
      map_round_trip _ _ _ _ _ (fun x hx => asULong_ok (ht.2 x hx).1) (fun _ _ => rfl) ht.1
    simp [infoResult, read_ok hP ha, e1, e2, e3, e4, asStr, asInt32_ok hp]

/-- A thread with an id of 2^63 or more in the table makes every such query throw in the server. -/
theorem info_large_id (server : Nat) (pid : Int) (name : Bytes) (threads : List (Nat × Bytes)) (x : Nat × Bytes) (hx : x ∈ threads) (h : 2 ^ 63 ≤ x.1) :
    ∃ request, infoRequest = .ok request ∧ infoHandle server pid name threads request = .throws "out_of_range" := by
  obtain ⟨req, h1, h2⟩ := info_request server
  refine ⟨req, h1, ?_⟩
  have e : index (.obj [(cmd, .str info)]) cmd = .ok (.str info) := rfl
  have hf : encode (.obj [(pidKey, .int pid), (nameKey, .str name), (threadsKey, ofMap (fun k : Nat => .int k) .str threads)]) = .throws "out_of_range" := by
    simp [encode, faultyFields, faulty_map .str threads x hx h]
  simp [infoHandle, h2, e, asStr, hf]

/-! ## Introspection -/

/-- The client gets the names of the endpoints of the server, in the same order, byte for byte. -/
theorem endpoints_arrive (client : Nat) (names : List Bytes) (h : ∀ n ∈ names, n.length + 1 < 2 ^ 31) :
    ∃ answer, introspectHandle names = .ok answer ∧ supportedResult (client + 1) answer = .ok names := by
  have hP : Plain (client + 1 + 1) (.obj [(endpointsKey, .arr (names.map .str))]) := by
    refine plain_obj _ _ [endpointsKey] rfl (by decide) (by decide) ?_
    intro p hp
    simp only [List.mem_cons, List.not_mem_nil, or_false] at hp
    rw [hp]
    refine .arr _ _ fun v hv => ?_
    obtain ⟨n, hn, rfl⟩ := List.mem_map.1 hv
    exact .str _ _ (h n hn)
  obtain ⟨ans, ha⟩ := encode_ok hP
  refine ⟨ans, ha, ?_⟩
  have e : index (.obj [(endpointsKey, .arr (names.map .str))]) endpointsKey = .ok (.arr (names.map .str)) := rfl
  have e2 : Res.mapM asStr (names.map .str) = .ok (names.map fun x => x) := Json.mapM_map _ _ _ names fun _ _ => rfl
  simp only [supportedResult, read_ok hP ha, e, Res.bind_ok, asArr, e2, List.map_id']

/-! ## Names of tracepoints -/

/-- The client gets the names of the tracepoints of the server, byte for byte. -/
theorem mapping_arrives (client : Nat) (pid : Int) (hp : -2 ^ 31 ≤ pid ∧ pid < 2 ^ 31) (names : List (Nat × Bytes)) (ht : Table names) (h32 : ∀ x ∈ names, x.1 < 2 ^ 32) :
    ∃ answer, mappingResponse pid names = .ok answer ∧ mappingResult (client + 4) answer = .ok [(pid, names)] := by
  have hP : Plain (client + 4 + 1) (.obj [(mappingKey, ofMap (fun p : Int => .int p) (ofMap (fun k : Nat => .int k) .str) [(pid, names)])]) := by
    refine plain_obj _ _ [mappingKey] rfl (by decide) (by decide) ?_
    intro p hp'
    simp only [List.mem_cons, List.not_mem_nil, or_false] at hp'
    rw [hp']
    refine plain_ofMap (client + 2) (fun p : Int => .int p) (ofMap (fun k : Nat => .int k) .str) _ fun x hx => ?_
    simp only [List.mem_cons, List.not_mem_nil, or_false] at hx
    rw [hx]
    refine ⟨.int _ _ (by have := hp.1; omega) (by have := hp.2; omega), ?_⟩
    exact plain_ofMap client (fun k : Nat => .int k) .str names fun x hx => ⟨plain_nat _ _ (ht.2 x hx).1, .str _ _ (ht.2 x hx).2⟩
  obtain ⟨ans, ha⟩ := encode_ok hP
  refine ⟨ans, ha, ?_⟩
  have e : index (.obj [(mappingKey, ofMap (fun p : Int => .int p) (ofMap (fun k : Nat => .int k) .str) [(pid, names)])]) mappingKey =
      .ok (ofMap (fun p : Int => .int p) (ofMap (fun k : Nat => .int k) .str) [(pid, names)]) := rfl
  have e2 : toMap asUInt32 asStr (ofMap (fun k : Nat => .int k) .str names) = .ok names :=
    map_round_trip _ _ _ _ _ (fun x hx => asUInt32_ok (h32 x hx)) (fun _ _ => rfl) ht.1
  have e3 : toMap asInt32 (toMap asUInt32 asStr) (ofMap (fun p : Int => .int p) (ofMap (fun k : Nat => .int k) .str) [(pid, names)]) = .ok [(pid, names)] := by
    apply map_round_trip
    · intro x hx
      simp only [List.mem_cons, List.not_mem_nil, or_false] at hx
      rw [hx]
      exact asInt32_ok hp
    · intro x hx
      simp only [List.mem_cons, List.not_mem_nil, or_false] at hx
      rw [hx]
      exact e2
    · simp
  simp only [mappingResult, read_ok hP ha, e, Res.bind_ok, e3]

/-! ## Switches -/

theorem plain_config (n : Nat) (c : Config) (h : Switches c.threads) : Plain (n + 3) (toVal c) := by
  refine plain_obj _ _ [pKey, spKey, tKey] rfl (by decide) (by decide) ?_
  intro p hp
  simp only [List.mem_cons, List.not_mem_nil, or_false] at hp
  rcases hp with rfl | rfl | rfl
  · exact .bool _ _
  · exact .bool _ _
  · exact plain_ofMap n (fun k : Nat => .int k) .bool c.threads fun x hx => ⟨plain_nat _ _ (h.2 x hx), .bool _ _⟩

theorem fromVal_toVal (c : Config) (h : Switches c.threads) : fromVal (toVal c) = .ok { c with success := false } := by
  have e : toMap asULong asBool (ofMap (fun k : Nat => .int k) .bool c.threads) = .ok c.threads :=
    map_round_trip _ _ _ _ _ (fun x hx => asULong_ok (h.2 x hx)) (fun _ _ => rfl) h.1
  have e1 : get (toVal c) pKey = .ok (.bool c.process) := rfl
  have e2 : get (toVal c) spKey = .ok (.bool c.setProcess) := rfl
  have e3 : get (toVal c) tKey = .ok (ofMap (fun k : Nat => .int k) .bool c.threads) := rfl
  simp [fromVal, e1, e2, e3, asBool, e]

theorem plain_request (n : Nat) (c : Config) (h : Switches c.threads) : Plain (n + 4) (.obj [(cmd, .str setWord), (stateKey, toVal c)]) := by
  refine plain_obj _ _ [cmd, stateKey] rfl (by decide) (by decide) ?_
  intro p hp
  simp only [List.mem_cons, List.not_mem_nil, or_false] at hp
  rcases hp with rfl | rfl
  · exact .str _ _ (by decide)
  · exact plain_config n c h

theorem plain_reply (n : Nat) (c : Config) (h : Switches c.threads) : Plain (n + 4) (.obj [(stateKey, toVal c)]) := by
  refine plain_obj _ _ [stateKey] rfl (by decide) (by decide) ?_
  intro p hp
  simp only [List.mem_cons, List.not_mem_nil, or_false] at hp
  rw [hp]
  exact plain_config n c h

theorem mapM_keys {α β : Type} (f : Nat × α → Res (Nat × β)) (hf : ∀ x y, f x = .ok y → y.1 = x.1) (m : List (Nat × α)) (ts : List (Nat × β)) (h : Res.mapM f m = .ok ts) :
    ts.map (·.1) = m.map (·.1) := by
  induction m generalizing ts with
  | nil => simp [Res.mapM] at h; simp [← h]
  | cons x m ih =>
    simp only [Res.mapM] at h
    cases hx : f x with
    | ok y =>
      cases hr : Res.mapM f m with
      | ok r =>
        simp only [hx, hr, Res.bind] at h
        injection h with h
        rw [← h]
        simp [ih r hr, hf x y hx]
      | throws e => simp [hx, hr, Res.bind] at h
      | ub => simp [hx, hr, Res.bind] at h
      | terminate => simp [hx, hr, Res.bind] at h
    | throws e => simp [hx, Res.bind] at h
    | ub => simp [hx, Res.bind] at h
    | terminate => simp [hx, Res.bind] at h

theorem loads_keys (s : State) (m : List (Nat × Nat)) (ts : List (Nat × Bool)) (h : Configurator.loads s m = .ok ts) : ts.map (·.1) = m.map (·.1) := by
  refine mapM_keys _ ?_ m ts h
  intro x y hy
  split at hy
  · injection hy with hy
    rw [← hy]
  · cases hy

/-- The commands of a client, in `Model/Configurator`. -/
def command : Option Config → Json
  | some c => Configurator.setRequest c
  | none => Configurator.getRequest

/-- A client that sets or reads the switches of a server, with all bytes: the request, the handler in the state `s` and the result of the client. -/
def exchange (server client : Nat) (s : State) (c : Option Config) : Res (State × Config) := do
  let request ← configRequest c
  let (s, answer) ← configHandle server s request
  let c ← configResult client answer
  return (s, c)

/-- The same with decoded messages. -/
def decoded (s : State) (c : Option Config) : Res (State × Config) := do
  let (s, answer) ← Configurator.handle s (some (command c))
  let c ← Configurator.clientResult (some (some answer))
  return (s, c)

/-- With the bytes, clients that set or read switches have exactly the effect and the result that they have with decoded messages, of which C25 speaks. -/
theorem switches_arrive (server client : Nat) (s : State) (hs : (s.map.map (·.1)).Nodup ∧ ∀ x ∈ s.map, x.1 < 2 ^ 63) (c : Option Config) (hc : ∀ x, c = some x → Switches x.threads) :
    exchange (server + 3) (client + 3) s c = decoded s c := by
  -- the answer, once the switches have been stored
  have tail : ∀ (s2 : State) (ts : List (Nat × Bool)), Configurator.loads s2 s.map = .ok ts →
      ∃ b, encode (.obj [(stateKey, toVal { process := s2.process, threads := ts })]) = .ok b ∧
        configResult (client + 3) b = .ok { process := s2.process, threads := ts, success := true } ∧
        Configurator.clientResult (some (some (.obj [("state", Configurator.toJson { process := s2.process, threads := ts })]))) =
          .ok { process := s2.process, threads := ts, success := true } := by
    intro s2 ts hts
    have hk := loads_keys s2 s.map ts hts
    have hsw : Switches ts := by
      refine ⟨by rw [hk]; exact hs.1, fun x hx => ?_⟩
      have : x.1 ∈ s.map.map (·.1) := by rw [← hk]; exact List.mem_map.2 ⟨x, hx, rfl⟩
      obtain ⟨y, hy, e⟩ := List.mem_map.1 this
      rw [← e]
      exact hs.2 y hy
    have hP := plain_reply client { process := s2.process, threads := ts } hsw
    obtain ⟨b, hb⟩ := encode_ok hP
    refine ⟨b, hb, ?_, (C25.client_result { process := s2.process, threads := ts } hsw.1 (fun x hx => by have := hsw.2 x hx; omega)).1⟩
    have e : get (.obj [(stateKey, toVal { process := s2.process, threads := ts })]) stateKey = .ok (toVal { process := s2.process, threads := ts }) := rfl
    simp [configResult, read_ok hP hb, e, fromVal_toVal { process := s2.process, threads := ts } hsw]
  have hm : TraceState.step s .getMap = .ok { s with snaps := s.snaps ++ [s.map] } := rfl
  cases c with
  | none =>
    have hP : Plain (server + 3 + 1) (.obj [(cmd, .str getWord)]) := by
      refine plain_obj _ _ [cmd] rfl (by decide) (by decide) ?_
      intro p hp
      simp only [List.mem_cons, List.not_mem_nil, or_false] at hp
      rw [hp]
      exact .str _ _ (by decide)
    obtain ⟨req, hreq⟩ := encode_ok hP
    have e1 : get (.obj [(cmd, .str getWord)]) cmd = .ok (.str getWord) := rfl
    have e2 : Configurator.getRequest.get "cmd" = .ok (.str "get") := rfl
    have e3 : ¬ getWord = setWord := by decide
    have e4 : ¬ ("get" = "set") := by decide
    simp only [exchange, decoded, configRequest, hreq, configHandle, read_ok hP hreq, Res.bind_ok, hm, e1, asStr, e3, if_false, command, Configurator.handle, e2, Json.asStr, e4]
    cases hl : Configurator.loads { s with snaps := s.snaps ++ [s.map] } s.map with
    | ok ts =>
      obtain ⟨b, t1, t2, t3⟩ := tail _ ts hl
      simp only [Res.bind_ok, Res.pure_eq] at t1 t3 ⊢
      simp [t1, t2, t3]
    | throws e => rfl
    | ub => rfl
    | terminate => rfl
  | some c =>
    have hsw := hc c rfl
    have hP := plain_request server c hsw
    obtain ⟨req, hreq⟩ := encode_ok hP
    have e1 : get (.obj [(cmd, .str setWord), (stateKey, toVal c)]) cmd = .ok (.str setWord) := rfl
    have e1' : get (.obj [(cmd, .str setWord), (stateKey, toVal c)]) stateKey = .ok (toVal c) := rfl
    have e2 : (Configurator.setRequest c).get "cmd" = .ok (.str "set") := rfl
    have e2' : (Configurator.setRequest c).get "state" = .ok (Configurator.toJson c) := rfl
    simp only [exchange, decoded, configRequest, hreq, configHandle, read_ok hP hreq, Res.bind_ok, hm, e1, e1', asStr, if_true, command, Configurator.handle, e2, e2', Json.asStr,
      fromVal_toVal c hsw, Configurator.fromJson_toJson c hsw.1 (fun x hx => by have := hsw.2 x hx; omega)]
    cases hr : TraceState.run { s with snaps := s.snaps ++ [s.map] } (Configurator.setActs s.snaps.length { c with success := false }) with
    | ok s2 =>
      simp only [Res.bind_ok]
      cases hl : Configurator.loads s2 s.map with
      | ok ts =>
        obtain ⟨b, t1, t2, t3⟩ := tail _ ts hl
        simp only [Res.bind_ok, Res.pure_eq] at t1 t3 ⊢
        simp [t1, t2, t3]
      | throws e => rfl
      | ub => rfl
      | terminate => rfl
    | throws e => rfl
    | ub => rfl
    | terminate => rfl

/-- A client that names a thread with an id of 2^63 or more gets an exception, and nothing is sent. -/
theorem large_id_not_sent (c : Config) (x : Nat × Bool) (hx : x ∈ c.threads) (h : 2 ^ 63 ≤ x.1) : configRequest (some c) = .throws "out_of_range" := by
  simp [configRequest, encode, faultyFields, toVal, faulty, faulty_map .bool c.threads x hx h]

/-- A query of which a byte is missing makes the server's handler throw, which ends the process (C63). -/
theorem cut_query_throws (server : Nat) (pid : Int) (name : Bytes) (threads : List (Nat × Bytes)) (request : Bytes) (hr : infoRequest = .ok request) (k : Nat) (hk : k < request.length) :
    infoHandle server pid name threads (request.take k) = .throws "parse_error" := by
  have hp : Plain (server + 1) (.obj [(cmd, .str info)]) := by
    refine plain_obj _ _ [cmd] rfl (by decide) (by decide) ?_
    intro p hp
    simp only [List.mem_cons, List.not_mem_nil, or_false] at hp
    rw [hp]
    exact .str _ _ (by decide)
  have := (whole_or_error server _ hp request hr).2.1 k hk
  simp [infoHandle, readBson, this]

/-- A cut answer is an error of the client: it never gets a part of the names. -/
theorem cut_answer_throws (client : Nat) (v : Val) (h : Plain (client + 1) v) (answer : Bytes) (ha : encode v = .ok answer) (k : Nat) (hk : k < answer.length) :
    infoResult client (answer.take k) = .throws "parse_error" ∧ supportedResult client (answer.take k) = .throws "parse_error" ∧
    mappingResult client (answer.take k) = .throws "parse_error" ∧ configResult client (answer.take k) = .throws "parse_error" := by
  have := (whole_or_error client v h answer ha).2.1 k hk
  simp [infoResult, supportedResult, mappingResult, configResult, readBson, this]

/-! ## The claim -/

/-- Whatever names the threads of a process have: a query for them is answered. -/
def AlwaysAnswered : Prop := ∀ (server : Nat) (pid : Int) (name : Bytes) (threads : List (Nat × Bytes)), (threads.map (·.1)).Nodup → (∀ x ∈ threads, x.1 < 2 ^ 64) →
  ∃ request answer, infoRequest = .ok request ∧ infoHandle server pid name threads request = .ok (some answer)

/-- It fails for ids that need the highest bit. -/
theorem not_AlwaysAnswered : ¬ AlwaysAnswered := by
  intro h
  obtain ⟨req, ans, h1, h2⟩ := h 0 1 [] [(2 ^ 63, [97])] (by simp) (by simp)
  obtain ⟨req', h3, h4⟩ := info_large_id 0 1 [] [(2 ^ 63, [97])] (2 ^ 63, [97]) (by simp) (by simp)
  rw [h1] at h3
  injection h3 with h3
  rw [← h3, h2] at h4
  cases h4

example : Table [(140210000000000, [109, 97, 105, 110]), (7, [0, 255])] := by
  refine ⟨by decide, ?_⟩
  intro x hx
  simp only [List.mem_cons, List.not_mem_nil, or_false] at hx
  rcases hx with rfl | rfl <;> simp

example : ∃ s, TraceState.run {} [.start 5, .start 6, .getThread 0, .getThread 1] = .ok s ∧ (s.map.map (·.1)).Nodup ∧ (∀ x ∈ s.map, x.1 < 2 ^ 63) ∧
    ∃ s', decoded s (some { process := false, threads := [(6, false), (9, false)] }) = .ok (s', { process := true, threads := [(5, true), (6, false)], success := true }) := by
  refine ⟨_, rfl, by decide, by decide, _, rfl⟩

/-! ### The names in the messages, and the range of the numbers -/

/-- The bytes of a text. -/
def text (s : String) : Bytes := s.toUTF8.data.toList

/-- The messages use the names that the source has: other programs may speak to the endpoints with them. -/
theorem names_on_the_wire : infoRequest = encode (.obj [(text "cmd", .str (text "info"))]) ∧
    (∀ pid name threads, encode (.obj [(text "pid", .int pid), (text "name", .str name), (text "threads", ofMap (fun k : Nat => .int k) .str threads)]) =
      encode (.obj [(pidKey, .int pid), (nameKey, .str name), (threadsKey, ofMap (fun k : Nat => .int k) .str threads)])) ∧
    (∀ names, introspectHandle names = encode (.obj [(text "endpoints", .arr (names.map .str))])) ∧
    (∀ pid names, mappingResponse pid names = encode (.obj [(text "mapping", ofMap (fun p : Int => .int p) (ofMap (fun k : Nat => .int k) .str) [(pid, names)])])) ∧
    configRequest none = encode (.obj [(text "cmd", .str (text "get"))]) ∧
    (∀ c, configRequest (some c) = encode (.obj [(text "cmd", .str (text "set")), (text "state",
      .obj [(text "p", .bool c.process), (text "sp", .bool c.setProcess), (text "t", ofMap (fun k : Nat => .int k) .bool c.threads)])])) := by
  have e : text "cmd" = cmd ∧ text "info" = info ∧ text "pid" = pidKey ∧ text "name" = nameKey ∧ text "threads" = threadsKey ∧ text "endpoints" = endpointsKey ∧ text "mapping" = mappingKey ∧
      text "get" = getWord ∧ text "set" = setWord ∧ text "state" = stateKey ∧ text "p" = pKey ∧ text "sp" = spKey ∧ text "t" = tKey := by decide +kernel
  obtain ⟨e1, e2, e3, e4, e5, e6, e7, e8, e9, e10, e11, e12, e13⟩ := e
  rw [e1, e2, e3, e4, e5, e6, e7, e8, e9, e10, e11, e12, e13]
  exact ⟨rfl, fun _ _ _ => rfl, fun _ => rfl, fun _ _ => rfl, rfl, fun _ => rfl⟩

/-- The request for the process information, byte by byte: a document of 19 bytes with one string. -/
theorem info_bytes : infoRequest = .ok [19, 0, 0, 0, 2, 99, 109, 100, 0, 5, 0, 0, 0, 105, 110, 102, 111, 0, 0] := by decide +kernel

/-- Whatever number a message has, what is read fits its type and differs from it by a multiple of the type's size; a number that fits is read as it is. -/
theorem numbers_fit (n : Int) :
    (∃ k m : Nat, asULong (.int n) = .ok k ∧ k < 2 ^ 64 ∧ ∃ q : Int, n = k + q * 2 ^ 64 ∧ asUInt32 (.int n) = .ok m ∧ m < 2 ^ 32 ∧ ∃ q : Int, n = m + q * 2 ^ 32) ∧
    ∃ i : Int, asInt32 (.int n) = .ok i ∧ -2 ^ 31 ≤ i ∧ i < 2 ^ 31 ∧ ∃ q : Int, n = i + q * 2 ^ 32 := by
  refine ⟨⟨_, _, rfl, ?_, n / 2 ^ 64, ?_, rfl, ?_, n / 2 ^ 32, ?_⟩, _, rfl, ?_, ?_, (n + 2 ^ 31) / 2 ^ 32, ?_⟩ <;> omega

/-- The bytes of single fields, as the BSON specification has them: length of the document, type, name, zero, value, zero. -/
theorem field_bytes (k : Bytes) (h0 : (0 : UInt8) ∉ k) :
    (∀ b : Bool, encode (.obj [(k, .bool b)]) = .ok (little 4 (k.length + 8) ++ 0x08 :: k ++ [0, b.toNat.toUInt8, 0])) ∧
    encode (.obj [(k, .null)]) = .ok (little 4 (k.length + 7) ++ 0x0A :: k ++ [0, 0]) ∧
    (∀ d, encode (.obj [(k, .dbl d)]) = .ok (little 4 (k.length + 7 + (little 8 d.toNat).length) ++ 0x01 :: k ++ 0 :: little 8 d.toNat ++ [0])) ∧
    ∀ s, encode (.obj [(k, .str s)]) = .ok (little 4 (k.length + 12 + s.length) ++ 0x02 :: k ++ 0 :: little 4 (s.length + 1) ++ s ++ [0, 0]) := by
  have hk : k.contains 0 = false := by simpa using h0
  refine ⟨?_, ?_, ?_, ?_⟩
  · intro b
    cases b <;> simp [encode, faultyFields, faulty, hk, h0, document, fields, value, tag] <;> omega
  · simp [encode, faultyFields, faulty, hk, h0, document, fields, value, tag]
  · intro d
    simp [encode, faultyFields, faulty, hk, h0, document, fields, value, tag]
    congr 1
  · intro s
    have h4 : ∀ n, (little 4 n).length = 4 := fun n => rfl
    simp [encode, faultyFields, faulty, hk, h0, document, fields, value, tag, h4]
    congr 1
    omega

example : encode (.obj [(text "ok", .bool true)]) = .ok [10, 0, 0, 0, 8, 111, 107, 0, 1, 0] := by decide +kernel

end Scalopus.C128
