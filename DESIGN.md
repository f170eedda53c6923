# Formal model of iwanders/scalopus in Lean 4: design

## Layout

- `properties.jsonl`: the properties, in terms of the API.
- `lean/Verif/Model/*.lean`: the model, function by function. Every definition cites file and lines in /repo.
- `lean/Verif/Spec/*.lean`: small specifications written without reference to the model's helpers.
- `lean/Verif/Proofs/*.lean`: helper lemmas and invariants.
- `lean/Verif/Props/Cxx*.lean`: the property theorems, each with a concrete instance that meets its hypotheses.
- `MANIFEST.json`: property -> status and theorem names.
- `seeded/LOG.jsonl`: wrong-program experiments (edits of the model in a scratch copy, and which theorems failed). Some late runs used a reduced copy with only the modules that a property needs, and counted theorems that were not in that copy as failed; these names (22, in 20 entries) were removed, and no entry lost all of its theorems. Earlier entries were checked only for theorems that do not import the edited file.

Conventions in the model:

- Undefined behaviour, uncaught exceptions and `std::terminate` are distinct outcomes (`ub`, `throws`, `terminate`),
  never silently replaced by a default value.
- Concurrency is modelled as a transition system; every step is one atomic action (an atomic memory access, a critical
  section under a mutex, one system call). Theorems quantify over all step sequences.
- Environment choices (kernel read sizes, connection outcomes, time-outs, thread scheduling, liveness of weak pointers)
  are inputs that theorems quantify over.
- Where the code does not satisfy a property, the negation is proved with a concrete witness, the
  strongest true part is proved with the suffix `_partial`, and the disagreement is listed below.

## Plan per property

| id | model | proof |
|----|-------|-------|
| C01 | `Model/RingBuffer`: indices, slots, all six operations | refinement to a list queue of capacity N-1, induction over operation sequences |
| C02 | `Model/RingBufferConc`: program counters, per-thread views (stale loads), access stamps per slot, a `race` outcome | inductive invariant over all steps |
| C03 | `Model/Protocol`: encoder, `readData`, `receive` over a byte stream with an oracle for read sizes | round-trip by induction over message list |
| C04 | same, oracle of arbitrary chunk sizes | negation (short read accepted), partial: full reads, and characterisation |
| C05 | same | framing for long names; negation for long payloads |
| C06, C08, C09 | `Model/Unix`: clients, server, connections as FIFO channels, futures; atomic steps | invariants over all step sequences |
| C07 | same | negation (response before registration), partial: when the registration precedes the arrival |
| C10 | `Model/Protocol` + client receive branch of `work` | negation by witness; partial: break at a message boundary or before the payload |
| C11, C12 | broadcast queue and delivery loop | exactly-once by induction; LIFO negation, partial: order when queue has at most one element |
| C13 | lifecycle state machine with `terminate` outcome | negation; partial: successful start |
| C14, C15 | `Model/Loopback` | per-request refinement by induction over the queue; negations for missing endpoint |
| C16 | `Model/Registry` | refinement to last-write-wins function |
| C17 | `Model/Discovery`: string functions `rfind`, `substr`, `atoi`, `strtoul` over lines | round-trip with a printer of socket table lines |
| C18, C19, C20 | `Model/Collector`: threads, active map, orphan list, sender rounds as atomic steps | conservation invariant over all step sequences |
| C21, C22 | `Model/TraceState` | refinement to per-thread spec |
| C23, C24 | structured programs (inductive), big-step execution | structural induction |
| C25 | `Model/Configurator` | pointwise spec of the handler |
| C26, C27, C28 | `Model/Crc`, `Model/TraceId` | whole 256-entry table by `decide`, lifted by induction; collision witness for C28 |
| C29 | small-step model of first use by several threads | negation by witness; partial: after the registering thread has finished |
| C30 | `Model/Cbor` (RFC 8949 subset), event codec | round-trip by structural induction |
| C31, C32, C33 | `Model/NativeSource` | permutation/sorted/stable; counter pass against an independent spec; negation for C33 |
| C34 | `Model/Recording` | refinement to trace-based spec |
| C35, C36 | `Model/ScopeNames` | lookup spec, string split |
| C37, C38 | `Model/Session` | list lemmas; induction over command sequences |
| C39 | `Model/Backend` | invariant over step sequences |
| C40, C41 | `Model/Recorder` | output format equals spec; lifecycle negation and partial |
| C42, C43, C44 | `Model/Manager` | invariant over poll histories; negations |
| C45, C46 | `Model/MapTracker`, `Model/ThreadNames` | refinement to functions |
| C47-C49 | `Model/Endpoints` | handler and client-side specs; negations |
| C50, C51 | `Model/Ctf` | printer/parser round-trip; negation for arbitrary lines |
| C52, C53 | `Model/Lttng` | negation, partial for one process; delivery spec |
| C54-C56 | `Model/PyJson`, `Model/PyTracing` | structural induction; negation for recursion |
| C57 | `Model/GeneralSource` | list spec |
| C58 | `Model/EndToEnd`: any number of processes (`Collector`, `Broadcast`), the wire (`Protocol`, `UnixClient`), the consumer (`Recording`), names and conversion (`Endpoints`, `ScopeNames`, `NativeSource`) | invariant over all interleavings that ties messages to batches; then the component theorems (C11, C18, C30-C32, C34, C35) are composed |
| C59 | `Model/Destinations` | injectivity |
| C60 | `Model/Collector` (sender) | negation without transport; partial with |
| C61 | `Model/Destinations`: loopback factory with weak server list | invariant over histories of makeServer/destroy/discover/connect |
| C62 | `Model/TraceState` with thread clean-up | negation by witness; partial: the only failures are calls after the clean-up |
| C63 | `Model/Configurator`, `Model/Endpoints` request handlers over all byte strings, `Model/Cbor`/`Model/Json` decoders | negations by witness; partial for well-formed requests |
| C64 | `Model/Double`: binary64 rounding of the division by 1000 over the rationals | monotonicity and error bound for all times; collision witness |
| C65 | `Model/JsonText`, `Model/Session`, `Model/Backend` | negations by witness; partial for objects and UTF-8 names |
| C66 | `Model/SessionThreads`: accesses of both threads with locks held, `race` outcome | negation by witness; partial: no other race |
| C67 | `Model/Manager`: polling thread and flag | exact by induction over call sequences |
| C68, C69 | `Model/Ctf`, `Model/LttngSource` | printer/parser round trip composed with the conversion; negations for incomplete events |
| C70 | `Model/LttngStream`: pipe, stdio buffer, `fgets` of 1023 bytes | prefix/completeness invariants; negations for buffered and long lines |
| C71, C72 | `Model/LttngTool`: tool thread, child process, fork/exec failures | exhaustive case analysis over all schedules; negations |
| C73 | `Model/PyJson` | structural induction on Python values |
| C74, C75 | `Model/PyTracing`: contexts, decorators, recursive calls | invariant over histories; negations |
| C76 | `Model/PyPoll`: Python threads, the polling thread, the interpreter lock, the manager's mutex | deadlock states closed under all steps (negation); without callbacks: invariant, progress within a bounded number of steps |
| C77, C78 | `Model/PyData`: `pyToData`, trampolines, pending responses, over `Model/Loopback` | exact conversion; composition with C14; negations |
| C79 | `Model/PyLoopback`: Python threads, the transport's thread, the interpreter lock, `request_lock_` | as C76 |
| C80 | `Model/PyHelper`: attribute lookup, creation and storing as separate steps of any threads | invariant over histories; negations |
| C81, C82 | `Model/PyTool`: `run_trace_configure`, `run_discover` over the configurator (C25) and process information (C47) | composition, induction over the processes; negations |
| C83 | `Model/PyRecord`: `run_record`, Python's `json.dumps` | the text is read back by an independent JSON reader; induction over values; negations |
| C84, C85, C86 | `Model/Server`: `CatapultServer`, the two programs, the pages | induction over histories of calls; conversion of the port; JSON read back; negations |
| C87 | `Model/PyServer`: Python threads, the server's thread, the interpreter lock | as C76 |
| C88 | `Model/ManagerThreads`: any number of threads, every access and operation on the lock a step | negations by witness; partial: invariants about the lock and the owner's program |
| C89 | as C88, with functions of the user that call the manager | negation for all states (a thread that locks again hangs); partial: a schedule that finishes every call |
| C90 | `Model/PySource` on `PyJson`, `Session`, `Recorder`: the trampoline `finishInterval` and what is written for the values | induction over plain values, composed with C37 and C40 |
| C91 | as C90, with every outcome of the Python methods | negation by witness; partial: exactly which sources are safe |
| C92 | `Model/UnixThreads`: any number of threads, every access, operation on a mutex and call of an endpoint a step | negations by witness; partial: invariants about the mutexes and about which thread does what |
| C93 | as C92, with endpoints that call the transport | negation for all states (the worker locks a mutex again); partial: the mutexes are taken in a fixed order, so each can be made free and each call finished |
| C94 | `Model/Unix` (any history), with `isConnected` and `destroy` | invariant about a connection whose server is gone; a measure of what the worker still has to do; negation for all continuations |
| C95 | `Model/UnixBlock`: the worker of a server as a list of reads and writes, with bounded socket buffers | negation: no step of the others changes the blocked read or write; partial: a measure of the work left |
| C96 | `Model/Lifetime`: transports and endpoints with counted references, plain back pointers, and the threads of senders | negations by witness and for all states; partial: invariants about references; destructors: the work left |
| C97 | `Model/LoopbackLife`: a server, its clients, references, and the server's worker | negations for all states with these references; partial and leaks: invariant: existence is being held |
| C98 | `Model/LoopbackCalls`: any number of clients with their mutexes | negation: a set of workers that wait for each other never changes; partial: induction along the order |
| C99 | `Model/UnixFds`: the table of descriptors, the worker as a list of operations on descriptors, other threads that open and close files | negations with witnesses and for all such states; partial and no-leak: invariants (the sockets in the table are the connections) |
| C100 | `Model/UnixFds` | negations for all such states; partial: invariant that descriptor 0 is not the transport's |
| C101 | `TraceState.record` for the LTTng backend, the line printed for a record, `Ctf`, `LttngSource` | composition with C50 and C68 |
| C102 | `Model/PyUnix`: the interpreter lock, `endpoint_mutex_` and `request_lock_`, any number of Python threads, the worker | negations for all such states (invariant of the deadlock); partial: invariants about who has which lock, and runs that finish the call |
| C103 | `Model/PyViewer`: the interpreter lock, the server's thread, the threads of any number of sessions | exact condition for the deadlock; partial: a measure that some run decreases |
| C104 | `Model/Inherit`: the processes of a machine and the sockets they hold, fork, close, exit | invariant of what an inherited socket does, for all later histories; partial: processes hold only their own sockets |
| C105 | `Model/LttngStderr`: babeltrace, its two bounded pipes, the parser | invariant over all interleavings; progress for the partial claim |
| C106 | `Model/UnixMutual`: two workers, threads in `request`, the lock and two bounded buffers | exact condition for the deadlock: invariant one way, a run that finishes everything the other |
| C107 | `Model/Departed`: viewers, their queues of messages, one native source each, arriving batches | induction over histories: the source of a viewer after its last handled message |
| C108 | `Model/Refs`: the graph of references of a Python program, visible or held by C++; releasing | invariant for objects on circles; the others by taking first those that only their own circle refers to |
| C109 | `Model/PyHandle`: one transport, the references to its Python object, endpoints, messages | induction over histories against a specification of the calls that are due |
| C110 | `Model/Exposer`: processes with a `DefaultExposer`, the tool's discovery (`Manager`) and commands (`PyTool`) put together | C44 and C82 give what a command has after its round; then C81 and C91 |
| C111 | `Model/ServerThreads`: the owner of a server and its web thread, one step per access of `providers_` and `logger_` | invariant over histories; a race from every state where the web thread is about to read |
| C112 | `Model/UnixSignal`: rounds of the server's and the client's worker in which system calls may be interrupted | what a round does for every set of connections; negation for every state with connections |
| C113 | `Model/CutSend`: the stream of a connection on which any message may break off after any number of bytes | the receiver's parse of the stream, for all messages and all cuts |
| C114 | `Model/PyBackend`: the backend variable, scopes of all threads and swaps | what each backend has recorded, for all histories; negation for every scope open during a swap |
| C115 | `Model/PyFactory`: a round of the manager with factories that return, decline or fail | which endpoints are made, by induction over servers and factories |
| C116 | `Model/EndedNames`: processes with registered names, ends and reused ids, finishing a recording | the name each event is shown with, for all histories |
| C117 | `Model/LoopbackOwner`: loopback servers with owners, weak pointers, discovery and rounds of a manager | exactly which servers are found, for all histories; null pointer for every drop between discovery and connection |
| C118 | `Model/RingBufferConc` | steps left of a call as a measure that only its own thread's steps lower; enabledness from the invariant |
| C119 | `Model/TwoSenders`: one ring buffer with its indices and any number of consumers | invariant for rounds that do not overlap; constructed schedules from every state in which an event waits |
| C120 | `Model/PyTransparent`: evaluator of a small Python with `with`, `try`, calls and decorators; tracing state beside an arbitrary program state | simulation between a program and its erasure, by induction over the depth of calls and the statement |
| C121 | `Model/ForkTrace`: processes with threads, buffers, the mutex of the map, senders, process information; `fork` copies | invariant for forks when nothing waits; classification of what is sent for all histories; for all states what goes wrong otherwise |
| C122 | `Model/ProgramEnd`: static objects made at first use, thread-local objects, global objects with threads they join, destruction in reverse order | invariant between the stacks of due destructors and the state of the objects; for all histories what outlives what; witnesses otherwise |
| C123 | `Model/ProcessName`: assignments and reads with a begin and an end, with and without Python's lock | invariant over a log of names and answers; race for all states in which a request is answered |
| C124 | `Model/PyNone`: histories of calls with objects or `None` | the state is a function of the calls made; equivalence with a specification over the list of calls |
| C125 | `Model/PyTransparent` again | natural semantics of programs with the list of what they enter and leave; the evaluator refines it, by induction over the depth of calls and the statement, and conversely |
| C126 | `Model/Bson`: the writer and the reader over bytes | round trip by induction over the value, with the rest of the input and the fuel as parameters; reading more input only extends the rest, which gives the theorems on cut and extended messages |
| C127 | `Model/Bson`: the stack as a number of nested documents | lower bound of the length of a message that overflows, by induction over the fuel; a family of messages that reach it |
| C128 | `Model/BsonEndpoints`: the handlers and clients of `Endpoints` and `Configurator` with bytes | composition of C126 with the accessors; for the switches equality with the model of C25 |
| C129 | `Model/ViewerBuffer`: the buffer of a connection, frames of RFC 6455, reading by the viewer in any steps | invariant: wire and buffer together are the frames of a beginning of what was sent; composition with C37 |
| C130 | `Model/Query`: the four built-in endpoints with their bytes (C128) in a server with any number of connections (C06), while the process changes | every invocation of a handler is traced back to the step in which it happened; invariants of C06; round trips of C128 |
| C131 | `Model/PyConfig`: the Python class `TraceConfiguration` with its conversions, programs of statements | simulation between the library's maps and Python objects with dicts; composed with C25 |
| C132 | `Model/PyClass`: which method of a Python class, of its Python base or of the library is called | registry of C16 with failing calls; induction over the history |
| C133 | `Model/UnixStream`: every call of `::send` and `::read` on one direction of a connection is a step | invariant that relates reader, stream, pieces not yet sent and messages; measure |
| C134 | `Model/PyGenerators`: bodies with pauses, compiled to what the interpreter does; a thread makes, continues and closes generators in any order | simulation between calls with and without decorators; invariants over the actions |
| C135 | `Model/PyNames`: UTF-8 as pybind11 and CPython convert it; names given from Python and C++; `to_dict`, `mapping`, `discover` | decoder and encoder against a specification by bits; induction over the history |
| C136 | `Model/LttngProcs`: the system's process table, descriptors, `init` and `halt` of any number of tools | invariant over all histories; rounds by induction on the limit |
| C137 | `Model/PySourceClass`: classes with any methods left out, derived from either base; what a viewer server calls | invariant over all histories of viewers; the calls of each message as a list |
| C138 | `Model/Ownership`: owning and observing references, threads of objects, destructors that wait for threads | invariant over all histories with an order of kinds along which references and waiting go; a measure that every release decreases |
| C139 | `Model/RecorderHistory`: what sources hold, and files, over a history of calls and arrivals | induction over the history; refinement to the events that arrived during the last interval |
| C140 | `Model/CommandLine`: the parsers of the command line, and the algorithm of `argparse` | induction over the arguments for each spelling; every outcome that runs a command is traced back to its arguments |
| C141 | `Model/RemoteSwitch`: the handler of the configurator as single accesses, among all steps of `TraceState`, with clients | invariants over all histories, on top of the refinement of C21; a history-indexed invariant for answers; a measure for progress |
| C142 | `Model/Dying`: processes, connections and workers, on top of `Protocol`, `UnixClient` and `Cbor` | locality of the readers, so that no beginning of a batch is read as one; invariant over all histories; the outcome for every number of bytes |
| C143 | `Model/Examples`: the traced functions of scalopus_examples/src, on top of the ids of `Crc`; for the recorder example also `RecorderHistory` | the events of any number of rounds as a closed form, with the names, for any file name; what a viewer shows of them; induction over the recursion for all random numbers |
| C144 | `Model/QueryServers`: `main` of the example, given what the queries give, and the value that it prints | induction over the endpoints and the servers; each way to fail as a theorem about any servers before and after |
| C145 | `Model/ThreadRows`: `ThreadNames` and `GeneralSource` put together with the events of threads | invariant over all histories: a row is what the users of its id recorded, one after the other; C46 and C57 for the names |
| C146 | `Model/Collector` of C18: which buffers are referred to | invariant on the orphans and the sender's list; for programs without rounds, every buffer stays |
| C147 | `Model/IntervalEdges`: events in buffers, broadcasts on their way, and a source | conservation of the events of each process over all histories |
| C148 | `Model/PyMarks`: contexts, helpers, ids, names and the native tracepoints; shown by `NativeSource` | an invariant that ties what the program knows to ids and names, then the theorem about recordings of `NativeSource` |
| C149 | `Model/PyExamples`: the programs as statements with sections, marks, counters and exceptions; the source of the provider example | the events of any number of rounds by induction; the events of the source as a closed form |
| C150 | `Model/Sections`: a thread's nested scopes with the times of its clock; `NativeSource` and `LttngSource`; `Spec/Sections`: how a viewer draws a row | two lists that are ordered by time and agree at each time are equal, so a row keeps its order; then induction over the program |
| C151 | `Model/Overrun`: one thread's buffer, full or not, and the sender; `Sections` and `NativeSource` for what is shown | what is recorded is a part of what is emitted; C150 for programs without the lost scopes; what the viewer makes of a lost entry or exit in general position |
| C152 | `Model/SwitchedScopes`: which events of a thread are recorded for a history of the switches; programs with scoped switches; `Sections` and `NativeSource` for what is shown | induction over the program with the viewer's stack; programs with scoped switches are programs without what is done with tracing off, for which C150 holds |
| C153 | `Model/TracedThreads`: the operations on mutexes and the accesses to shared data of each call, interleaved; the worker of the sender | invariants over all histories: who has which mutex and where it is, what is left of which call, where the worker is; for progress, those that have mutexes can be made to release them; races from every state by continuing it |
| C154 | `Model/NameUpdates`: the steps of `updateMapping` and `getMapping` of both providers, for any number of sessions; processes with names that change | invariants over the window from the end of the recording: what those who ask have collected, and what is stored, was the case in the window; counterexamples by continuing any state |
| C155 | `Model/RepeatedEnds`: native and LTTng sources of a session, every call of a source by the session's thread is a step, events arrive in between | lemma about a phase in which each source in turn is called; invariants; induction over the number of ends |
| C156 | `Model/NativeSource`, `Model/Ctf`, `Model/LttngSource` with `Model/Double` | error bounds of the two roundings of each backend; monotonicity of rounding; computed witnesses |
| C157 | `Model/PyJson` (`compareJson`, `insertJson`, `ordered`) | the order of nlohmann::json is a strict linear order on values with only integers or only floats; an ascending list is given by its elements; NaN and rounding by cases |
| C158 | `Model/PyGraph` (`conv`) | objects refer to each other; induction over the unfolding of an object into a value, and over the size of the stack for circles |
| C159 | `Model/Json` (`truncate`, `castDouble`), `Model/BsonEndpoints` (`asULong`, `asInt32`, `asUInt32`) | exact characterisation of the cast by the value of a double in IEEE 754; case analysis over messages, induction over the lists in them |
| C160 | `Model/PyInterrupt`, `Spec/Interrupts` | a program is executed with an arbitrary sequence of decisions of whether a handler raises at the next point; induction over programs; counts of entries, exits and handlers |
| C161 | `Spec/LttngContexts`, `Ctf`, `LttngSource` | the interval depends only on the two ids, the time and the data of each event; composition with C50 |

## Trusted base

1. Lean 4.33.0's kernel. No `native_decide`, `bv_decide`, `implemented_by`, `unsafe`, `sorry`, `admit`; no axioms of our own. Large finite checks use
   `decide +kernel`, which the kernel evaluates.
2. The axioms listed at the end of this file, all from Lean's standard set: `propext`, `Quot.sound`, `Classical.choice`.
3. That the model says what the code says. Every definition cites the lines it models, and says where it simplifies. Nothing was compiled or run: the model was
   written from the text of /repo.
4. The behaviour of what the code calls but /repo does not contain. The third party directories (nlohmann json, its cbor, pybind11, seasocks) are empty submodules
   at this commit, so they are modelled from their documentation:
   - nlohmann::json: parsing, `dump` of UTF-8 strings (throws on other bytes), `at` (throws), `get` to integers (range is not checked), `operator[]` on non-objects
     (throws), CBOR conversion; BSON conversion of version 3.4 as in `Model/Bson` (integers of more than 64 bits with a sign are refused, sizes of documents are not
     checked, one call for each nested document).
   - cbor (the header library used by the native sender): RFC 8949 encoding with shortest heads; reading into an integer type of the given width.
   - seasocks: callbacks of one server run on one thread; `execute` queues a function for that thread; a connection object is valid until `onDisconnect` returns. A text that does not fit into the rest of the
     buffer of a connection closes the connection, and what is in the buffer is not sent any more.
   - pybind11: overload resolution by type check in the order of the code; conversion of out-of-range integers fails.
   - POSIX: a stream socket is a FIFO of bytes and a read returns a non-empty prefix of what is there; `/proc/net/unix` lists bound sockets one per line; the kernel
     may return fewer bytes than asked for; `fork`, `execvp`, `dup2`, `kill` as documented.
   - C++: `std::mutex`, `std::condition_variable`, `std::promise`/`future`, `std::shared_ptr`/`weak_ptr`, `std::map`, `std::stable_sort`, iostreams of hexadecimal
     numbers as specified by the standard. Destroying or assigning to a joinable `std::thread` terminates. Data races are undefined behaviour.
   - binary64 arithmetic is IEEE 754 with round to nearest, ties to even.

### What is modelled

| part of /repo | model |
|---|---|
| scalopus_tracing/src/spsc_ringbuffer.h | `RingBuffer` (sequential), `RingBufferConc` (two threads, acquire/release, stale loads, slot races), `Overrun` |
| scalopus_tracing/src/native/native_tracepoint.cpp, tracepoint_collector_native.{h,cpp}, endpoint_native_trace_sender.cpp | `Collector`, `TraceState`, `Cbor`, `EndToEnd`, `ProgramEnd`, `TwoSenders`, `ForkTrace`, `IntervalEdges`, `ThreadRows`, `TracedThreads` |
| scalopus_tracing/src/native/native_trace_provider.cpp, native_trace_source.cpp, endpoint_native_trace_receiver.cpp | `Recording`, `Departed`, `NativeSource`, `Double`, `EndToEnd`, `EndedNames`, `IntervalEdges`, `Dying` |
| scalopus_tracing/src/scope_tracing_provider.cpp, endpoint_trace_mapping.cpp, endpoint_trace_configurator.cpp, trace_configurator.cpp, trace_configuration_raii.cpp, scope_trace_raii.cpp | `ScopeNames`, `Endpoints`, `Configurator`, `TraceState`, `Scopes`, `Bson`, `BsonEndpoints`, `RemoteSwitch` (the configurator while threads trace), `Sections`, `SwitchedScopes`, `NameUpdates` |
| scalopus_tracing/include: trace_macro.h, internal/trace_macro.h, internal/compile_time_crc.hpp, static_string_tracker | `Crc`, `Scopes`, `RegisterOnce`, `MapTracker` |
| scalopus_tracing/src/lttng: ctfevent, lttng_source, babeltrace_parser, babeltrace_tool, lttng_provider, subprocess.hpp, lttng_tracepoint.cpp, the tracepoint definition | `Ctf`, `LttngSource`, `LttngSessions`, `LttngStream`, `LttngTool`, `LttngStderr`, `TraceState`, `LttngProcs` (processes and descriptors), `RepeatedEnds` |
| scalopus_tracing/src/nop | `TraceState` (records nothing) |
| scalopus_examples/src: readme_example.cpp, showcase_*.cpp, random_callstacks.cpp, embedded_catapult_recorder.cpp, embedded_catapult_server.cpp (what their tracepoints do, options, the shared generator) | `Examples`, `QueryServers` (query_servers.cpp), `PyExamples` (scalopus_python/examples) |
| scalopus_transport: protocol.cpp, transport_unix.cpp, transport_loopback.cpp | `Protocol`, `Unix`, `UnixClient`, `UnixThreads`, `UnixBlock`, `UnixFds`, `UnixMutual`, `Inherit`, `Broadcast`, `Lifecycle`, `Discovery`, `Loopback`, `LoopbackLife`, `LoopbackCalls`, `Destinations`, `UnixSignal`, `CutSend`, `LoopbackOwner`, `UnixStream`, `Dying` (processes that end while they are recorded) |
| scalopus_interface: transport.cpp, endpoint.cpp, endpoint_manager.h, destination.cpp | `Lifetime`, `Registry`, `Destinations`, `Manager` |
| scalopus_general: endpoint_introspect, endpoint_process_info, endpoint_manager_poll, general_source, general_provider, map_tracker.h, thread_name_tracker, thread_naming.h | `Endpoints`, `Manager`, `ManagerThreads`, `GeneralSource`, `MapTracker`, `ThreadNames`, `ProcessName`, `Bson`, `BsonEndpoints`, `Query`, `ThreadRows`, `NameUpdates` |
| scalopus_catapult: trace_session, catapult_backend, catapult_recorder, catapult_server, scalopus_catapult_server.cpp | `Session`, `SessionThreads`, `Backend`, `Recorder`, `JsonText`, `Server`, `ServerThreads`, `PyServer`, `ViewerBuffer`, `Ownership` (references and threads of servers, sessions, recorders, providers, sources and managers), `RecorderHistory` (events and files of a recorder over a history) |
| scalopus_python: lib/json_util.cpp, lib/scalopus_tracing.cpp (context counters), lib/scalopus_interface.cpp, lib/scalopus_general.cpp, scalopus/tracing.py, scalopus/__main__.py, scalopus/general.py, scalopus/common.py, lib/pybind_fix.h | `PyJson`, `PyTracing`, `PyHelper`, `PyPoll`, `PyData`, `PyLoopback`, `PyTool`, `PyRecord`, `PyServer`, `PySource`, `PyUnix`, `PyViewer`, `Refs`, `PyHandle`, `Exposer`, `PyBackend`, `PyFactory`, `PyTransparent`, `PyNone`, `PyConfig`, `PyClass`, `PyGenerators` (functions that pause), `PyNames` (conversion of names), `PySourceClass` (classes of sources and providers, interface.py:67-112), `CommandLine` (the parsers of `python3 -m scalopus`, with `argparse`), `PyMarks` |

### What is not modelled

- Logging callbacks and their text (except C87 to C89), tests and build files.
- scalopus_python: pybind_fix.h (except that releasing a source takes the interpreter lock, C103), the printing of `discover` and `trace_configure` in `__main__.py`, interface.py.
- Memory allocation failure, signals other than those that interrupt a waiting transport worker (C112) or whose handlers raise in a Python program (C160), resource limits (file descriptors, threads), time itself (time-outs are nondeterministic outcomes).
- LTTng's own buffers and babeltrace's conversion (the output format is modelled, `Ctf`).
- Wrap-around of 64 bit counters that are only incremented, except where a property is about it; request ids are `std::size_t`.

### Where the code disagrees with a property

Each row of MANIFEST.json with status "partial" names the theorem that proves the negation. In short:

| id | what goes wrong |
|----|------|
| C04, C05, C10 | a read that returns less than asked for counts as success, so a message can be cut or mixed with the next; lengths are cut to 32 bits |
| C06, C07 | the promise of a request is stored after the request is sent, so a fast response is not found; it can then be handled as unsolicited and its answer taken as a response |
| C12 | queued broadcasts are sent last-in first-out |
| C13, C41, C67 | destroying a transport or recorder that did not start terminates the process |
| C14, C15 | loopback: a request or reply to an endpoint that is missing dereferences a null pointer |
| C17, C59 | discovery accepts any socket with the suffix; hashes of loopback destinations collide after the servers are gone |
| C18, C62 | a tracepoint after the thread's clean-up uses a destroyed object |
| C26, C28 | ids of different tracepoints can collide |
| C29 | a second thread can emit before the first has registered the name |
| C32, C52 | counter values of several threads or processes get mixed up |
| C33, C69 | one bad batch, event or line hides everything after it or all |
| C36 | TRACE_COUNT gives an empty series name |
| C39 | a reply can go to a new connection at the same address |
| C44, C57 | a refused connection ends the process; a slow server never gets endpoints; a late answer hides names of other processes |
| C46 | names set from another thread stay and are inherited |
| C47, C49, C63, C65 | malformed or late messages give uninitialised values, undefined behaviour or terminate the process |
| C50, C51, C70, C71, C72 | LTTng: braces in strings (they hide the rest of the context), strings that end like `, vpid = 1` (they replace the real field), numbers out of range, long or buffered lines, early halts, failed fork or exec |
| C53, C66 | races between stopping a source and the parser; between the session's thread and the web server's |
| C54, C73 | large unsigned numbers do not convert back; unknown objects become None |
| C56, C75 | recursive or shared suppressed functions leave tracing in the wrong state |
| C60 | rounds collected without a transport are dropped |
| C64 | two times can give one timestamp |
| C74 | an explicit id can collide with the counter |
| C76, C79 | calls from Python keep the interpreter lock while they wait for a thread that needs it: deadlock |
| C77 | an exception in a Python handler, or an answer that is no bytes, ends the process |
| C78 | `wait_for` makes Python objects without the interpreter lock; a second wait is undefined |
| C80 | names such as `prefix` give no context; two threads can get two contexts for one name |
| C81 | threads without a name cannot be switched; one process without process information stops the command; a late answer leaves an arbitrary process id |
| C82 | one process without process information hides all |
| C83 | `record` loses the events of one source if the other fails with a RuntimeError, and prints no JSON for other exceptions; a single name that is not UTF-8, in any event, is enough (`C83.bad_name_loses_all`) |
| C84 | scalopus_catapult_server ignores the port that it is given |
| C85 | a second `start` ends the process; failing to listen is not reported |
| C87 | with a Python logger: the destruction can deadlock, and the logger is copied without the interpreter lock |
| C88 | stopping the polling writes a plain bool the polling thread reads; `setLogger` writes a function the polling thread calls |
| C89 | a logger or factory that uses the manager hangs, with everyone who waits for the manager; one that stops the polling ends the process |
| C91 | an exception in a Python source, or a result that is not a list of convertible values, ends the server; a provider that returns None crashes it |
| C92 | `running_` and `client_fd_` are plain, `processMsg` reads `endpoints_` without its mutex, and `logger_` is written while the worker may call it |
| C93 | the worker calls `unsolicited` while it holds two mutexes: an endpoint that sends a request, or adds or asks for endpoints, hangs for good |
| C94 | requests that wait for an answer when the connection is lost are never answered, nor do they fail, while the client exists |
| C95 | sockets are read and written with blocking calls by the only worker: a client that stops reading, or stops within a message, blocks the server and its destructor |
| C96 | an endpoint keeps a plain pointer to its transport that is never reset: undefined behaviour when the endpoint is kept longer than the transport, for a trace sender even without a call |
| C97 | a client that connects while a broadcast is delivered races with the server's worker; dropping the last references then makes the worker join itself: the process is terminated |
| C98 | endpoints are called with the client's mutex held: using the same client, or each other's, hangs for good |
| C99 | `close` is called before `shutdown`, and twice if a connection is both unreadable and exceptional: files of other threads are shut down or closed; FD_SET with descriptors from 1024 on |
| C100 | descriptor 0 is taken for "none" |
| C102 | calls keep the interpreter lock while they wait for a mutex or a thread, and endpoints written in Python take it with mutexes locked |
| C103 | the destructor waits with the interpreter lock for threads that need it to release sources |
| C104 | sockets are created without `SOCK_CLOEXEC`, and `shutdown` comes after `close` |
| C105 | the pipe of babeltrace's standard error is never read |
| C106 | both workers write without reading in between |
| C107 | the provider never removes a source, and destroying a session does not stop its sources |
| C108 | factories and endpoints are held by C++ where Python's collector does not see them; `general.py` does not import `weakref` |
| C109 | `overload(transport, …)` passes a reference to an object that cannot be copied; `getTransport` gives an object that does not hold the transport |
| C110 | `DefaultExposer` does not add `EndpointTraceConfigurator` |
| C111 | `providers_` and `logger_` of the backend are used by two threads without a mutex |
| C112 | an interrupted `select` leaves the sets as they were: the worker blocks or closes its connections |
| C113 | a connection is used further after a message that was sent in part |
| C114 | entry and exit look up the backend separately: a scope open during `setBackend` is torn |
| C115 | an exception of a factory function leaves the manager in mid round |
| C116 | events of ended processes lose their names or get those of another process |
| C117 | a manager keeps dropped loopback servers alive; a drop between discovery and connection gives a null pointer |
| C119 | two trace senders in one process split, duplicate and make up events |
| C121 | events that wait when a program forks are sent by both processes; a fork while another thread uses the map of buffers leaves the new process with a mutex that is never released; endpoints made before a fork answer with the parent's process id |
| C122 | a destructor of a global object that traces is undefined once the main thread has traced; a thread that is not joined can make the end undefined; a global exposer made before the first tracepoint answers from destroyed maps |
| C123 | `setProcessName` writes the name without a mutex while requests read it |
| C124 | `addEndpoint(None)`, rounds of a manager without factory, updates of a `GeneralProvider` without manager and viewers of a server with `None` as provider are undefined; with `None` as logger of a server the first viewer ends the process |
| C127 | a message of deeply nested documents overflows the stack of the thread that reads it |
| C128 | a thread id of 2^63 or more in the table of names makes every process information query throw in the server |
| C129 | a recording that is larger than the buffer of the connection closes the connection to a viewer that does not keep up; one that has a data message of this size closes every connection |
| C131 | `c.thread_state[k] = v` changes the dict that reading the attribute has made, not the configuration (scalopus_tracing.cpp:92; the comment in line 93 notes it): the entry is lost without an error. `C131.items_lost`, `C131.item_not_sent` |
| C132 | `addEndpoint` enters the endpoint before it calls `setTransport` (transport.cpp:62-63), and a method of this name in a Python class hides that of the library, which Python cannot call (scalopus_interface.cpp:118-121, 192-197): such an endpoint has no transport, and stays registered when the call raises. `C132.own_setTransport` |
| C133 | holds for names and payloads that the system passes on at once (on Linux about 36 kB); a longer payload may be cut if the reader is ahead of the writer (protocol.cpp:71-87), as in C04. If fewer than 8 bytes are left of it, the reader then reads past the end of its buffer. `C133.long_may_be_cut`, `C133.rest_read_past_end` |
| C134 | the wrappers of `traced` and `suppressed` return the generator (tracing.py:187-188, 231-232): the section is empty and the body runs outside of it, and a suppressed generator records everything. A `with` statement that is paused in stays entered: exits of other sections come in between, and a switcher leaves the rest of the thread unrecorded. `C134.traced_is_outside`, `C134.suppressed_is_recorded`, `C134.pause_in_section`, `C134.pause_in_switcher` |
| C135 | C++ programs may give names that are not UTF-8 (and Python programs too, as `bytes`); reading the names of that process in Python raises `UnicodeDecodeError`, for all its names at once, and `discover` ends before it prints any process (__main__.py:93-103). `C135.one_bad_name` |
| C136 | `BabeltraceTool::halt` does not wait for the process (babeltrace_tool.cpp:93-101; `popen::wait` is never called): every start leaves an entry in the process table. When it is full `fork` gives -1, and `halt` calls `kill(-1, SIGINT)`. `C136.worn_out`, `C136.starts_bounded` |
| C137 | `scalopus.interface.TraceEventProvider.makeSource` raises (`raise NotImplemented(...)`, a `TypeError`) in the thread of the server: the first viewer ends the program. A `startInterval` or `stopInterval` that raises does so too, in the thread of the session. `C137.no_makeSource`, `C137.start_raises`, `C137.stop_raises` |
| C138 | `NativeTraceSource::finishInterval` uses the result of `provider_.lock()` without a check: a program that keeps a source but not its native provider dereferences a null pointer. `C138.taken_sources`, `C138.not_SourcesGoOn` |
| C139 | `CatapultRecorder::start` discards all sources, `writeToFile` does not check that the file was opened, and `collectEvents` empties the native sources before it formats the events: what was recorded is lost without a message. LTTng sources are not emptied: their events are written again, for example to the dump file after `writeToFile`. `C139.written_again`, `C139.restart_loses`, `C139.unopened_loses`, `C139.bad_event_loses`, `C139.not_EveryEventWritten` |
| C140 | Without arguments `parser.exit()` ends the program with status 0 and the `sys.exit(1)` after it is never reached. `id` of `trace_configure` is empty once `state` has been read before an option, so ids after the option are an error. `C140.no_arguments`, `C140.not_ErrorsReported`, `C140.option_between`, `C140.not_AnyPlace` |
| C141 | `setTraceState` returns a result without success after 200 ms, but its command stays in the server's queue. The handler reads the switches one after the other. It finds threads by `pthread_self`, which is used again, in a map that has only threads that have traced. `C141.not_FailedChangesNothing`, `C141.not_OneMoment`, `C141.not_OnlyThoseNamed`, `C141.not_AllNamed` |
| C142 | After a failed `receive` the client hands over what it has, and `finishInterval` stops at the first batch it cannot read: a process that ends in the payload hides everything that arrives later, of every process. Inside a field, `receive` reads past the buffer. `C142.part_hides_later`, `C142.other_process_hidden`, `C142.field_undefined`, `C142.consumer_undefined` |
| C143 | `b` in showcase_marker_events.cpp:60-69 and showcase_toggle_tracepoints.cpp:60-68 has a scoped tracepoint and a `TRACE_SCOPE_END`: the second exit closes the scope of the caller, and has no name. `gen` in random_callstacks.cpp:53 is used by all threads without a lock. Negative numbers of threads become huge; `steps` in showcase_count_events.cpp overflows. `C143.toggle_shown`, `C143.marker_shown`, `C143.threads_race`, `C143.options_negative`, `C143.count_overflows` |
| C144 | query_servers.cpp:57-61 uses what `connect` returned without looking at it, and no exception is caught; `processInfo()` returns a `pid` without a value if it is late (endpoint_process_info.cpp:85). `C144.unreachable_hides_all`, `C144.late_info_undefined`, `C144.bad_text_hides_all`, `C144.none_found` |
| C145 | Events and names carry `pthread_self()` (tracepoint_collector_native.cpp:55, thread_name_tracker.cpp:43), which is reused, and names are erased when a thread ends (thread_name_tracker.cpp:45). `C145.ended_unnamed`, `C145.reused_misnamed` |
| C146 | Only the sender empties the list of orphaned buffers (tracepoint_collector_native.cpp:66-76, 105-111); without it the list grows by one buffer (10000 events) for each thread that traced and ended. `C146.piles_up`, `C146.not_Bounded` |
| C147 | A source keeps what arrives while it records, without looking at the times of events (native_trace_provider.cpp:64-91, native_trace_source.cpp:209-213), and stopping does not wait for the senders. `C147.early_shown`, `C147.late_missing`, `C147.shown_in_next` |
| C148 | scalopus/tracing.py defines `MarkerEvent` but no helper for it, as `trace_section` (132) and `trace_count` (157-158) are for the other classes. `C148.not_HelperForAll`, `C148.no_marks` |
| C149 | examples/readme_example.py:60, 68 use `tracing.trace_mark`, which does not exist: the program ends with an AttributeError in its first round. `C149.readme_ends`. The series `sinusoids/fast` of examples/showcase_counters.py:47-51 has the value with the longer period |
| C149 | The last section of the source in examples/python_provider_example.py:55-63 ends up to a second after the interval. `C149.source_past_end` |
| C150 | native_tracepoint.cpp:54-60 takes `high_resolution_clock`, the time of day, which can be set back, and native_trace_source.cpp:185-187 sorts by it: an exit can come before its entry. `C150.set_back_lost`, `C150.set_back_shown`, `C150.not_AlwaysExact` |
| C151 | native_tracepoint.cpp:73-75 ignores that `push` refused (a comment says so), for entries and exits separately: a scope may lose one of its two events, and then another section is shown with the wrong end, or without one. `C151.lost_exit_shown`, `C151.lost_entry_shown`, `C151.overrun_happens` |
| C152 | Entry and exit of a scope look at the switches separately (native_tracepoint.cpp:69, :85): if tracing is switched off in a nested scope and on again in the one around it, the inner scope is shown with the end of the outer one, and the outer one as not ended. `C152.off_and_on_shown` |
| C153 | `ringbuffer_size_` (tracepoint_collector_native.h:176), `running_` (endpoint_native_trace_sender.h:54) and `transport_` (endpoint.h:91) are plain variables that one thread writes while another may read: undefined behaviour in every program that destroys a sender, adds a sender to a transport while events are collected, or sets the size of buffers while other threads begin to trace. `C153.destroy_races`, `C153.transport_races`, `C153.size_races` |
| C154 | `ScopeTracingProvider::updateMapping` asks without its mutex and then replaces the shared table (scope_tracing_provider.cpp:57-77), and `finishInterval` reads the table in a separate step (native_trace_source.cpp:80-82): a viewer that asked earlier can replace newer names by older ones in between, so that a new scope is shown as `Unknown`. Also a viewer whose questions are not answered in time takes the names from others. `C154.stale_shown`, `C154.late_hides`, `C154.failed_hides` |
| C155 | `LttngSource::finishInterval` does not clear `events_` (lttng_source.cpp:65-69, 71-177), unlike the native source: ending a recording again delivers its LTTng events again, any number of times, and they stay in memory until the next start or the end of the session. `C155.end_again`, `C155.delivered_often`, `C155.kept` |
| C156 | The native source divides nanoseconds by 1e3 (native_trace_source.cpp:121), the LTTng source multiplies seconds by 1e6 (lttng_source.cpp:101): each rounds twice, differently. Events of different backends that are a few hundred nanoseconds apart can be shown in the wrong order. `C156.native_too_late`, `C156.lttng_too_late` |
| C157 | A Python set is converted through `std::set<json>` (json_util.cpp:193-201). Elements that convert to equal JSON are merged, and `operator<` of nlohmann::json is not a strict weak order once NaN is among the numbers, which `std::set` requires. `C157.elements_lost`, `C157.nan_loses`, `C157.nan_undefined`, `C157.rounded_lost` |
| C158 | `pyToJson` calls itself for every element (json_util.cpp:170, 186, 198) without a limit on the depth and without noticing objects it is already converting, so that `l.append(l)` in an event ends the process instead of raising. `C158.circle_ends`, `C158.every_stack_ends` |
| C159 | ids are read with `get<unsigned long>` and `get<int>` (endpoint_trace_configurator.cpp:57, endpoint_process_info.cpp:94-95), which cast doubles: a request for thread 5.5 switches thread 5, and one for thread 1e300 is undefined behaviour in the server. `C159.doubles_taken`, `C159.other_doubles_undefined` |
| C160 | `__enter__` and `__exit__` are Python code (tracing.py:92-100, 217-221), in which a signal handler can raise: the `with` statement does not call `__exit__` if `__enter__` raised, so that a section stays open or the thread stays switched off. `C160.entered_stays_open`, `C160.switched_off_for_good`, `C160.any_can_stay_open` |
| C161 | The parser ends a context at the first closing brace and splits it at every comma that a space follows (ctfevent.cpp:97-168), also inside of strings. With the context `procname`, one process named `x}y` loses all events of the interval, and one named `x, vpid = 8` records as process 8. `C161.brace_loses_all`, `C161.name_forges_process` |

### Axioms of each property theorem


<!-- axioms begin (generated) -->
- no axioms (11): `C01.ring_size_zero_refused`, `C59.gone_is_not_live`, `C35.failing_query_escapes`, `C35.no_manager`, `C57.failing_query_escapes`, `C84.python_exact_partial`, `C85.failure_unnoticed`, `C114.torn_inside`, `C125.runs_unique`, `C125.runs_nested`, `C130.addressed_by`
- `propext` (110): `C06.foreign_answer_possible`, `C07.answered_request_can_hang`, `C08.request_message_carries_id`, `C13.failed_start_violated`, `C14.missing_endpoint_crashes`, `C15.answered_reply_terminates`, `C59.loopback_destinations_partial`, `C59.loopback_destinations_exact`, `C60.collected_without_transport_dropped`, `C62.late_call_is_undefined`, `C63.malformed_request_terminates`, `C63.malformed_info_terminates`, `C63.wellformed_info_answered_partial`, `C63.mapping_request_undefined`, `C63.info_survives_iff`, `C63.mapping_survives_iff`, `C23.overlapping_process_switches`, `C23.overlapping_switches_always`, `C47.info_needs_transport`, `C47.timeout_empty_partial`, `C48.introspection_otherwise`, `C48.introspection_fails`, `C49.mapping_otherwise`, `C49.empty_request_undefined`, `C49.other_requests_declined_partial`, `C36.same_registered`, `C39.replies_in_order`, `C44.refused_terminates`, `C44.bad_answer_escapes`, `C57.late_process_hides_other`, `C67.polling_exact`, `C71.halt_returns_partial`, `C71.early_halt_hangs`, `C71.halt_in_line_hangs`, `C71.not_halt_returns`, `C71.ends_with_babeltrace`, `C72.failed_exec_runs_twice`, `C72.failed_fork_signals_everyone`, `C56.two_threads_disable`, `C56.two_threads_enable`, `C74.not_own_name`, `C74.explicit_first_loses`, `C77.not_converted`, `C78.result_partial`, `C78.repeated_until_answer_partial`, `C78.never_with_lock`, `C78.not_OnlyWithLock`, `C78.again_undefined`, `C78.not_Repeatable`, `C78.undefined_iff`, `C80.not_OnePerName`, `C83.other_error_unfinished`, `C83.unprintable_unfinished`, `C84.both_providers`, `C85.late_settings_ignored`, `C85.not_Serves`, `C91.none_is_used`, `C92.running_race`, `C92.not_NoRace`, `C94.not_WaitingFail`, `C96.sender_after_drop`, `C96.moved_sender`, `C96.sender_races`, `C96.not_NeverDangling`, `C97.connect_while_walking`, `C97.not_AlwaysSafe`, `C98.self_call`, `C106.broadcasts_block`, `C107.not_NothingKept`, `C109.not_EveryMessage`, `C109.get_transport_borrows`, `C110.two_exposers_fail`, `C110.has_unknown`, `C111.late_call_races`, `C111.call_returns`, `C112.client_signal_ready`, `C114.not_AlwaysExact`, `C115.raising_spreads`, `C115.not_OnlyItsOwn`, `C117.kept_run`, `C117.not_Disappears`, `C121.not_OnceUnderOwn`, `C122.answer_ub_iff`, `C122.named_end`, `C122.exposer_ub`, `C122.not_NeverUndefined`, `C124.not_NoneIsSafe`, `C128.names_on_the_wire`, `C128.info_bytes`, `C129.closed_is_final`, `C130.empty_names_query`, `C130.changed`, `C132.defaults`, `C132.method_gives`, `C136.pipe_fails`, `C136.full_table`, `C142.name_text`, `C149.sections_run`, `C149.readme_ends`, `C149.not_ReadmeRuns`, `C149.exec_keeps`, `C151.recorded_sublist`, `C152.switches_restored`, `C152.run_kept`, `C155.goes_on`, `C155.not_DeliveredOnce`, `C155.not_Released`, `C160.entered_stays_open`, `C160.not_Orderly`, `C160.undisturbed`
- `Quot.sound`, `propext` (257): `C01.available_distance`, `C10.broken_inside_header_is_ub`, `C10.failed_read_noticed`, `C12.broadcast_order_violated`, `C13.factories`, `C16.getEndpoint_last_added`, `C16.endpoints_lists_added`, `C16.endpoint_reaches_transport`, `C14.missing_endpoint_ub`, `C15.loopback_broadcast_partial`, `C15.reply_crashes`, `C15.survives_iff`, `C17.line_never_throws`, `C59.gone_destinations_collide`, `C59.recorded_hash_reused_always`, `C18.late_tracepoint`, `C21.nop_records_nothing`, `C22.starts_on`, `C26.start_end_same`, `C29.first_use_race`, `C29.named_or_in_progress_partial`, `C29.named_when_quiet_partial`, `C29.named_when_single_partial`, `C29.name_is_a_macros_name`, `C29.end_does_not_register`, `C29.first_use_race_always`, `C29.end_never_registers`, `C45.placed_within_call`, `C45.call_keeps_operation`, `C46.foreign_name_stays`, `C46.foreign_name_inherited`, `C46.macro_once`, `C46.fails_only_late`, `C46.foreign_name_always`, `C46.foreign_name_inherited_always`, `C35.refresh_merges`, `C34.overlapping_call_comes_later`, `C39.never_sends_to_closed`, `C39.data_to_own_session`, `C39.data_is_given`, `C39.reply_to_other_connection`, `C39.replies_to_own_connection_partial`, `C66.sources_race`, `C66.running_race`, `C66.not_NoRace`, `C66.no_other_race_partial`, `C66.no_message_before_published`, `C66.worker_ends`, `C66.destructor_returns`, `C66.running_race_always`, `C66.sources_race_always`, `C43.addFactory_exact`, `C57.entries_exact`, `C57.entries_with_others`, `C57.exact_partial`, `C70.lines_in_order`, `C70.all_passed_at_end`, `C70.delay_bounded_partial`, `C70.long_line_never_passed`, `C70.long_line_split`, `C72.only_babeltrace_partial`, `C72.not_only_babeltrace`, `C55.returns_sequence`, `C56.overlapping_calls_swap`, `C74.ids_run_out`, `C75.balanced_partial`, `C75.traced_balanced`, `C76.start_stop_effect`, `C78.waits_undefined_iff`, `C80.reserved_gives_no_context`, `C80.not_GivesContext`, `C81.missing_info_stops`, `C81.equal_pids_fail`, `C85.start_exact_partial`, `C85.never_started`, `C85.second_start_terminates`, `C88.polling_race`, `C88.logger_race`, `C88.not_NoRace`, `C89.stop_in_poller`, `C92.guarded_safe`, `C92.never_terminates`, `C92.connected_race`, `C92.endpoint_race`, `C92.logger_race`, `C93.reentrant_hangs`, `C93.destroy_in_endpoint`, `C93.not_NeverHangs`, `C94.disconnected_only_if_gone`, `C94.lost_is_noticed`, `C94.worker_can_step`, `C95.one_client_stops_all`, `C95.unfinished_message`, `C95.two_parts`, `C96.use_after_drop`, `C96.hold_drop_transport`, `C96.hold_drop_endpoint`, `C97.last_in_worker`, `C98.waits_forever`, `C98.mutual_calls`, `C98.not_NeverHangs`, `C98.round_exact`, `C98.self_call_always`, `C98.own_client_blocks`, `C98.crossed_clients_block`, `C99.harmless_partial`, `C99.no_leak`, `C99.shutdown_hits_other`, `C99.double_close_hits_other`, `C99.high_descriptor`, `C99.not_Harmless`, `C99.destructor_closes`, `C99.double_close_always`, `C100.works_partial`, `C100.server_on_zero`, `C100.client_on_zero`, `C100.connected_on_zero`, `C100.not_Works`, `C100.connected_on_zero_always`, `C104.inherited_keeps_server`, `C104.not_Gone`, `C106.goes_on_iff`, `C106.never_blocked_partial`, `C106.both_blocked`, `C106.request_blocks`, `C106.not_NeverBlocked`, `C106.destructors_return`, `C107.left_recording`, `C107.ended_partial`, `C107.never_started`, `C107.sources_stay`, `C107.kept_exactly`, `C108.factory_keeps_manager`, `C108.weak_factory_raises`, `C108.not_AllReleased`, `C108.numbers_differ`, `C109.dangling`, `C109.always_possible`, `C109.let_go`, `C111.not_NoRace`, `C111.connected_unchanged`, `C112.undisturbed_partial`, `C112.stays_connected`, `C112.round_serves`, `C112.signal_blocks`, `C112.signal_blocks_first`, `C112.signal_drops_all`, `C112.signal_closes_twice`, `C112.not_AllUndisturbed`, `C112.client_undisturbed_partial`, `C112.client_blocks`, `C112.client_two_signals`, `C112.broadcast_reaches`, `C112.signal_in_accept`, `C112.signal_in_read`, `C112.client_round`, `C112.client_destroyed`, `C114.torn_lost`, `C114.swap_loses`, `C115.failing_cuts_short`, `C117.destroy_iff`, `C119.race_reachable`, `C119.sent_twice`, `C119.phantom`, `C119.not_EachGetsAll`, `C121.sent_whose`, `C121.wrong_pid`, `C121.fork_iff`, `C121.lock_returned`, `C122.call_ok`, `C122.late_place`, `C122.place_registered`, `C122.only_running_act`, `C123.answer_is_last`, `C123.request_answered`, `C123.set_while_read`, `C123.late_name`, `C123.two_setters`, `C123.not_AnyTime`, `C123.undefined_iff`, `C124.gives_none`, `C125.ids_differ`, `C126.written_iff`, `C126.refused`, `C126.longer_fails`, `C126.shorter_fails`, `C127.short_is_safe_partial`, `C127.deep_message_overflows`, `C127.deep_prefix_overflows`, `C127.not_NeverOverflows`, `C127.overflows_iff`, `C127.value_only_if_whole`, `C127.whole_read_iff`, `C128.large_id_not_sent`, `C128.numbers_fit`, `C128.field_bytes`, `C129.closes_iff`, `C129.idle_viewer`, `C129.keeping_up_arrives_partial`, `C130.own_switches`, `C130.client_acts`, `C131.items_lost`, `C131.item_not_sent`, `C131.not_AsWritten`, `C132.add_partial`, `C132.message_to_last`, `C132.named_iff`, `C132.own_setTransport`, `C132.not_AllOrNothing`, `C133.log_eq`, `C133.one_sender`, `C134.decorated_call`, `C134.decorators_reach_the_call_only`, `C134.suppressed_is_recorded`, `C134.traced_is_outside`, `C134.nested_partial`, `C134.pause_in_section`, `C134.pause_in_switcher`, `C135.encode_iff`, `C135.not_AllNamesReadable`, `C135.maps_run`, `C136.descriptors_partial`, `C136.not_everyone_partial`, `C136.not_NothingLeft`, `C136.everyone_iff`, `C138.not_SourcesGoOn`, `C138.made`, `C141.not_FailedChangesNothing`, `C141.not_OnlyThoseNamed`, `C141.not_AllNamed`, `C143.options_large`, `C143.one_thread_no_race`, `C143.threads_race`, `C143.threads_race_reached`, `C145.emit_recorded`, `C145.not_OwnRows`, `C147.not_Exact`, `C148.no_marks`, `C149.counters_run`, `C149.readme_fixed_partial`, `C149.source_exact`, `C149.source_covers`, `C154.nothing_else`, `C154.can_finish`, `C154.late_hides`, `C154.failed_hides`, `C155.can_handle`, `C159.answers_orderly_partial`, `C160.orderly_partial`, `C160.each_leaves_one_open`, `C160.restored_iff`, `C160.switched_off_for_good`, `C160.any_can_stay_open`, `C160.off_is_silent`, `C160.never_switched_on`, `C160.inside_is_harmless`, `C160.passed_on`
- `Classical.choice`, `Quot.sound`, `propext` (749): `C01.ring_is_bounded_queue`, `C02.ring_concurrent_safe`, `C02.push_refused_iff_full`, `C02.everything_can_be_popped`, `C02.size_counts_seen`, `C02.pop_into_returns_seen`, `C03.messages_round_trip`, `C04.framing_independent_of_splits_partial`, `C04.short_read_truncates`, `C04.framing_depends_on_splits`, `C05.oversized_name_keeps_framing_partial`, `C05.oversized_payload_leftover`, `C05.phantom_message`, `C05.oversized_payload_violation`, `C05.harmless_iff`, `C10.no_corrupted_answer_partial`, `C10.broken_before_payload_fulfils_empty`, `C10.corrupted_answer_possible`, `C10.broken_exact`, `C10.broken_in_payload_truncates`, `C10.broken_in_field_undefined`, `C10.broken_between_fields_partial`, `C10.failed_read_fulfils_empty`, `C06.answers_belong_to_requests_partial`, `C06.answer_is_final`, `C06.every_request_can_be_misanswered`, `C06.own_answer_partial`, `C06.foreign_only_if_early`, `C06.silent_endpoints`, `C07.answered_requests_complete_partial`, `C07.hanging_forever`, `C07.unsent_fails`, `C07.early_lookup_hangs`, `C07.every_request_can_hang`, `C07.each_completes_partial`, `C07.hangs_iff`, `C07.never_ready_iff`, `C08.request_ids_unique`, `C09.pending_bounds`, `C09.cleanup_exact`, `C11.broadcast_exactly_once`, `C11.broadcast_to_no_one_else`, `C11.queue_drained`, `C12.broadcasts_in_order_partial`, `C12.queued_broadcasts_reversed`, `C12.later_first`, `C12.in_order_iff`, `C13.destruction_partial`, `C14.loopback_requests_partial`, `C14.loopback_no_crash_partial`, `C14.work_crashes_iff`, `C14.crashes_iff`, `C17.discovery_exact_partial`, `C17.spoofed_server`, `C17.other_sockets_are_found`, `C17.no_server_missed`, `C17.found_separately`, `C59.unix_destinations`, `C59.unix_form`, `C59.socketName_eq`, `C59.recorded_hash_is_reused`, `C61.factory_discovers`, `C61.factory_connects`, `C18.nothing_lost_or_duplicated_partial`, `C18.nothing_else_collected`, `C18.every_event_collected_partial`, `C18.only_failures`, `C18.late_fails`, `C18.fails_iff`, `C18.undefined_iff`, `C19.order_preserved`, `C20.full_buffer_drops_newest`, `C60.collected_is_broadcast_partial`, `C60.sent_exact`, `C21.observations_agree`, `C21.recorded_iff_on`, `C21.only_tracepoints_record`, `C22.switch_changes_only_by`, `C22.reads_are_switches`, `C22.reads_answer`, `C22.listing_exact`, `C25.set_exact`, `C25.get_exact`, `C25.client_result`, `C62.only_late_calls_fail_partial`, `C62.fails_iff`, `C62.undefined_iff`, `C63.wellformed_request_answered_partial`, `C63.configurator_survives_iff`, `C23.thread_switch_restored`, `C23.process_switch_restored`, `C23.switch_set_inside`, `C24.program_emits`, `C24.events_nested`, `C24.viewer_stack`, `C24.every_path_executes`, `C26.id_exists`, `C26.scope_lines_differ_partial`, `C26.close_names_differ_partial`, `C26.line_and_name_collide`, `C26.names_collide`, `C26.share_iff`, `C26.every_id_collides`, `C27.compile_time_is_crc32`, `C28.far_checksums_differ_partial`, `C28.close_files_differ_partial`, `C28.files_collide`, `C28.share_iff`, `C28.every_file_collides`, `C29.named_iff`, `C29.name_stays`, `C29.name_stays_same`, `C29.gap_is_one_step`, `C45.calls_are_sequential`, `C45.no_deadlock`, `C46.names_exact_partial`, `C47.info_exact`, `C47.info_lists_live_threads`, `C47.timeout_pid_arbitrary`, `C47.timeout_not_recognisable`, `C48.introspection_exact`, `C49.mapping_exact`, `C49.mapping_well_formed`, `C30.batch_round_trip`, `C30.counter_round_trip`, `C31.interval_exact`, `C31.interval_time_order`, `C31.provider_gone`, `C31.query_failure_escapes`, `C32.values_of_same_counter`, `C32.own_value_shown`, `C32.own_value_kept`, `C32.counters_exact_partial`, `C32.not_all_counters_exact`, `C33.bad_batch_hides_others`, `C33.unknown_kind_hides_others`, `C33.earlier_batches_kept_partial`, `C33.counter_without_value_undefined`, `C33.first_unknown_ends`, `C33.complete_iff`, `C33.undefined_iff`, `C33.harmless_iff`, `C35.name_of_own_process`, `C35.unknown_ids_differ`, `C35.refreshed_names_exact`, `C35.late_process_loses_names`, `C35.all_late_forgets`, `C35.late_forgets`, `C36.series_exact`, `C36.count_series_empty`, `C36.count_not_shown`, `C36.plain_name_count_partial`, `C36.counter_id_of_name`, `C64.timestamps_monotone`, `C64.timestamps_accurate`, `C64.timestamps_below`, `C64.timestamps_collide`, `C64.not_distinct`, `C64.timestamps_distinct_partial`, `C34.arrived_is_returned`, `C34.returned_arrived`, `C34.never_twice`, `C34.in_order`, `C37.chunks_exact`, `C37.end_exact`, `C38.commands_in_order`, `C38.command_can_be_processed`, `C38.categories_exact`, `C38.start_exact`, `C38.unknown_ignored`, `C39.every_reply_can_go_astray`, `C40.file_exact`, `C40.bad_name_fails`, `C41.start_all_providers`, `C41.unstarted_cannot_be_destroyed`, `C41.any_order_fails`, `C41.stopped_cannot_be_destroyed`, `C41.lifecycle_partial`, `C41.calls_work_iff`, `C41.destroy_works_iff`, `C65.malformed_message_terminates`, `C65.other_json_terminates`, `C65.name_terminates`, `C65.wellformed_continues_partial`, `C65.bad_event_terminates`, `C65.failing_source_terminates`, `C65.ends_program`, `C65.continues_iff`, `C65.ended_iff`, `C42.one_per_server`, `C42.transports_live`, `C42.dead_transports_removed`, `C42.live_transports_kept`, `C42.discovered_connected`, `C43.endpoints_exact`, `C43.found_by_name`, `C44.every_refusal_terminates`, `C44.null_transport_undefined`, `C44.never_retried`, `C44.slow_server_lost`, `C44.good_poll_ends_partial`, `C44.bad_answer_always`, `C57.last_answer_counts`, `C50.lines_parsed_partial`, `C50.brace_loses_fields`, `C50.not_lines_parsed`, `C50.brace_cuts_context`, `C50.comma_forges_field`, `C51.any_line_partial`, `C51.time_throws`, `C51.field_throws`, `C51.not_tolerant`, `C51.every_such_time_throws`, `C51.every_such_field_throws`, `C52.values_of_same_counter`, `C52.kept_apart_partial`, `C52.not_kept_apart`, `C52.mixed_always`, `C68.interval_exact`, `C68.timestamps_monotone`, `C68.counters_exact`, `C68.incomplete_event_loses_all`, `C68.default_contexts_incomplete`, `C68.line_without_time_undefined`, `C53.recording_session_has_all`, `C53.received_is_prefix`, `C53.never_after_removed`, `C53.source_events_partial`, `C53.keeps_running_partial`, `C53.stop_races`, `C53.stop_can_terminate`, `C53.received_while_stopped`, `C53.pushed_to_destroyed`, `C53.event_of_old_interval`, `C53.not_only_recording`, `C70.end_reached`, `C70.not_all_passed`, `C70.long_line_spoils_interval`, `C71.worker_exists_iff`, `C54.round_trip_partial`, `C54.large_number_fails`, `C54.not_round_trip`, `C54.round_trip_iff`, `C73.plain_round_trip`, `C73.tuple_becomes_list`, `C73.key_refused`, `C73.large_int_refused`, `C73.unknown_becomes_none`, `C73.surrogates_refused`, `C73.refused_iff`, `C73.refused_always`, `C55.unique_ids`, `C56.restored_partial`, `C56.alone_restored`, `C56.recursion_disables`, `C56.not_restored`, `C56.alone_restored_iff`, `C74.own_name_partial`, `C74.own_name_iff`, `C74.explicit_takes_over`, `C74.counter_takes_over`, `C75.not_balanced`, `C58.reaches_viewer_once`, `C58.drained_is_captured`, `C76.calls_return_partial`, `C76.stop_returns_partial`, `C76.stop_hangs`, `C76.call_hangs`, `C76.call_hangs_without_polling`, `C76.not_CallsReturn`, `C76.one_runs`, `C76.every_call_can_hang`, `C76.every_second_call_hangs`, `C76.hangs_iff`, `C77.converted_exactly`, `C77.strings_differ`, `C77.request_sends`, `C77.request_refused`, `C77.answers_partial`, `C77.good_methods_never_stop_partial`, `C77.raise_stops`, `C77.not_NeverStops`, `C79.calls_return_partial`, `C79.destroy_returns_partial`, `C79.second_request_hangs`, `C79.destroy_hangs`, `C79.not_CallsReturn`, `C79.one_runs`, `C79.each_once`, `C79.call_hangs_always`, `C79.every_use_can_hang`, `C79.hangs_iff`, `C80.gives_context_partial`, `C80.different_names_differ`, `C80.one_per_name_partial`, `C80.settled_partial`, `C81.as_asked_partial`, `C81.listing_partial`, `C81.unnamed_thread_ignored`, `C81.not_AsAsked`, `C81.late_answer_switches_off`, `C81.as_seen`, `C81.equal_pids_always`, `C82.all_listed_partial`, `C82.missing_info_hides_all`, `C82.not_AllListed`, `C82.equal_pids_hide_all`, `C82.missing_info_hides`, `C82.listed_exactly`, `C82.all_listed_iff`, `C83.printed_partial`, `C83.ascii`, `C83.runtime_error_loses_all`, `C83.not_AllPrinted`, `C83.bad_name_loses_all`, `C83.printed_iff`, `C84.default_port_partial`, `C84.always_default`, `C84.not_OnAskedPort`, `C84.other_argument`, `C84.any_number`, `C86.version_page`, `C86.list_page`, `C86.other_pages`, `C87.safe_partial`, `C87.destroy_hangs`, `C87.copied_without_lock`, `C87.not_Safe`, `C87.hangs_iff`, `C88.maps_safe`, `C88.no_other_race_partial`, `C88.never_terminates`, `C88.polling_race_always`, `C88.logger_race_always`, `C89.never_hangs_partial`, `C89.reentrant_hangs`, `C89.not_NeverHangs`, `C90.viewer_gets_events`, `C90.file_gets_events`, `C90.events_shown`, `C91.survives_iff_good_partial`, `C91.recorder_survives_iff_good_partial`, `C91.ok_iff_good`, `C91.bad_sources`, `C91.not_NeverStops`, `C92.no_other_race_partial`, `C92.running_race_always`, `C92.connected_race_always`, `C92.endpoint_race_always`, `C92.logger_race_always`, `C93.never_hangs_partial`, `C94.lost_for_good`, `C94.waiting_forever`, `C94.destroyed_fails`, `C95.full_buffer`, `C95.not_OthersDoNotMatter`, `C95.goes_on_partial`, `C95.stopped_iff`, `C96.safe_partial`, `C96.destructor_returns`, `C96.use_iff`, `C97.safe_partial`, `C97.no_leak`, `C97.gone_is_quiet`, `C97.wrong_iff`, `C98.never_hangs_partial`, `C101.every_call_parsed`, `C101.viewer_shows_calls`, `C101.viewer_shows_values`, `C101.backends_agree`, `C102.calls_return_partial`, `C102.server_add_returns_partial`, `C102.destroy_hangs`, `C102.client_hangs`, `C102.two_adds_hang`, `C102.not_CallsReturn`, `C102.method_returns`, `C102.native_served`, `C102.hangs_iff`, `C103.safe_partial`, `C103.destroy_with_viewer_hangs`, `C103.destroy_hangs_iff`, `C103.not_Safe`, `C103.lock_used`, `C104.gone_partial`, `C105.in_order`, `C105.lines_arrive_partial`, `C105.warnings_hold_up`, `C105.not_NothingHeldUp`, `C105.all_arrive_iff`, `C107.left_behind_iff`, `C108.released_iff`, `C108.released_partial`, `C108.forgotten_goes`, `C108.deleted_goes`, `C108.replaced_factory_goes`, `C108.replaced_endpoint_goes`, `C109.kept_partial`, `C109.not_kept_ends`, `C109.last_reference`, `C109.endpoint_outlives`, `C110.has_iff`, `C110.listed_partial`, `C110.not_switched`, `C110.switched_if_added`, `C110.recorded`, `C110.not_AllCommands`, `C110.two_exposers_always`, `C111.holds`, `C111.set_up_first_partial`, `C111.connect_gets_all`, `C113.only_succeeded_partial`, `C113.cut_swallows`, `C113.cut_accepted`, `C113.next_vanishes`, `C113.wrong_answer`, `C113.not_OnlySucceeded`, `C114.whole_partial`, `C114.exact_iff`, `C114.quiet_swaps_partial`, `C114.torn_inside_always`, `C115.none_is_skipped_partial`, `C115.never_made_up`, `C116.shown_as`, `C116.running_named_partial`, `C116.ended_unknown`, `C116.reused_misnamed`, `C116.not_NamesKept`, `C116.poll_connects`, `C116.emit_recorded`, `C117.found_iff`, `C117.kept_by_manager`, `C117.round_connects`, `C117.dropped_in_round`, `C117.dropped_unseen_partial`, `C117.quiet_survives_partial`, `C118.push_never_waits`, `C118.pop_never_waits`, `C119.split_partial`, `C119.not_twice_partial`, `C119.round_partial`, `C119.waiting_meets`, `C120.traced_does_the_same`, `C120.traced_call`, `C120.plain_has_no_tracing`, `C120.limit_is_needed`, `C120.reserved_section`, `C121.own_events_partial`, `C121.child_works_partial`, `C121.sent_twice`, `C121.fork_in_insert`, `C121.fork_in_read`, `C121.no_sender_no_events`, `C121.answers_whose`, `C122.ends_well_partial`, `C122.can_end`, `C122.outlives`, `C122.joins`, `C122.threads_of_global_partial`, `C122.end_of_named_partial`, `C122.late_tracepoint`, `C122.main_locals`, `C122.traced_destructor`, `C122.detached_thread`, `C123.name_set`, `C123.early_names_partial`, `C124.undefined_iff`, `C124.ends_iff`, `C124.safe_partial`, `C124.looked_at`, `C124.others_work`, `C124.kept`, `C125.records`, `C125.off_records_nothing`, `C125.runs_happens`, `C125.reentry`, `C126.read_back`, `C126.injective`, `C126.whole_or_error`, `C126.long_strings_lost`, `C127.flat_is_safe`, `C127.fuel_enough`, `C128.info_arrives`, `C128.endpoints_arrive`, `C128.mapping_arrives`, `C128.switches_arrive`, `C128.cut_query_throws`, `C128.cut_answer_throws`, `C128.info_large_id`, `C128.not_AlwaysAnswered`, `C128.info_answered_iff`, `C129.got_prefix`, `C129.open_loses_nothing`, `C129.small_recording_arrives_partial`, `C129.large_text_closes`, `C129.recording_arrives_partial`, `C129.utf8_injective`, `C129.not_AlwaysArrives`, `C130.answered_during`, `C130.info_during`, `C130.endpoints_during`, `C130.names_during`, `C130.switches_during`, `C130.handled_once`, `C130.added`, `C130.each_answered`, `C131.as_written_partial`, `C131.switches_partial`, `C131.raises`, `C131.as_written_without_items`, `C131.as_written_iff`, `C133.received_in_order`, `C133.all_received`, `C133.ends`, `C133.long_may_be_cut`, `C133.rest_read_past_end`, `C134.body_recorded`, `C135.decode_iff`, `C135.read_back`, `C135.info_read`, `C135.readable_iff`, `C135.traces_iff`, `C135.text_partial`, `C135.discover_partial`, `C135.one_bad_name`, `C136.own_process`, `C136.children_stay`, `C136.starts_bounded`, `C136.worn_out`, `C136.ignoring_signals_others`, `C137.runs_on_partial`, `C137.one_source_each`, `C137.start_calls`, `C137.end_calls`, `C137.end_counts`, `C137.left_out`, `C137.no_makeSource`, `C137.start_raises`, `C137.stop_raises`, `C137.not_AnyMethodLeftOut`, `C137.finish_raises`, `C137.make_fails`, `C137.none_source`, `C137.none_made`, `C137.others_kept`, `C137.leaves`, `C137.asked_run`, `C138.never_waits_for_itself`, `C138.used_exists`, `C138.owned_stays`, `C138.never_leaked`, `C138.destroyed_once`, `C138.gone_no_thread`, `C138.no_deadlock`, `C138.destructors_return`, `C138.can_be_done`, `C138.remains_exactly`, `C138.all_released`, `C138.session_has_server`, `C138.owned_sources_finish`, `C138.viewer_source_each`, `C138.lost`, `C138.taken_sources`, `C138.recorder_source_each`, `C139.written`, `C139.written_at_end`, `C139.one_source_each`, `C139.start_again`, `C139.never_twice_partial`, `C139.written_again`, `C139.not_NeverTwice`, `C139.nothing_before`, `C139.restart_loses`, `C139.unopened_loses`, `C139.bad_event_loses`, `C139.bad_event_terminates`, `C139.stopped_writes_nothing`, `C139.no_file_at_end`, `C139.not_EveryEventWritten`, `C140.server_as_written`, `C140.configure_as_written`, `C140.configure_without_state`, `C140.ids_need_state`, `C140.alone`, `C140.run_was_named`, `C140.unknown_command`, `C140.unknown_option`, `C140.help_given`, `C140.command_help_given`, `C140.errors_reported_partial`, `C140.no_arguments`, `C140.not_ErrorsReported`, `C140.option_between`, `C140.not_AnyPlace`, `C140.help_with_letters`, `C141.process_holds`, `C141.process_off_silent`, `C141.thread_holds`, `C141.thread_off_silent`, `C141.returned_done`, `C141.never_lost`, `C141.handler_ends`, `C141.all_answered`, `C141.answer_tells`, `C141.answer_confirms`, `C141.not_OneMoment`, `C141.answer_confirms_thread`, `C142.part_is_refused`, `C142.shown_exact`, `C142.each_in_order`, `C142.part_hides_later`, `C142.field_undefined`, `C142.end_noticed`, `C142.end_between_harmless_partial`, `C142.other_process_hidden`, `C142.consumer_undefined`, `C143.readme_says`, `C143.readme_shown`, `C143.server_says`, `C143.recorder_says`, `C143.nested_partial`, `C143.marker_says`, `C143.marker_shown`, `C143.toggle_says`, `C143.toggle_shown`, `C143.showcases_not_nested`, `C143.not_AllNested`, `C143.count_says`, `C143.count_overflows`, `C143.random_nested`, `C143.random_levels`, `C143.random_depth`, `C143.options_used`, `C143.options_negative`, `C143.options_text`, `C143.recorder_file`, `C144.all_printed_partial`, `C144.none_found`, `C144.unreachable_hides_all`, `C144.late_info_undefined`, `C144.late_list_is_null`, `C144.bad_text_hides_all`, `C144.throw_hides_all`, `C144.not_AllPrinted`, `C144.undefined_iff`, `C144.printed_only`, `C145.running_named_partial`, `C145.row_exact`, `C145.rows_nested`, `C145.together_apart`, `C145.ended_unnamed`, `C145.reused_misnamed`, `C146.released_partial`, `C146.bounded_partial`, `C146.piles_up`, `C146.not_Bounded`, `C147.shown_exact`, `C147.exact_partial`, `C147.drains`, `C147.early_shown`, `C147.late_missing`, `C147.shown_in_next`, `C148.shown_exact`, `C148.calls_exact`, `C148.not_HelperForAll`, `C149.source_past_end`, `C149.not_Within`, `C149.within_iff`, `C150.native_partial`, `C150.lttng_partial`, `C150.set_back_lost`, `C150.set_back_shown`, `C150.not_AlwaysExact`, `C151.kept_up_partial`, `C151.whole_lost_partial`, `C151.lost_exit_shown`, `C151.lost_entry_shown`, `C151.overrun_happens`, `C151.not_NoFalseSections`, `C152.whole_partial`, `C152.once_partial`, `C152.scoped_partial`, `C152.off_and_on_shown`, `C152.not_AlwaysRight`, `C153.guarded_safe`, `C153.no_other_race_partial`, `C153.only_with_partial`, `C153.can_finish`, `C153.destroy_races`, `C153.transport_races`, `C153.size_races`, `C153.not_NoRace`, `C154.general_fresh`, `C154.scope_fresh_partial`, `C154.name_shown_partial`, `C154.stale_shown`, `C154.not_Fresh`, `C155.recorded`, `C155.delivered_once_partial`, `C155.end_again`, `C155.released_partial`, `C155.kept`, `C155.never_started`, `C155.delivered_often`, `C156.shown`, `C156.accurate`, `C156.same_time`, `C156.order_within`, `C156.one_axis_partial`, `C156.native_too_late`, `C156.lttng_too_late`, `C156.not_one_axis`, `C157.set_to_list_partial`, `C157.same_list`, `C157.list_ascends`, `C157.all_kept`, `C157.elements_lost`, `C157.same_conversion`, `C157.nan_loses`, `C157.nan_undefined`, `C157.rounded_lost`, `C157.mixed_kept`, `C157.floats_ascend`, `C158.converted_partial`, `C158.converted_iff`, `C158.deep_ends`, `C158.circle_ends`, `C158.inside_ends`, `C158.every_stack_ends`, `C158.not_SomeStack`, `C159.answered_iff`, `C159.doubles_taken`, `C159.other_doubles_undefined`, `C159.others_refused`, `C159.not_Refused`, `C159.pid_taken`, `C159.thread_undefined`, `C159.requests_orderly_partial`, `C159.truncate_iff`, `C159.info_says`, `C159.mapping_says`, `C159.switches_say`, `C160.closed_iff`, `C161.no_effect_partial`, `C161.no_effect_all_partial`, `C161.brace_loses_all`, `C161.braced_loses_all`, `C161.name_forges_process`, `C161.not_NoEffect`
<!-- axioms end -->
