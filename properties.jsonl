{"id": "C01", "title": "Ring buffer is a bounded FIFO queue", "statement": "A ring buffer constructed with size N (N>0) answers every sequence of push, pop, pop_into, size, available and empty calls exactly as a FIFO queue that holds at most N-1 elements: push succeeds iff fewer than N-1 elements are held, elements leave in insertion order, unchanged and exactly once, and a refused push leaves the queue as it was. Size 0 is refused by the constructor.", "quantifier": "all buffer sizes N, all element types and values, all finite sequences of operations", "why_tests_cant": "Index wrap-around defects appear only for particular combinations of size and operation history, which are unbounded.", "anchors": ["scalopus_tracing/src/spsc_ringbuffer.h: SPSCRingBuffer::push, pop, pop_into, size, available, empty"]}
{"id": "C02", "title": "Ring buffer is safe for one producer and one consumer", "statement": "When one thread pushes and another pops concurrently, then under every interleaving of their memory accesses, and for every stale index value that acquire/release ordering permits a thread to see, the popped sequence is a prefix of the accepted pushes in order, a slot is never written while or before the other thread has finished with it (no data race), and a pop never returns a value that was not pushed.", "quantifier": "all buffer sizes, all values, all interleavings and all stale loads permitted by release/acquire", "why_tests_cant": "Tests see a handful of schedules on one memory model; the claim is over all schedules.", "anchors": ["scalopus_tracing/src/spsc_ringbuffer.h: SPSCRingBuffer::push, pop, pop_into"]}
{"id": "C03", "title": "Transport message round-trip and framing", "statement": "Any sequence of messages (request id below 2^64, endpoint name shorter than 2^16 bytes, payload shorter than 2^32 bytes) written to a connection is read back as the same sequence of messages, each field identical, with no byte left over, provided reads are satisfied in full.", "quantifier": "all message sequences of any length with any field contents", "why_tests_cant": "Message contents and sequences are unbounded; boundary lengths around 4096, 2^16 and 2^32 are not enumerable together.", "anchors": ["scalopus_transport/src/protocol.cpp: protocol::send, protocol::receive", "scalopus_transport/src/protocol.h: protocol::Msg"]}
{"id": "C04", "title": "Framing does not depend on how the kernel splits the stream", "statement": "A message that receive() accepts is a message that was sent, whatever chunk sizes the kernel hands out for individual reads of the stream socket.", "quantifier": "all messages and all sequences of read() chunk sizes allowed by POSIX for a stream socket", "why_tests_cant": "A test cannot control where the kernel splits a stream.", "anchors": ["scalopus_transport/src/protocol.cpp: readData, receive"]}
{"id": "C05", "title": "Oversized names and payloads do not corrupt the connection", "statement": "Sending a message whose endpoint name does not fit in 16 bits or whose payload does not fit in 32 bits does not change how later messages on the same connection are read.", "quantifier": "all oversized messages and all messages that follow them", "why_tests_cant": "A 4 GiB payload is impractical in a unit test.", "anchors": ["scalopus_transport/src/protocol.cpp: protocol::send"]}
{"id": "C06", "title": "A response reaches the request that caused it", "statement": "When a request future over the unix transport yields a value, that value is exactly what the server's endpoint of the requested name returned for this very request's payload; never the answer to another request, of another client or of another endpoint. A request receives at most one answer.", "quantifier": "all numbers of clients, requests and endpoints, and all interleavings of the client threads, the server thread and message arrival", "why_tests_cant": "Cross-talk depends on schedules and request id reuse across clients.", "anchors": ["scalopus_transport/src/transport_unix.cpp: TransportUnix::request, work, processMsg"]}
{"id": "C07", "title": "Every answered request completes", "statement": "If a request is sent over a connection that stays up and the server's endpoint produces a response, then the future returned by request() eventually becomes ready; if the request cannot be sent, the future fails at once.", "quantifier": "all schedules of the requesting thread, the client worker and the server", "why_tests_cant": "The failure needs the response to arrive between the send and the registration of the request.", "anchors": ["scalopus_transport/src/transport_unix.cpp: TransportUnix::request, work"]}
{"id": "C08", "title": "Request identifiers are unique and distinguishable from broadcasts", "statement": "Over the lifetime of a client connection no two of its requests carry the same identifier and none carries the identifier 0 used by broadcasts (for fewer than 2^64 requests), even when several threads issue requests.", "quantifier": "all histories of requests from all threads", "why_tests_cant": "Uniqueness is over unbounded histories.", "anchors": ["scalopus_transport/src/transport_unix.h: request_counter_", "scalopus_transport/src/transport_unix.cpp: TransportUnix::request"]}
{"id": "C09", "title": "Abandoned requests are cleaned up and counted correctly", "statement": "pendingRequests() equals the number of requests sent and not yet answered or discarded. After the worker's cleanup no request whose future the caller has dropped is retained, while requests whose futures are still held are kept.", "quantifier": "all histories of request, response, drop and cleanup", "why_tests_cant": "Leaks and premature removal depend on the order of drops, answers and cleanup.", "anchors": ["scalopus_transport/src/transport_unix.cpp: TransportUnix::work, pendingRequests"]}
{"id": "C10", "title": "A dying connection never yields a corrupted answer", "statement": "When the connection breaks at any byte of the incoming stream, a waiting request either keeps waiting, fails with an error, or receives the complete answer that the server sent; it never receives a truncated answer.", "quantifier": "all messages and all byte offsets at which the connection can break", "why_tests_cant": "The crash point ranges over every byte offset.", "anchors": ["scalopus_transport/src/transport_unix.cpp: TransportUnix::work", "scalopus_transport/src/protocol.cpp: receive"]}
{"id": "C11", "title": "A broadcast reaches every connected client exactly once", "statement": "When the server processes its queued broadcasts, each queued broadcast is delivered exactly once to each connected client, to no one else, and is not sent again later.", "quantifier": "all queues of broadcasts, all sets of connections and all interleavings with broadcast() calls", "why_tests_cant": "Exactly-once is over all histories of broadcasts and connects.", "anchors": ["scalopus_transport/src/transport_unix.cpp: TransportUnix::work", "scalopus_interface/src/transport.cpp: Transport::broadcast, popBroadcast, haveBroadcast"]}
{"id": "C12", "title": "Broadcasts arrive in the order they were made", "statement": "A client receives broadcasts in the order in which broadcast() was called.", "quantifier": "all sequences of broadcasts and all times at which the worker runs", "why_tests_cant": "Reordering shows only when several broadcasts are queued before the worker runs.", "anchors": ["scalopus_interface/src/transport.cpp: Transport::broadcast, popBroadcast"]}
{"id": "C13", "title": "A transport that failed to start can be destroyed", "statement": "Serving or connecting may fail; the transport object can then still be destroyed without terminating the process, and the factory reports the failure by returning a null pointer.", "quantifier": "all outcomes of the socket system calls and all orders of serve, connect and destruction", "why_tests_cant": "System call failures are hard to provoke one by one.", "anchors": ["scalopus_transport/src/transport_unix.cpp: TransportUnix::serve, connect, ~TransportUnix, TransportUnixFactory::serve, connect"]}
{"id": "C14", "title": "Loopback requests are answered by the named endpoint or fail cleanly", "statement": "Every request made over the loopback transport whose future is kept is answered with what the server's endpoint of that name returned, in the order of the requests; a request for an endpoint that does not exist, or that declines to answer, makes the future fail with an exception and does not affect the other requests.", "quantifier": "all sets of endpoints, all queues of requests including dropped futures, all handler results", "why_tests_cant": "Queues and handler behaviours are unbounded.", "anchors": ["scalopus_transport/src/transport_loopback.cpp: TransportLoopback::request, work"]}
{"id": "C15", "title": "Loopback broadcast and unsolicited replies", "statement": "A broadcast over the loopback transport is handed exactly once to each live client that has an endpoint of that name and to no other, and a reply produced by a client's endpoint is handed to the server's endpoint of the same name.", "quantifier": "all sets of clients, live or expired, with any endpoints, and all queues of broadcasts", "why_tests_cant": "Sets of clients and their liveness are unbounded.", "anchors": ["scalopus_transport/src/transport_loopback.cpp: TransportLoopback::work, addClient"]}
{"id": "C16", "title": "Endpoint registry", "statement": "getEndpoint(name) returns the endpoint added last under that name, or null when none was added; endpoints() lists exactly the names added; adding one endpoint does not affect lookups of other names, and an endpoint added to a transport can reach that transport.", "quantifier": "all sequences of addEndpoint and getEndpoint with any names", "why_tests_cant": "Sequences and names are unbounded.", "anchors": ["scalopus_interface/src/transport.cpp: Transport::addEndpoint, endpoints, getEndpoint"]}
{"id": "C17", "title": "Discovery finds exactly the listening servers", "statement": "Discovery over the unix transport returns the process id of every scalopus server listed by the kernel with a listening socket and nothing for other sockets or for client ends of connections, for every content of the kernel's socket table.", "quantifier": "all socket tables: any number of lines, any other sockets, any process ids", "why_tests_cant": "The socket table of a live system is arbitrary.", "anchors": ["scalopus_transport/src/transport_unix.cpp: getTransportServers, TransportUnixFactory::discover"]}
{"id": "C18", "title": "No accepted trace event is lost or duplicated on its way to the sender", "statement": "Every event accepted into a thread's buffer is collected exactly once by the sender, including events of threads that exit at any moment, and nothing that was not emitted is collected.", "quantifier": "all numbers of threads, all events, all interleavings of emitting, thread start and exit, and collection rounds", "why_tests_cant": "Loss windows around thread exit are schedule dependent.", "anchors": ["scalopus_tracing/src/native/tracepoint_collector_native.cpp: getBuffer, getActiveMap, retrieveAndClearOrphanedBuffers", "scalopus_tracing/src/native/endpoint_native_trace_sender.cpp: work"]}
{"id": "C19", "title": "Per-thread order of trace events is preserved", "statement": "The events of one thread are collected in the order in which the thread emitted them, within one collection round and across rounds.", "quantifier": "all threads, event sequences and interleavings of emission, exit and collection", "why_tests_cant": "Order across rounds and thread exit depends on schedules.", "anchors": ["scalopus_tracing/src/native/endpoint_native_trace_sender.cpp: work", "scalopus_tracing/src/native/tracepoint_collector_native.cpp: getBuffer"]}
{"id": "C20", "title": "A full buffer drops only the newest events", "statement": "When a thread emits faster than events are collected, the events already buffered are unaffected; exactly the events emitted while the buffer is full are discarded, and emission never blocks or fails.", "quantifier": "all buffer sizes, all emission and collection histories", "why_tests_cant": "Overflow points depend on the history.", "anchors": ["scalopus_tracing/src/native/native_tracepoint.cpp: scope_entry, scope_exit, mark_event, count_event", "scalopus_tracing/src/spsc_ringbuffer.h: push"]}
{"id": "C21", "title": "Tracepoints are emitted iff process and thread tracing are on", "statement": "A tracepoint reached by a thread produces an event iff at that moment tracing is on for the process and for that thread; the event carries the tracepoint's id and kind, the thread and (for counters) the value. A backend without tracing never produces events.", "quantifier": "all interleavings of toggles and tracepoints of all threads up to their clean-up at exit (C62 covers later calls), for the native, lttng and nop backends", "why_tests_cant": "Toggle and tracepoint histories are unbounded.", "anchors": ["scalopus_tracing/src/native/native_tracepoint.cpp", "scalopus_tracing/src/lttng/lttng_tracepoint.cpp", "scalopus_tracing/src/nop/nop_tracepoint.cpp", "scalopus_tracing/src/trace_configurator.cpp"]}
{"id": "C22", "title": "Tracing state is per thread, on by default, and forgotten at thread exit", "statement": "Toggling one thread's tracing never changes another thread's or the process's state; each new thread and the process start enabled; the state of an exited thread is no longer listed and is not inherited by a later thread, even one that reuses its identifier.", "quantifier": "all histories of thread start, exit and toggles up to the clean-up of each thread at its exit (C62 covers later calls), including reuse of thread identifiers", "why_tests_cant": "Identifier reuse depends on the system's scheduling.", "anchors": ["scalopus_tracing/src/trace_configurator.cpp: getThreadStatePtr, removeThread, setThreadState, setProcessState, getThreadMap"]}
{"id": "C23", "title": "Scoped tracing changes are undone", "statement": "After any properly nested use of the scoped thread or process tracing switches, the tracing state equals the state before, whatever happens inside, as long as what is inside restores what it changes.", "quantifier": "all nestings of scoped switches and traced code, of any depth", "why_tests_cant": "Nesting depth is unbounded.", "anchors": ["scalopus_tracing/src/trace_configuration_raii.cpp", "scalopus_tracing/include/scalopus_tracing/trace_macro.h"]}
{"id": "C24", "title": "Scopes nest in the emitted events", "statement": "For every program built from properly nested traced scopes that runs with tracing enabled and without overflow, the entry and exit events of a thread are balanced and properly nested and every exit carries the id of its entry.", "quantifier": "all nested programs of any depth and length", "why_tests_cant": "Programs are unbounded.", "anchors": ["scalopus_tracing/src/scope_trace_raii.cpp", "scalopus_tracing/include/scalopus_tracing/internal/trace_macro.h", "scalopus_tracing/src/native/native_tracepoint.cpp"]}
{"id": "C25", "title": "Remote trace configuration applies exactly what was asked", "statement": "A remote set command changes the process state iff it asks for that, changes exactly the threads it names among those that exist, leaves everything else unchanged, and replies with the resulting process state and the states of all existing threads; a get command changes nothing and replies likewise.", "quantifier": "all configurations, thread tables and command sequences", "why_tests_cant": "Combinations of named and existing threads are unbounded.", "anchors": ["scalopus_tracing/src/endpoint_trace_configurator.cpp: handle, setTraceState, getTraceState, to_json, from_json"]}
{"id": "C26", "title": "Tracepoint ids within a file", "statement": "Two tracepoints on different lines of one source file that register different names have different ids; the start and the end of an explicitly delimited scope with the same name in a file have the same id.", "quantifier": "all files with fewer than 2^32 lines, all line numbers, all names", "why_tests_cant": "All pairs of lines and names cannot be enumerated.", "anchors": ["scalopus_tracing/include/scalopus_tracing/internal/trace_macro.h: SCALOPUS_TRACKED_TRACE_ID_CREATOR, SCALOPUS_TRACKED_TRACE_ID_STRING"]}
{"id": "C27", "title": "Compile-time checksum is CRC-32", "statement": "The compile-time checksum used for tracepoint ids equals the standard reflected CRC-32 (IEEE 802.3) of the string, for every string.", "quantifier": "all byte strings", "why_tests_cant": "Strings are unbounded.", "anchors": ["scalopus_tracing/include/scalopus_tracing/internal/compile_time_crc.hpp"]}
{"id": "C28", "title": "Tracepoints of different files have different ids", "statement": "Two tracepoints in different source files of one program never share an id.", "quantifier": "all pairs of files and lines", "why_tests_cant": "Collisions are rare and depend on file names.", "anchors": ["scalopus_tracing/include/scalopus_tracing/internal/trace_macro.h"]}
{"id": "C29", "title": "Names are registered before they are needed", "statement": "When an event with some id has been emitted through the tracing macros by any thread, the mapping served to consumers already contains the name of that id.", "quantifier": "all interleavings of threads reaching the tracepoint for the first time, and all times of querying the mapping", "why_tests_cant": "The window is a race between two threads at first use.", "anchors": ["scalopus_tracing/include/scalopus_tracing/internal/trace_macro.h: SCALOPUS_TRACE_ID_REGISTER_ONCE", "scalopus_tracing/src/endpoint_trace_mapping.cpp: handle"]}
{"id": "C30", "title": "Event serialisation round-trip", "statement": "Every batch of events, for any process id, threads, times, ids, kinds and optional counter payloads, is decoded by the consumer to exactly the batch that was encoded.", "quantifier": "all batches of any size, all 64 bit times, 32 bit ids, kinds and payload bytes", "why_tests_cant": "Values cross all CBOR length boundaries; batches are unbounded.", "anchors": ["scalopus_tracing/src/native/tracepoint_collector_native.h: to_cbor, from_cbor", "scalopus_tracing/src/native/endpoint_native_trace_sender.cpp: process_events", "scalopus_tracing/src/native/native_trace_source.cpp: finishInterval"]}
{"id": "C31", "title": "Finished interval contains every recorded event once, in time order", "statement": "finishInterval() returns one entry per recorded event of known kind, with the right phase, process, thread, name and timestamp, ordered by time, with events of equal time kept in the order of recording.", "quantifier": "all recordings of any number of batches, processes, threads and events of known kinds (for others see C33)", "why_tests_cant": "Recordings are unbounded.", "anchors": ["scalopus_tracing/src/native/native_trace_source.cpp: finishInterval"]}
{"id": "C32", "title": "Counter entries carry all series of their counter", "statement": "Each counter entry returned by finishInterval() carries a value for every series of that counter recorded by the same process in the interval: the value last set for a series, or, before its first event, the value it is first set to; series of other counters or processes never appear.", "quantifier": "all recordings of counter events over any processes, counters and series", "why_tests_cant": "Interleavings of series and counters are unbounded.", "anchors": ["scalopus_tracing/src/native/native_trace_source.cpp: finishInterval"]}
{"id": "C33", "title": "A malformed batch does not lose other processes' events", "statement": "If one received batch is malformed or holds an unknown kind of event, the events of all other batches of the interval are still returned.", "quantifier": "all positions of a malformed batch among any valid batches", "why_tests_cant": "Malformed content and position are arbitrary.", "anchors": ["scalopus_tracing/src/native/native_trace_source.cpp: finishInterval"]}
{"id": "C34", "title": "A source records exactly its interval", "statement": "A source returns exactly the data that arrived between its start and its stop or finish; sources of one provider do not affect each other, starting anew discards older data, and finishing twice does not return data twice.", "quantifier": "all histories of start, stop, finish and arriving data for any number of sources", "why_tests_cant": "Histories are unbounded.", "anchors": ["scalopus_tracing/src/native/native_trace_source.cpp: startInterval, stopInterval, isRecording, addData", "scalopus_tracing/src/native/native_trace_provider.cpp: incoming, makeSource"]}
{"id": "C35", "title": "Names are resolved per process", "statement": "The name shown for an event is the name which the event's own process registered for its id; an id not registered by that process is shown as 'Unknown 0x' followed by its hexadecimal value. Refreshing the mapping merges the mappings of all connected processes.", "quantifier": "all mappings, process ids and trace ids, and all sets of connected processes", "why_tests_cant": "Mappings are unbounded.", "anchors": ["scalopus_tracing/src/scope_tracing_provider.cpp: updateMapping, getScopeName"]}
{"id": "C36", "title": "Counter and series names are split as documented", "statement": "A counter traced with a name and a series is shown as that name and that series; a counter traced without a series is shown with the series 'count'.", "quantifier": "all counter names without '/' and all series names", "why_tests_cant": "Names are unbounded.", "anchors": ["scalopus_tracing/src/scope_tracing_provider.cpp: splitCounterSeriesName", "scalopus_tracing/include/scalopus_tracing/trace_macro.h: TRACE_COUNT, TRACE_COUNT_SERIES"]}
{"id": "C37", "title": "Chunked transmission loses nothing", "statement": "The data messages sent to the trace viewer after a recording contain all events once, in order, with at most the maximum chunk size each, and are followed by one completion message.", "quantifier": "all numbers of events", "why_tests_cant": "The number of events is unbounded.", "anchors": ["scalopus_catapult/src/trace_session.cpp: chunkedTransmit, processMessage", "scalopus_catapult/src/trace_session.h: CHUNK_SIZE"]}
{"id": "C38", "title": "Trace session command protocol", "statement": "Every known command received over a session gets exactly one reply that carries the command's id, commands are processed in order of arrival, every source is started by a start command before its reply and stopped and finished once by an end command, and unknown commands get no reply.", "quantifier": "all sequences of commands and all sets of sources", "why_tests_cant": "Command sequences are unbounded.", "anchors": ["scalopus_catapult/src/trace_session.cpp: incoming, popIncoming, loop, processMessage"]}
{"id": "C39", "title": "Viewer sessions are isolated", "statement": "Each websocket connection has its own session: data received on one connection is processed only by its session, replies go only to the connection of the session that made them, and nothing is sent to a closed connection.", "quantifier": "all interleavings of connects, data, replies and disconnects of any number of connections", "why_tests_cant": "Interleavings are unbounded.", "anchors": ["scalopus_catapult/src/catapult_backend.cpp: onConnect, onData, onDisconnect, getSession, makeSession, delSession"]}
{"id": "C40", "title": "Recorder writes a JSON array of all events", "statement": "The file written by the recorder is the JSON array of all events collected from all sources, in source order.", "quantifier": "all sets of sources and events", "why_tests_cant": "Numbers of sources and events are unbounded.", "anchors": ["scalopus_catapult/src/catapult_recorder.cpp: collectEvents, writeToFile"]}
{"id": "C41", "title": "Recorder can be stopped and destroyed at any time", "statement": "A recorder can be started, stopped and destroyed in any order without terminating the process, and starting again after stopping records again.", "quantifier": "all sequences of start, stop and destruction", "why_tests_cant": "Lifecycles are sequences of unbounded length.", "anchors": ["scalopus_catapult/src/catapult_recorder.cpp: start, stop, ~CatapultRecorder"]}
{"id": "C42", "title": "Manager keeps one live connection per server", "statement": "After each poll the manager holds at most one transport per server, an endpoint table for exactly the transports it holds, no transport that was found disconnected, and a transport for each discovered server that accepted the connection.", "quantifier": "all histories of polls with any discovery results, connection outcomes and disconnects", "why_tests_cant": "Histories of servers appearing and dying are unbounded.", "anchors": ["scalopus_general/src/endpoint_manager_poll.cpp: manage, connect, endpoints"]}
{"id": "C43", "title": "Manager creates exactly the supported endpoints", "statement": "For a newly connected server the manager creates an endpoint for exactly those names that the server reports and for which a factory is registered (and yields an endpoint), and the endpoint can be found by its name on the transport.", "quantifier": "all sets of reported names and factories", "why_tests_cant": "Sets of names are unbounded.", "anchors": ["scalopus_general/src/endpoint_manager_poll.cpp: connect, addEndpointFactory"]}
{"id": "C44", "title": "Manager survives a server that cannot be reached or is slow", "statement": "A discovered server that refuses the connection does not crash the manager, and a server that answered too late on the first poll gets its endpoints on a later poll.", "quantifier": "all connection outcomes and response delays over any number of polls", "why_tests_cant": "Requires particular timing of a remote process.", "anchors": ["scalopus_general/src/endpoint_manager_poll.cpp: manage, connect", "scalopus_general/src/endpoint_introspect.cpp: supported"]}
{"id": "C45", "title": "Trackers behave as maps under concurrency", "statement": "Concurrent insert, erase, clear and lookup calls on the shared trackers behave as if executed one at a time on a map: a lookup returns the latest inserted value, a snapshot is the map at one moment, and looking up a missing key fails with an exception.", "quantifier": "all interleavings of all operations with any keys and values", "why_tests_cant": "Interleavings are unbounded.", "anchors": ["scalopus_general/include/scalopus_general/map_tracker.h: MapTracker"]}
{"id": "C46", "title": "Thread names", "statement": "The process information lists for each live thread the name it last set, never the name of an exited thread, and the naming macro sets the name once per thread and place.", "quantifier": "all histories of naming, thread start and exit, including reuse of thread identifiers", "why_tests_cant": "Histories are unbounded.", "anchors": ["scalopus_general/src/thread_name_tracker.cpp: setCurrentName, setThreadName", "scalopus_general/include/scalopus_general/internal/thread_naming.h", "scalopus_general/include/scalopus_general/destructor_callback.h"]}
{"id": "C47", "title": "Process information query", "statement": "A process information query returns the server's process id, name and thread names as they were at one moment; without an answer in time it returns an empty result that cannot be mistaken for a process.", "quantifier": "all process states and all response outcomes", "why_tests_cant": "The timeout outcome depends on schedules.", "anchors": ["scalopus_general/src/endpoint_process_info.cpp: handle, processInfo"]}
{"id": "C48", "title": "Introspection lists exactly the server's endpoints", "statement": "The introspection query returns exactly the names of the endpoints that the server has at the time of handling, each once; it returns nothing without an answer in time, and fails with an error without a transport.", "quantifier": "all endpoint sets and response outcomes", "why_tests_cant": "Endpoint sets are unbounded.", "anchors": ["scalopus_general/src/endpoint_introspect.cpp: handle, supported"]}
{"id": "C49", "title": "Mapping query", "statement": "A mapping query returns exactly the id to name pairs registered in the server's process, under its process id; other commands and malformed requests are declined without crashing.", "quantifier": "all request payloads and registered names", "why_tests_cant": "Payloads are unbounded.", "anchors": ["scalopus_tracing/src/endpoint_trace_mapping.cpp: handle, mapping"]}
{"id": "C50", "title": "LTTng lines are parsed faithfully", "statement": "For every event line in babeltrace's documented format, the parsed event has the time, domain, name, and the integer fields of the three contexts exactly as printed.", "quantifier": "all timestamps, host names, tracepoint names, field names and field values in the documented format", "why_tests_cant": "Field sets and values are unbounded.", "anchors": ["scalopus_tracing/src/lttng/ctfevent.cpp: CTFEvent::CTFEvent, processContext"]}
{"id": "C51", "title": "LTTng parser tolerates arbitrary lines", "statement": "Parsing any line of text terminates and neither crashes nor throws, at worst yielding an event without data.", "quantifier": "all strings", "why_tests_cant": "Strings are unbounded.", "anchors": ["scalopus_tracing/src/lttng/ctfevent.cpp", "scalopus_tracing/src/lttng/babeltrace_parser.cpp: process"]}
{"id": "C52", "title": "LTTng counters of different processes are kept apart", "statement": "Counter entries converted from LTTng events carry only series values recorded by the same process.", "quantifier": "all recordings of counter events over any processes", "why_tests_cant": "Interleavings of processes are unbounded.", "anchors": ["scalopus_tracing/src/lttng/lttng_source.cpp: convertEvents"]}
{"id": "C53", "title": "LTTng events are delivered to recording sessions only", "statement": "Each event parsed by the babeltrace parser is delivered exactly once to every session that is recording at that time and never to a session after it was found inactive.", "quantifier": "all histories of lines, registrations and deactivations", "why_tests_cant": "Histories are unbounded.", "anchors": ["scalopus_tracing/src/lttng/babeltrace_parser.cpp: process, setCallback", "scalopus_tracing/src/lttng/babeltrace_tool.cpp: addCallback", "scalopus_tracing/src/lttng/lttng_source.cpp: startInterval, stopInterval"]}
{"id": "C54", "title": "JSON and Python values convert back and forth", "statement": "Converting a JSON value to Python and back gives the same value, for null, booleans, 64 bit integers, floats, strings, arrays and objects of any nesting.", "quantifier": "all JSON values of any depth", "why_tests_cant": "Values are unbounded.", "anchors": ["scalopus_python/lib/json_util.cpp: jsonToPy, pyToJson"]}
{"id": "C55", "title": "Python trace ids are unique", "statement": "Concurrent calls of uniqueTraceId() never return the same number twice (within 2^64 calls) in one process.", "quantifier": "all interleavings of calls from any threads", "why_tests_cant": "Histories are unbounded.", "anchors": ["scalopus_python/lib/scalopus_tracing.cpp: uniqueTraceId"]}
{"id": "C56", "title": "Python suppression is undone", "statement": "After a function decorated with suppressed returns, the thread's tracing state equals the state before the call, also for recursive functions, nested decorated functions and functions called from several threads.", "quantifier": "all call trees of decorated functions, all interleavings of threads", "why_tests_cant": "Call trees are unbounded.", "anchors": ["scalopus_python/scalopus/tracing.py: ThreadStateSwitcher, suppressed"]}
{"id": "C57", "title": "Process metadata entries", "statement": "For each known process the general source returns one process name entry and one thread name entry per named thread with the right process id, thread id and name, and nothing else.", "quantifier": "all process tables", "why_tests_cant": "Tables are unbounded.", "anchors": ["scalopus_general/src/general_source.cpp: finishInterval", "scalopus_general/src/general_provider.cpp: updateMapping"]}
{"id": "C58", "title": "End to end: a traced event reaches the viewer once", "statement": "An event emitted by a traced thread while its process is connected to a consumer that records, and collected before recording ends, appears exactly once in the consumer's result with the right process, thread, name, phase, time and counter value, and every entry of the result stands for one event that a traced process emitted and that was not handed over before the recording started.", "quantifier": "all sets of threads, event sequences, and interleavings of emission, collection, transmission and recording", "why_tests_cant": "The property spans every component and all their schedules.", "anchors": ["scalopus_tracing/src/native/native_tracepoint.cpp", "scalopus_tracing/src/native/endpoint_native_trace_sender.cpp", "scalopus_transport/src/transport_unix.cpp", "scalopus_transport/src/protocol.cpp", "scalopus_tracing/src/native/native_trace_provider.cpp", "scalopus_tracing/src/native/native_trace_source.cpp"]}
{"id": "C59", "title": "Destinations of different servers are told apart", "statement": "Two destinations of one transport type are treated as the same server iff they denote the same process (unix) or the same server object (loopback).", "quantifier": "all pairs of destinations", "why_tests_cant": "All pairs of process ids cannot be enumerated.", "anchors": ["scalopus_transport/src/transport_unix.cpp: DestinationUnix::hash_code", "scalopus_transport/src/transport_loopback.cpp: DestinationLoopback::hash_code", "scalopus_general/src/endpoint_manager_poll.cpp: connect", "scalopus_interface/src/destination.cpp"]}
{"id": "C60", "title": "Trace events are not lost while no consumer is connected to the sender's transport", "statement": "Events collected by the sender are handed to the transport's broadcast, whole, once; a collection round without events broadcasts nothing.", "quantifier": "all sequences of collection rounds with and without a transport", "why_tests_cant": "Depends on the order of construction and of collection rounds.", "anchors": ["scalopus_tracing/src/native/endpoint_native_trace_sender.cpp: work"]}
{"id": "C61", "title": "The loopback factory discovers its servers and connects to them", "statement": "A loopback factory discovers exactly the servers it made that still exist, each once; connecting to a discovered server gives a new client that this server, and no other, knows; connecting to a server that is gone gives nothing and changes nothing.", "quantifier": "all histories of serving, connecting and dropping transports", "why_tests_cant": "Histories are unbounded.", "anchors": ["scalopus_transport/src/transport_loopback.cpp: TransportLoopbackFactory"]}
{"id": "C62", "title": "Tracing calls during thread exit are safe", "statement": "No history of tracing switches and tracepoints fails, also when they are used by a thread that is exiting, after its own clean-up, for example from destructors of thread_local objects.", "quantifier": "all histories of thread start, tracepoints, switches and exit", "why_tests_cant": "The order of destruction depends on which objects were made first in which thread.", "anchors": ["scalopus_tracing/src/trace_configurator.cpp: getThreadStatePtr", "scalopus_tracing/src/native/native_tracepoint.cpp"]}
{"id": "C63", "title": "A malformed request from a client does not stop the server", "statement": "Whatever bytes a client sends as a request to an endpoint, the server process continues and goes on serving other clients.", "quantifier": "all request payloads of all endpoints", "why_tests_cant": "Payloads are unbounded.", "anchors": ["scalopus_transport/src/transport_unix.cpp: processMsg, work", "scalopus_tracing/src/endpoint_trace_configurator.cpp: handle", "scalopus_tracing/src/endpoint_trace_mapping.cpp: handle", "scalopus_general/src/endpoint_process_info.cpp: handle", "scalopus_general/src/endpoint_introspect.cpp: handle"]}
{"id": "C64", "title": "Reported timestamps keep the order of recorded times", "statement": "The timestamps shown for events, in microseconds as a floating point number, never contradict the order of the recorded nanosecond times, are accurate, and differ for events recorded at different times.", "quantifier": "all pairs of 64 bit nanosecond times", "why_tests_cant": "The range of times is too large to enumerate and rounding errors depend on the magnitude.", "anchors": ["scalopus_tracing/src/native/native_trace_source.cpp: finishInterval", "scalopus_tracing/src/native/native_tracepoint.cpp: nativeGetChrono"]}
{"id": "C65", "title": "Viewer messages and traced names cannot stop the viewer server", "statement": "Whatever message a viewer sends and whatever names the traced processes use, the process that serves viewers continues.", "quantifier": "all message texts and all sets of recorded events", "why_tests_cant": "Messages and names are unbounded.", "anchors": ["scalopus_catapult/src/trace_session.cpp: loop, processMessage, formatEvents"]}
{"id": "C66", "title": "The threads of a viewer session do not race", "statement": "While a session is made, used and destroyed, the web server's thread and the thread of the session never access the same data at once unless both only read or hold its lock; destroying a session always ends.", "quantifier": "all numbers of sources and all interleavings of the two threads", "why_tests_cant": "The racing accesses are a few instructions apart.", "anchors": ["scalopus_catapult/src/trace_session.cpp: TraceSession, ~TraceSession, addSource, incoming, loop", "scalopus_catapult/src/catapult_backend.cpp: makeSession, delSession"]}
{"id": "C67", "title": "Polling can be started and stopped in any order", "statement": "After any sequence of startPolling and stopPolling calls, one thread polls if the last call was startPolling and none otherwise, and the manager can be destroyed.", "quantifier": "all sequences of calls", "why_tests_cant": "Sequences are unbounded.", "anchors": ["scalopus_general/src/endpoint_manager_poll.cpp: startPolling, stopPolling, ~EndpointManagerPoll"]}
{"id": "C68", "title": "An LTTng recording shows every traced event once", "statement": "For any interleaving of events of this library, recorded with the contexts vpid and pthread_id, and events of other tracepoints, a finished LTTng interval contains exactly one entry per event of the library, with its phase, process, thread, name and time, ordered by time, and counter entries carry the value that every series has at that time.", "quantifier": "all sequences of lines printed by babeltrace for events of any processes and threads", "why_tests_cant": "Sequences of events are unbounded.", "anchors": ["scalopus_tracing/src/lttng/lttng_source.cpp: finishInterval, convertEvents", "scalopus_tracing/src/lttng/ctfevent.cpp: CTFEvent"]}
{"id": "C69", "title": "One odd line does not spoil an LTTng recording", "statement": "Lines of babeltrace that are no complete events of this library (warnings, events recorded without the contexts, events of a newer version) do not change what a finished interval shows of the other events.", "quantifier": "all sequences of lines that contain other lines", "why_tests_cant": "Lines are unbounded.", "anchors": ["scalopus_tracing/src/lttng/lttng_source.cpp: convertEvents", "scalopus_tracing/src/lttng/ctfevent.cpp: CTFEvent"]}
{"id": "C70", "title": "Every line that babeltrace prints is passed on", "statement": "Every line that babeltrace has printed is passed to the parser of events once, whole and in order, and without waiting for further output.", "quantifier": "all texts, split into any pieces by the operating system, and all interleavings of babeltrace and the parser", "why_tests_cant": "The way the text is split into pieces depends on timing.", "anchors": ["scalopus_tracing/src/lttng/babeltrace_parser.cpp: process"]}
{"id": "C71", "title": "Halting the LTTng tool returns", "statement": "BabeltraceTool::halt and the destructors of the tool and of the LTTng provider return, whenever they are called and whatever babeltrace does.", "quantifier": "all interleavings of the calling thread, the thread of the parser and the output of babeltrace", "why_tests_cant": "The window between the start of the thread and its first store is a few microseconds.", "anchors": ["scalopus_tracing/src/lttng/babeltrace_tool.cpp: init, halt, ~BabeltraceTool", "scalopus_tracing/src/lttng/babeltrace_parser.cpp: process, halt", "scalopus_tracing/src/lttng/lttng_provider.cpp: ~LttngProvider"]}
{"id": "C72", "title": "The LTTng tool starts and signals babeltrace only", "statement": "Making an LTTng provider leaves one process that runs the program and at most one other that runs babeltrace; halting signals that process only, also if starting it failed.", "quantifier": "all results of fork, dup2 and execvp", "why_tests_cant": "Failures of the operating system are hard to provoke.", "anchors": ["scalopus_tracing/include_consumer/scalopus_tracing/subprocess.hpp: popen::run, popen::child", "scalopus_tracing/src/lttng/babeltrace_tool.cpp: init, halt"]}
{"id": "C73", "title": "Python values survive JSON", "statement": "Converting a Python value made of None, booleans, 64 bit integers, floats, strings, lists and dicts with string keys to JSON and back gives an equal value; a value that JSON cannot hold is refused.", "quantifier": "all Python values of any depth", "why_tests_cant": "Values are unbounded.", "anchors": ["scalopus_python/lib/json_util.cpp: pyToJson, jsonToPy"]}
{"id": "C74", "title": "A Python trace context keeps its own name", "statement": "The name recorded for the id of a Python trace context is the name of that context, however many contexts are made, by whichever threads.", "quantifier": "all histories of contexts made by any threads", "why_tests_cant": "Histories and interleavings are unbounded.", "anchors": ["scalopus_python/scalopus/tracing.py: TraceContext", "scalopus_python/lib/scalopus_tracing.cpp: uniqueTraceId, setTraceName"]}
{"id": "C75", "title": "Python scopes are balanced", "statement": "Once a thread has left all functions decorated with traced or suppressed, by return or exception, every scope entry it recorded has its exit, properly nested.", "quantifier": "all call trees of decorated functions, all interleavings of threads", "why_tests_cant": "Call trees and interleavings are unbounded.", "anchors": ["scalopus_python/scalopus/tracing.py: traced, suppressed, TraceContext, ThreadStateSwitcher"]}
{"id": "C76", "title": "Calls of the manager from Python return", "statement": "Every call that a Python thread makes on the polling manager (starting and stopping the polling, listing endpoints, adding factories and sources) can always still return, also while the manager polls in its own thread and calls Python loggers or factories.", "quantifier": "all interleavings of any number of Python threads and the polling thread", "why_tests_cant": "The deadlock needs a call in the short time in which the polling thread has locked its mutex and waits for the interpreter.", "anchors": ["scalopus_python/lib/scalopus_general.cpp: EndpointManagerPoll bindings", "scalopus_general/src/endpoint_manager_poll.cpp: startPolling, stopPolling, manage, endpoints, addEndpointFactory"]}
{"id": "C77", "title": "Data sent and answered by Python endpoints is exact", "statement": "A request made from Python sends exactly the bytes that its argument denotes (bytes, text as UTF-8, a list of numbers from 0 to 255) or is refused; an answer given by a Python endpoint arrives exactly; whatever a Python handler does, the server goes on.", "quantifier": "all Python objects, all handlers, all histories of requests", "why_tests_cant": "Objects and histories are unbounded.", "anchors": ["scalopus_python/lib/scalopus_interface.cpp: pyToData, PendingResponse, PyEndpoint", "scalopus_transport/src/transport_loopback.cpp: work"]}
{"id": "C78", "title": "Waiting for an answer in Python is safe", "statement": "wait_for on a pending response gives the answer once it is there and None before, may be repeated, and touches Python objects only while it holds the interpreter lock.", "quantifier": "all answers, all points at which the answer arrives, all numbers of waits", "why_tests_cant": "The interpreter rarely fails at once when objects are touched without its lock.", "anchors": ["scalopus_python/lib/scalopus_interface.cpp: PendingResponse::wait_for, getData"]}
{"id": "C79", "title": "Calls on a loopback transport from Python return", "statement": "A request that a Python thread makes on a loopback transport, and the destruction of the transport, can always still return, also if the server's endpoints are written in Python.", "quantifier": "all interleavings of any number of Python threads and the thread of the transport", "why_tests_cant": "The deadlock depends on the moment at which the transport's thread asks for the interpreter lock.", "anchors": ["scalopus_python/lib/scalopus_interface.cpp: Transport bindings", "scalopus_transport/src/transport_loopback.cpp: request, work, ~TransportLoopback"]}
{"id": "C80", "title": "The trace context helper gives one context per name", "statement": "trace_section.name and trace_section(name) give a context with the helper's prefix and that name; the same name always gives the same context and different names never share one.", "quantifier": "all names, prefixes and histories of lookups by any threads", "why_tests_cant": "Names and histories are unbounded.", "anchors": ["scalopus_python/scalopus/tracing.py: TraceContextHelper, trace_section, trace_count"]}
{"id": "C81", "title": "trace_configure sets exactly the switches asked for", "statement": "The command trace_configure switches, in every process that serves the configurator, the process switch and the thread switches of exactly the ids given on the command line (and the process switches of the other processes if -u is given), leaves all others as they were, and lists every such process with its state afterwards.", "quantifier": "all command lines, all sets of processes and threads with any history, all answering times", "why_tests_cant": "Histories, processes and delays are unbounded.", "anchors": ["scalopus_python/scalopus/__main__.py: run_trace_configure", "scalopus_python/lib/scalopus_tracing.cpp: EndpointTraceConfigurator bindings", "scalopus_tracing/src/endpoint_trace_configurator.cpp: setTraceState", "scalopus_general/src/endpoint_process_info.cpp: processInfo"]}
{"id": "C82", "title": "discover lists every process", "statement": "The command discover lists every process that can be reached once, in the order of the process ids, with its name, endpoints and threads.", "quantifier": "all sets of processes, all answering times", "why_tests_cant": "Processes and delays are unbounded.", "anchors": ["scalopus_python/scalopus/__main__.py: run_discover", "scalopus_general/src/endpoint_process_info.cpp: processInfo"]}
{"id": "C83", "title": "record prints all recorded events as JSON", "statement": "The command record prints a JSON array of exactly the events that its two sources give, native events first, also if one of the sources fails.", "quantifier": "all events of any depth with any strings, all ways in which the sources end", "why_tests_cant": "Events and strings are unbounded; every character has to be escaped so that it is read back.", "anchors": ["scalopus_python/scalopus/__main__.py: run_record", "scalopus_python/lib/json_util.cpp: jsonToPy"]}
{"id": "C84", "title": "The server listens on the port asked for", "statement": "Both programs that start a server for the viewer listen on the port given on the command line, 9222 if none is given.", "quantifier": "all command lines and ports", "why_tests_cant": "Ports and texts are too many to try, and tests use the default.", "anchors": ["scalopus_catapult/src/scalopus_catapult_server.cpp: main", "scalopus_catapult/src/catapult_server.cpp: start", "scalopus_python/scalopus/__main__.py: run_catapult_server"]}
{"id": "C85", "title": "Starting and destroying the server", "statement": "Every call on a server for the viewer returns, in any order, and so does its destructor; the settings made before start are used; once start has returned the server listens.", "quantifier": "all histories of calls, all ports and results of listening", "why_tests_cant": "Histories are unbounded.", "anchors": ["scalopus_catapult/src/catapult_server.cpp: CatapultServer, start, setMaxBuffersize, setLogger, addProvider, ~CatapultServer"]}
{"id": "C86", "title": "The server's pages are right for every address", "statement": "The version page is JSON and names a websocket that the server has; every address that begins with /json/list gives a JSON array of one target; all other addresses are left alone.", "quantifier": "all addresses", "why_tests_cant": "Addresses are unbounded.", "anchors": ["scalopus_catapult/src/catapult_backend.cpp: handle", "scalopus_catapult/src/catapult_server.cpp: start"]}
{"id": "C87", "title": "A server owned by Python is destroyed safely", "statement": "When Python drops its last reference to a server for the viewer, the destruction can always still return, and the thread of the server touches Python objects only with the interpreter lock, also if a Python logger was set.", "quantifier": "all interleavings of any number of Python threads, the server's thread and connections", "why_tests_cant": "The deadlock depends on the moment at which a connection opens.", "anchors": ["scalopus_python/lib/scalopus_catapult.cpp: setLogger", "scalopus_catapult/src/catapult_server.cpp: ~CatapultServer", "scalopus_catapult/src/catapult_backend.cpp: onConnect, makeSession"]}
{"id": "C88", "title": "Threads that share an endpoint manager do not race", "statement": "Any number of threads may use a polling manager at the same time, of which one sets the logger and starts and stops the polling: there is no data race on the manager's data, and the process is not terminated.", "quantifier": "all numbers of threads, all interleavings of their steps, all histories of calls, everything manage can find", "why_tests_cant": "A race shows up only in some interleavings, and often not even then.", "anchors": ["scalopus_general/src/endpoint_manager_poll.cpp: manage, connect, startPolling, stopPolling, work, endpoints, addEndpointFactory, setLogger, log"]}
{"id": "C89", "title": "Functions given to an endpoint manager may use it", "statement": "The logger and the endpoint factories given to a polling manager may call the manager; every call of every thread, including stopPolling and the destructor, can always still return.", "quantifier": "all numbers of threads, all interleavings, all calls made by loggers and factories", "why_tests_cant": "Whether a call hangs depends on the interleaving and on what the functions do.", "anchors": ["scalopus_general/src/endpoint_manager_poll.cpp: manage, connect, log, stopPolling, work"]}
{"id": "C90", "title": "Events of a Python source reach the viewer", "statement": "The events that a trace event source written in Python returns at the end of an interval arrive at the viewer and in the recorder's file, each with the value that was returned, in the same order, after the events of the sources before it and before those of the sources after it.", "quantifier": "all lists of values made of None, booleans, 64-bit integers, doubles, strings, lists and dictionaries with string keys, nested to any depth; all events of other sources", "why_tests_cant": "The values that a program can return are unbounded; tests use a few.", "anchors": ["scalopus_python/lib/scalopus_interface.cpp: PyTraceEventSource::finishInterval", "scalopus_python/lib/json_util.cpp: from_python", "scalopus_catapult/src/trace_session.cpp: processMessage", "scalopus_catapult/src/catapult_recorder.cpp: collectEvents"]}
{"id": "C91", "title": "A Python source cannot stop the server", "statement": "Whatever a trace event source or provider written in Python does, the program of the viewer's server or recorder goes on, and the events of the other sources arrive.", "quantifier": "all outcomes of the methods of a source (missing, raising, any return value) and of makeSource", "why_tests_cant": "Every value of Python can be returned.", "anchors": ["scalopus_python/lib/scalopus_interface.cpp: PyTraceEventSource, PyTraceEventProvider", "scalopus_catapult/src/trace_session.cpp: loop, processMessage", "scalopus_catapult/src/catapult_recorder.cpp: ~CatapultRecorder"]}
{"id": "C92", "title": "Threads that share a unix transport do not race", "statement": "Any number of threads may use a unix transport at the same time, while its worker runs, of which one sets the logger and destroys it when the others have finished: there is no data race on its data, and messages that are written to a socket are not mixed.", "quantifier": "all numbers of threads, all interleavings of their steps, all histories of calls, everything that can arrive, everything that endpoints do", "why_tests_cant": "A race shows up only in some interleavings, and often not even then.", "anchors": ["scalopus_transport/src/transport_unix.cpp: request, isConnected, ~TransportUnix, work, processMsg, pendingRequests", "scalopus_interface/src/transport.cpp: addEndpoint, endpoints, getEndpoint, broadcast, popBroadcast, haveBroadcast, setLogger"]}
{"id": "C93", "title": "Endpoints may use the transport they are called by", "statement": "An endpoint may, when it handles a message, call the transport that it was called by; every call of every thread, including the destructor, can always still return.", "quantifier": "all numbers of threads, all interleavings, all calls made by endpoints", "why_tests_cant": "Whether a call hangs depends on the interleaving and on what the endpoints do.", "anchors": ["scalopus_transport/src/transport_unix.cpp: work, processMsg, ~TransportUnix", "scalopus_interface/src/transport.cpp: addEndpoint, endpoints, getEndpoint", "scalopus_interface/include/scalopus_interface/endpoint.h: handle, unsolicited"]}
{"id": "C94", "title": "The end of a connection is noticed", "statement": "A client says that it is connected while its server is there. Once the server is gone, the client takes what was sent before, then says that it is not connected, for good; requests made later fail at once, and requests that are still waiting fail.", "quantifier": "all histories of requests, broadcasts and messages, all interleavings, all times at which the server goes", "why_tests_cant": "Servers can go at any point of any exchange.", "anchors": ["scalopus_transport/src/transport_unix.cpp: work, isConnected, request, ~TransportUnix"]}
{"id": "C95", "title": "A client does not hold up the others", "statement": "Whatever one client of a server does or does not do, the server's answers to its other clients are still sent, and the server can be destroyed.", "quantifier": "all numbers of clients, all sizes of messages and of the kernel's buffers, all interleavings, all behaviours of one client", "why_tests_cant": "Needs a client that misbehaves at the right moment, and messages larger than the kernel's buffers.", "anchors": ["scalopus_transport/src/transport_unix.cpp: work, ~TransportUnix", "scalopus_transport/src/protocol.cpp: readData, send, receive"]}
{"id": "C96", "title": "Transports and endpoints may be released in any order", "statement": "Transports and endpoints are shared: whoever holds one may use it, whatever others have released, and the last to release one destroys it safely, with the threads that belong to it.", "quantifier": "all numbers of transports and endpoints, all histories of making, adding, holding, releasing and using them, all interleavings with the threads of trace senders", "why_tests_cant": "A pointer to something destroyed often still seems to work, and the order of releases is up to the program.", "anchors": ["scalopus_interface/include/scalopus_interface/endpoint.h: transport_", "scalopus_interface/src/endpoint.cpp: setTransport", "scalopus_interface/src/transport.cpp: addEndpoint", "scalopus_tracing/src/native/endpoint_native_trace_sender.cpp: work, ~EndpointNativeTraceSender"]}
{"id": "C97", "title": "Loopback transports may be made and released at any time", "statement": "Clients of a loopback server may connect, and references to the server and its clients be dropped, by any thread at any time, while broadcasts are delivered; each is destroyed when its last reference is dropped.", "quantifier": "all numbers of clients, all histories of connecting, holding and releasing, all interleavings with the server's worker", "why_tests_cant": "Needs a client that connects or is dropped just while a broadcast is delivered.", "anchors": ["scalopus_transport/src/transport_loopback.cpp: addClient, connect, work, ~TransportLoopback"]}
{"id": "C98", "title": "Endpoints may use loopback clients", "statement": "An endpoint that handles a request made through a loopback client may itself make requests through loopback clients; every call can always still return.", "quantifier": "all numbers of clients, all interleavings, all histories, all uses of clients by endpoints", "why_tests_cant": "Whether workers wait for each other depends on what endpoints do and on the interleaving.", "anchors": ["scalopus_transport/src/transport_loopback.cpp: work, request, pendingRequests"]}
{"id": "C99", "title": "The transport touches only its own descriptors", "statement": "Whatever clients and servers do and whatever files other threads of the process open and close, a unix transport closes and shuts down only its own sockets, leaves none open when it is destroyed, and never does anything undefined, however many descriptors the process has.", "quantifier": "all interleavings of the worker with other threads that open and close files, all descriptor numbers", "why_tests_cant": "The harm needs another thread to open a file within the few instructions between two system calls, or more than a thousand open files.", "anchors": ["scalopus_transport/src/transport_unix.cpp: TransportUnix::work, ~TransportUnix"]}
{"id": "C100", "title": "A transport works with every descriptor it is given", "statement": "A unix server works until it is destroyed, and a transport that was created says that it is connected, whatever numbers the kernel gives to its sockets.", "quantifier": "all descriptor numbers, all histories of connections", "why_tests_cant": "Tests run with standard input open, so descriptor 0 never occurs.", "anchors": ["scalopus_transport/src/transport_unix.cpp: TransportUnix::work, TransportUnix::isConnected", "scalopus_transport/src/transport_unix.h: server_fd_, client_fd_"]}
{"id": "C101", "title": "What LTTng tracepoints record reaches the viewer", "statement": "Every call of an LTTng tracepoint that records is shown by a finished interval as exactly one entry, with the phase that the trace event format has for this kind of tracepoint, its process, thread, time and registered name, and for counters the values; the native backend shows the same kinds.", "quantifier": "all calls of all processes and threads, mixed with lines of other tracepoints", "why_tests_cant": "Calls, values, names and interleavings are unbounded.", "anchors": ["scalopus_tracing/src/lttng/lttng_tracepoint.cpp", "scalopus_tracing/src/lttng/scope_tracepoint_lttng_definition.h", "scalopus_tracing/src/lttng/ctfevent.cpp", "scalopus_tracing/src/lttng/lttng_source.cpp: finishInterval"]}
{"id": "C102", "title": "Calls on a unix transport from Python return", "statement": "A Python program may add endpoints to a unix transport, make requests and drop the transport, from any of its threads and whatever arrives; every such call can always still return, also if endpoints are written in Python.", "quantifier": "all interleavings of any number of Python threads with the worker of the transport, all messages that can arrive", "why_tests_cant": "Which thread has the interpreter lock when a message arrives depends on the schedule.", "anchors": ["scalopus_python/lib/scalopus_interface.cpp: addEndpoint, request, PyEndpoint::getName, PyEndpoint::handle, PyEndpoint::unsolicited", "scalopus_transport/src/transport_unix.cpp: work, request, ~TransportUnix", "scalopus_interface/src/transport.cpp: addEndpoint"]}
{"id": "C103", "title": "A server with providers written in Python is destroyed safely", "statement": "When Python drops its last reference to a server for the viewer, the destruction can always still return, also if the server has providers and sources written in Python and viewers are connected.", "quantifier": "all interleavings of any number of Python threads, the server's thread and the threads of sessions; all numbers of viewers that connect, record and disconnect at any time", "why_tests_cant": "Needs viewers that are connected when the program ends.", "anchors": ["scalopus_catapult/src/catapult_server.cpp: ~CatapultServer", "scalopus_catapult/src/catapult_backend.cpp: makeSession, delSession", "scalopus_catapult/src/trace_session.cpp: ~TraceSession, loop", "scalopus_python/lib/pybind_fix.h: type_caster<std::shared_ptr<scalopus::TraceEventSource>>", "scalopus_python/lib/scalopus_interface.cpp: PyTraceEventProvider::makeSource, PyTraceEventSource"]}
{"id": "C104", "title": "A server that has ended is not found any more, and its clients notice", "statement": "Discovery reports only processes that have a server. When a server is destroyed or its process ends, each of its clients notices the end of its connection, and a program that has no server can always get one, also again.", "quantifier": "all histories of any number of processes that start, start other programs, serve, accept, destroy their server and end; all numbers of clients", "why_tests_cant": "Depends on which processes were started by which others before the server ended.", "anchors": ["scalopus_transport/src/transport_unix.cpp: serve, work, ~TransportUnix, getTransportServers", "scalopus_tracing/include_consumer/scalopus_tracing/subprocess.hpp: run, child"]}
{"id": "C105", "title": "Warnings of babeltrace do not hold up the recording", "statement": "However many warnings babeltrace writes while it prints the events of a session, every line that it prints reaches the sources, in order.", "quantifier": "all outputs of babeltrace, lines and warnings of any size in any order; all capacities of pipes; all interleavings of babeltrace and the parser", "why_tests_cant": "Needs more warnings than a pipe holds, in the middle of a recording.", "anchors": ["scalopus_tracing/include_consumer/scalopus_tracing/subprocess.hpp: popen, child", "scalopus_tracing/src/lttng/babeltrace_tool.cpp: init", "scalopus_tracing/src/lttng/babeltrace_parser.cpp: process"]}
{"id": "C106", "title": "A client and a server do not block each other", "statement": "Whatever a client and a server send each other at the same time, requests, answers and broadcasts of any size, the calls that are being made can return, and both can be destroyed.", "quantifier": "all sizes of the buffers of sockets, all numbers and sizes of messages, all interleavings of the two workers and the threads that make requests", "why_tests_cant": "Needs both sides to write more than a buffer holds at the same time.", "anchors": ["scalopus_transport/src/transport_unix.cpp: work, request, ~TransportUnix", "scalopus_transport/src/protocol.cpp: send, readData"]}
{"id": "C107", "title": "Nothing is recorded for viewers that have left", "statement": "When the connection of a viewer closes, the data recorded for it is released, and batches that arrive later are not stored for it.", "quantifier": "all histories of any number of viewers that connect, start and end tracing and leave, of their sessions' threads, and of arriving batches", "why_tests_cant": "Depends on what the viewer's session had handled when the connection closed, and on everything that arrives afterwards.", "anchors": ["scalopus_tracing/src/native/native_trace_provider.cpp: makeSource, incoming", "scalopus_catapult/src/trace_session.cpp: ~TraceSession, processMessage", "scalopus_catapult/src/catapult_backend.cpp: onConnect, onDisconnect"]}
{"id": "C108", "title": "What a Python program no longer uses is released", "statement": "Managers, transports, endpoints, providers and factories to which no variable of a Python program leads are released: managers stop polling, transports close. weak_provider_endpoint_factory() makes a factory that does not keep its provider.", "quantifier": "all programs: all histories of making objects, setting and deleting attributes, adding factories and endpoints, connecting and dropping variables", "why_tests_cant": "Concerns every graph of references a program can build.", "anchors": ["scalopus_python/lib/pybind_fix.h: type_caster", "scalopus_python/lib/scalopus_interface.cpp: addEndpointFactory", "scalopus_python/scalopus/general.py: weak_provider_endpoint_factory", "scalopus_general/include_consumer/scalopus_general/general_provider.h: manager_"]}
{"id": "C109", "title": "Endpoints written in Python get their messages", "statement": "A message for an endpoint of a Python class that has the method for it leads to a call of that method, once and in order, and the Python object of a transport can be used as long as the program has it.", "quantifier": "all histories of a transport made by Python or by a manager: references copied and dropped, endpoints added, messages, the manager letting go", "why_tests_cant": "Depends on which Python objects exist at the moment a message arrives.", "anchors": ["scalopus_python/lib/scalopus_interface.cpp: PyEndpoint::handle, PyEndpoint::unsolicited, getTransport, addEndpointFactory", "scalopus_general/src/endpoint_manager_poll.cpp: connect", "scalopus_transport/src/transport_unix.cpp: work"]}
{"id": "C110", "title": "The tool reaches every Python program with a DefaultExposer", "statement": "A Python program that makes a DefaultExposer is listed by 'discover' with its name, threads and endpoints, recorded by 'record' and 'catapult_server', and switched by 'trace_configure' when it is named.", "quantifier": "all command lines, all sets of running processes with any further endpoints, in any order", "why_tests_cant": "Depends on which endpoints every running process serves and which ones each command of the tool asks for.", "anchors": ["scalopus_python/scalopus/common.py: DefaultExposer", "scalopus_python/scalopus/__main__.py: run_discover, run_trace_configure", "scalopus_general/src/endpoint_manager_poll.cpp: manage", "scalopus_general/src/endpoint_introspect.cpp: supported"]}
{"id": "C111", "title": "A viewer server can be set up while it runs", "statement": "addProvider and setLogger may be called on a CatapultServer at any time. A viewer that connects gets a source of every provider added until then and the logger set last.", "quantifier": "all interleavings of the owner's calls with the web thread's handling of connections, disconnections and messages", "why_tests_cant": "Concerns all schedules of two threads.", "anchors": ["scalopus_catapult/src/catapult_server.cpp: start, addProvider, setLogger", "scalopus_catapult/src/catapult_backend.cpp: addProvider, setLogger, onConnect, onData, getSession"]}
{"id": "C112", "title": "Signal handlers do not disturb transports", "statement": "A signal that is handled by a thread of a transport while it waits has no effect on the transport: it stays connected with everybody, serves what arrives, and its destructor returns.", "quantifier": "all sets of connections, all pending requests, all positions and numbers of signals in the rounds of the worker", "why_tests_cant": "Concerns interruptions of system calls at every point of every history.", "anchors": ["scalopus_transport/src/transport_unix.cpp: TransportUnix::work", "scalopus_transport/src/protocol.cpp: protocol::receive"]}
{"id": "C113", "title": "A message that could not be sent does not affect others", "statement": "If sending a request, answer or broadcast fails because the system does not accept all of it, that one is lost and the others on the same connection arrive and are matched as if it had not been made.", "quantifier": "all messages, all connections, all numbers of bytes that the system accepts of each", "why_tests_cant": "Concerns every byte position at which a send breaks off and everything sent afterwards.", "anchors": ["scalopus_transport/src/protocol.cpp: protocol::send", "scalopus_transport/src/protocol.cpp: protocol::receive", "scalopus_transport/src/transport_unix.cpp: TransportUnix::request, TransportUnix::work"]}
{"id": "C114", "title": "Swapping the tracing backend keeps scopes whole", "statement": "Every scope that a Python program enters and leaves is recorded by one backend, with one entry and one exit, whenever setBackend is called.", "quantifier": "all histories of entering and leaving scopes and of setting backends, by all threads", "why_tests_cant": "The swap may come between any two tracepoints of any nesting of scopes.", "anchors": ["scalopus_python/scalopus/tracing.py: setBackend, TraceContext"]}
{"id": "C115", "title": "A factory function that fails affects only its own endpoint", "statement": "A Python function registered with addEndpointFactory that returns None, returns something that is no endpoint or raises, leaves out this endpoint of this server only: all other endpoints of all servers are made in the same round and polling goes on.", "quantifier": "all lists of servers, all sets of factories, all outcomes of the functions", "why_tests_cant": "The position of the failing factory among all servers and endpoints matters.", "anchors": ["scalopus_python/lib/scalopus_interface.cpp: addEndpointFactory", "scalopus_general/src/endpoint_manager_poll.cpp: connect, manage"]}
{"id": "C116", "title": "Events keep their names when the process ends", "statement": "An event of a traced process that was recorded is shown with the name its process registered for it, also if that process has ended before the recording is shown.", "quantifier": "all histories of processes starting, registering names, tracing and ending, and all reuses of process ids", "why_tests_cant": "Needs all orders of ends of processes, rounds of the manager and finished recordings.", "anchors": ["scalopus_tracing/src/scope_tracing_provider.cpp: updateMapping, getScopeName", "scalopus_tracing/src/native/native_trace_source.cpp: finishInterval", "scalopus_general/src/endpoint_manager_poll.cpp: manage"]}
{"id": "C117", "title": "A loopback server that was dropped is not found any more", "statement": "After the owner of a loopback server has dropped it, the server is no longer discovered and its process's endpoints disappear from the manager, and a manager survives servers that are dropped at any time.", "quantifier": "all histories of making, serving and dropping loopback servers, by any number of servers, and of rounds of a manager, cut at any point of a round", "why_tests_cant": "A server may be dropped between discovery and connection.", "anchors": ["scalopus_transport/src/transport_loopback.cpp: isConnected, TransportLoopbackFactory::discover, TransportLoopbackFactory::connect", "scalopus_general/src/endpoint_manager_poll.cpp: manage, connect"]}
{"id": "C118", "title": "Tracing and collecting do not wait for each other", "statement": "A tracepoint of a thread that has its buffer returns after a fixed number of its own steps, whatever the collecting thread does or does not do, and the same holds for collecting.", "quantifier": "all sizes of the buffer, all histories, all schedules of the two threads, including those in which one of them is suspended for good at any point", "why_tests_cant": "Needs every point at which the other thread may be suspended.", "anchors": ["scalopus_tracing/src/spsc_ringbuffer.h: push, pop, pop_into, size", "scalopus_tracing/src/native/native_tracepoint.cpp: scope_entry, scope_exit, mark_event, count_event"]}
{"id": "C119", "title": "A process may be exposed over several transports", "statement": "If a process adds a native trace sender to each of several transports, the consumers of each transport get every event, once, in order, and nothing else.", "quantifier": "all numbers of senders, all sizes of the buffer, all events, all interleavings of the accesses of the senders to the buffer with tracepoints", "why_tests_cant": "Depends on the interleaving of the senders' accesses to shared indices.", "anchors": ["scalopus_tracing/src/native/endpoint_native_trace_sender.cpp: work", "scalopus_tracing/src/spsc_ringbuffer.h: size, pop_into, push", "scalopus_tracing/src/native/tracepoint_collector_native.h: StaticTraceEvent"]}
{"id": "C120", "title": "Tracing does not change what a Python program does", "statement": "A Python program with traced and suppressed functions and trace sections ends as the same program without them, with the same value or the same exception, and has had the same effects, whatever the state of the tracing switches.", "quantifier": "all programs with conditions, loops by recursion, exceptions, returns, handlers and cleanup, all ways of decorating functions and wrapping statements, all initial tracing states, all depths of calls; as long as trace ids are left and sections are not named after attributes of the helper", "why_tests_cant": "Every way in which a body can end inside any nesting of contexts.", "anchors": ["scalopus_python/scalopus/tracing.py: TraceContext, TraceContextHelper, traced, ThreadStateSwitcher, suppressed", "scalopus_python/lib/scalopus_tracing.cpp: uniqueTraceId, setTraceName, setThreadState", "scalopus_tracing/src/native/native_tracepoint.cpp: scope_entry, scope_exit"]}
{"id": "C121", "title": "Events of programs that fork", "statement": "Every event is sent at most once and under the id of the process in which it happened; a process made with fork that sets up tracing has its events sent and answers with its own process id.", "quantifier": "all histories of processes, threads, tracepoints, senders and forks, at every point of each thread and of the collection", "why_tests_cant": "A fork can come at any point of what the other threads do.", "anchors": ["scalopus_tracing/src/native/tracepoint_collector_native.cpp: getInstance, getBuffer, getActiveMap", "scalopus_tracing/src/native/endpoint_native_trace_sender.cpp: EndpointNativeTraceSender, work, process_events", "scalopus_general/include/scalopus_general/map_tracker.h: insert, getMap, exists", "scalopus_general/src/endpoint_process_info.cpp: EndpointProcessInfo, handle"]}
{"id": "C122", "title": "A program that traces may end at any time", "statement": "However a traced program ends - main returns with or without other threads, with global objects that trace, serve or name threads - no call into the library uses an object that has been destroyed.", "quantifier": "all histories of threads, first and later uses of the static and thread-local objects of the library, global objects with their threads, and the destruction in reverse order of construction at the end", "why_tests_cant": "The order of destruction depends on which of the objects was used first, in every history.", "anchors": ["scalopus_tracing/src/trace_configurator.cpp: getInstance, getThreadStatePtr", "scalopus_tracing/src/native/tracepoint_collector_native.cpp: getInstance, getBuffer", "scalopus_tracing/src/native/native_tracepoint.cpp: scope_entry, scope_exit", "scalopus_tracing/src/static_string_tracker.cpp: getInstance", "scalopus_general/src/thread_name_tracker.cpp: getInstance, setCurrentName", "scalopus_general/include/scalopus_general/destructor_callback.h: DestructorCallback"]}
{"id": "C123", "title": "The name of a process may be set at any time", "statement": "setProcessName may be called at any time from any thread, and every answer gives the name that was set last before it.", "quantifier": "all histories of names set by any threads and requests answered over any transports, with and without Python's lock", "why_tests_cant": "A request can be answered at any point of the assignment.", "anchors": ["scalopus_general/src/endpoint_process_info.cpp: setProcessName, handle", "scalopus_python/lib/scalopus_general.cpp: setProcessName"]}
{"id": "C124", "title": "None in place of an object", "statement": "Where a function of the Python library takes an object of the library, a program that gives None gets an exception or a harmless result, at that call and at all later ones.", "quantifier": "all histories of calls with objects or None for endpoints, factories, managers, providers, destinations, transports, loggers and data", "why_tests_cant": "The pointer is kept and used by a later call, also of another object and in another thread.", "anchors": ["scalopus_interface/src/transport.cpp: addEndpoint", "scalopus_general/src/endpoint_manager_poll.cpp: EndpointManagerPoll, manage", "scalopus_general/src/general_provider.cpp: updateMapping", "scalopus_tracing/src/scope_tracing_provider.cpp: updateMapping", "scalopus_catapult/src/catapult_backend.cpp: onConnect, makeSession", "scalopus_python/lib/scalopus_catapult.cpp: setLogger, addProvider", "scalopus_transport/src/transport_unix.cpp: TransportUnixFactory::connect"]}
{"id": "C125", "title": "A traced Python program records what it enters and leaves", "statement": "A Python program with traced and suppressed functions and trace sections that ends, in whichever way, has recorded exactly the sections and traced functions it entered and left, in that order and properly nested, if tracing was on, and nothing if it was off; suppressed functions and what they call record nothing; every section name has one id, different names have different ids, and the tracing state is as before.", "quantifier": "all programs with conditions, recursion, exceptions, returns, handlers and cleanup, all ways of decorating functions and wrapping statements, in which no suppressed function calls itself (C56 is about those); as long as trace ids are left and sections are not named after attributes of the helper", "why_tests_cant": "Every way in which nested bodies can end, through any depth of calls.", "anchors": ["scalopus_python/scalopus/tracing.py: TraceContext, TraceContextHelper, traced, ThreadStateSwitcher, suppressed", "scalopus_python/lib/scalopus_tracing.cpp: uniqueTraceId, setTraceName, setThreadState", "scalopus_tracing/src/native/native_tracepoint.cpp: scope_entry, scope_exit"]}
{"id": "C126", "title": "Queries and answers are read back as they were written", "statement": "What the writer of queries and answers writes is read back by the reader as the same value, whatever bytes its strings hold; exactly objects whose integers fit 64 bits and whose names have no zero byte are written, everything else is refused by an exception; no part of a message and nothing longer than a message is taken for a message.", "quantifier": "all values with strings of less than two gigabytes and different names, nested as deeply as the reader's stack allows; all places at which a message can be cut, and everything that can follow it", "why_tests_cant": "Values of any size and nesting, and every byte string that is not a message.", "anchors": ["scalopus_general/src/endpoint_process_info.cpp: handle, processInfo", "scalopus_general/src/endpoint_introspect.cpp: handle, supported", "scalopus_tracing/src/endpoint_trace_mapping.cpp: handle, mapping", "scalopus_tracing/src/endpoint_trace_configurator.cpp: handle, setTraceState, getTraceState"]}
{"id": "C127", "title": "No message makes the reader of queries run out of stack", "statement": "Whatever bytes arrive as a query or an answer, reading them yields a value or an error.", "quantifier": "all byte strings and all sizes of the stack", "why_tests_cant": "The depth of the nesting is chosen by the sender.", "anchors": ["scalopus_general/src/endpoint_process_info.cpp: handle, processInfo", "scalopus_tracing/src/endpoint_trace_configurator.cpp: handle"]}
{"id": "C128", "title": "What the built-in endpoints serve arrives byte for byte", "statement": "A client that asks a server over the bytes of the transport for its process information, its endpoints, the names of its tracepoints or its switches gets exactly what the server has, whatever bytes the names hold; setting switches has exactly the effect of C25; a cut query or answer never yields a part of it.", "quantifier": "all process ids, names, thread ids, tracepoint ids, states of the switches and commands; all places at which a message can be cut", "why_tests_cant": "All tables and names, through writing, handling and reading of the bytes.", "anchors": ["scalopus_general/src/endpoint_process_info.cpp: handle, processInfo", "scalopus_general/src/endpoint_introspect.cpp: handle, supported", "scalopus_tracing/src/endpoint_trace_mapping.cpp: handle, mapping", "scalopus_tracing/src/endpoint_trace_configurator.cpp: handle, setTraceState, getTraceState, to_json, from_json"]}
{"id": "C129", "title": "An ended recording reaches the viewer whole", "statement": "When a viewer ends a recording it gets the reply, every event once and in order, and the completion message; whatever it gets is always a beginning of what was sent, and no message is cut, changed, repeated or left out before another.", "quantifier": "all recordings, sizes of the buffer of the connection, and orders in which the server sends and the viewer reads", "why_tests_cant": "The outcome depends on how the reading of the viewer interleaves with the sending, and on the size of the recording.", "anchors": ["scalopus_catapult/src/catapult_backend.cpp: makeSession", "scalopus_catapult/src/catapult_server.cpp: start, setMaxBuffersize", "scalopus_catapult/src/trace_session.cpp: chunkedTransmit, processMessage"]}
{"id": "C130", "title": "A query tells what the process had during the query", "statement": "An answer that a client gets to a query for the process information, the endpoints or the names of tracepoints is exactly what the process had at one moment between the sending of the query and the arrival of the answer, however the threads of the process go on meanwhile. A command to the switches that is answered has its effect at such a moment, on the switches that it names and on no other, and what its answer shows of a switch is what it was then. No query is handled twice.", "quantifier": "all processes, all histories of what they have, all numbers of clients and of concurrent queries of each, all schedules of their steps", "why_tests_cant": "A stale or mixed answer appears only under particular interleavings of the changes in the process with the queries of several clients.", "anchors": ["scalopus_transport/src/transport_unix.cpp: request, work, processRequest", "scalopus_general/src/endpoint_process_info.cpp: handle, processInfo", "scalopus_general/src/endpoint_introspect.cpp: handle, supported", "scalopus_tracing/src/endpoint_trace_mapping.cpp: handle, mapping", "scalopus_tracing/src/endpoint_trace_configurator.cpp: handle, setTraceState, getTraceState"]}
{"id": "C131", "title": "A configuration built in Python is the one that is sent", "statement": "A Python program that builds configurations of the tracing switches, by assigning to their attributes, to their dict of threads as a whole or to single entries of it, by adding entries and by copying from other configurations, sends with each call of setTraceState exactly what it has written, and this sets the switches that are named and no others. A statement that raises changes nothing.", "quantifier": "all programs of such statements, all values, all numbers of configurations, all states of the process that is asked", "why_tests_cant": "Programs and values are unbounded, and whether a statement had an effect shows only in what a later call sends.", "anchors": ["scalopus_python/lib/scalopus_tracing.cpp: TraceConfiguration, setTraceState, add_thread_entry", "scalopus_tracing/src/endpoint_trace_configurator.cpp: setTraceState, handle", "scalopus_tracing/include/scalopus_tracing/endpoint_trace_configurator.h: TraceConfiguration"]}
{"id": "C132", "title": "Endpoint classes written in Python may leave out methods", "statement": "A class derived from Endpoint in Python may define any of its methods and leave out others. addEndpoint either raises and has no effect, which is so exactly if the class gives no name, or the endpoint is found under its name and knows its transport. Messages reach the endpoint that was added last under their name. A method that is left out answers nothing; one that is defined answers exactly what it returns.", "quantifier": "all classes, all results of their methods, all histories of adding endpoints to transports, all messages", "why_tests_cant": "Which methods are called depends on the class and on the history; both are unbounded.", "anchors": ["scalopus_python/scalopus/interface.py: Endpoint", "scalopus_python/lib/scalopus_interface.cpp: PyEndpoint", "scalopus_interface/src/transport.cpp: addEndpoint, getEndpoint", "scalopus_interface/src/endpoint.cpp: handle, unsolicited, setTransport"]}
{"id": "C133", "title": "Messages that threads send at the same time arrive one by one", "statement": "Messages that any number of threads send over one connection at the same time are received whole, unmixed, and in the order in which their sending began, whatever the moments at which the receiver reads: if no name and no payload is longer than what the system passes on at once, the received messages are at every moment a beginning of the sent ones, and all have been received when nobody can continue, which is the case after a bounded number of steps.", "quantifier": "all messages, all numbers of threads, all interleavings of the calls of send and read, all block sizes of the system", "why_tests_cant": "Only a reader that is ahead of the writer in the middle of a message, or two writers at the same time, shows a mistake; the interleavings of single calls are unbounded.", "anchors": ["scalopus_transport/src/protocol.cpp: send, receive, readData", "scalopus_transport/src/transport_unix.cpp: request, work (write_lock_)"]}
{"id": "C134", "title": "Decorated generators and coroutines are traced like functions", "statement": "In Python, a function decorated with traced is one section from its start to its end, a suppressed one records nothing, and the sections of a thread nest, also for functions that pause (generators and coroutines): whatever the order in which a program makes, continues and closes them.", "quantifier": "all bodies with pauses, sections, markers and switchers, all stacks of decorators, all orders in which a thread makes, continues and closes generators and enters and leaves sections of its own", "why_tests_cant": "What a pause does depends on what the rest of the program does meanwhile; the orders are unbounded.", "anchors": ["scalopus_python/scalopus/tracing.py: TraceContext, traced, ThreadStateSwitcher, suppressed"]}
{"id": "C135", "title": "Names given in one program are read in another", "statement": "A name that a Python program gives to its process, to a thread or to a tracepoint is the text that any Python program reads, whatever other names are given; and the names of every process can be read in Python, and listed by discover, whatever they are.", "quantifier": "all texts and byte strings, all histories of names given from Python and C++, all lists of processes", "why_tests_cant": "Only some byte strings are text: whether reading fails depends on every byte of every name that any process has given.", "anchors": ["scalopus_python/lib/scalopus_general.cpp: ProcessInfo, setProcessName, setThreadName", "scalopus_python/lib/scalopus_tracing.cpp: mapping, setTraceName", "scalopus_python/scalopus/__main__.py: run_discover"]}
{"id": "C136", "title": "LTTng tools can be started and halted any number of times", "statement": "Starting and halting LTTng tools leaves no process and no descriptor behind, however often it is done; and halting a tool signals no process other than the one the tool has started.", "quantifier": "all histories of starting and halting any number of tools, of processes ending and of other processes starting; all sizes of the system's process table; all choices of process numbers by the system", "why_tests_cant": "What is left behind shows only after many thousand starts, and numbers of processes are used again only after a full turn of the counter; no test runs that long or controls the system's choices.", "anchors": ["scalopus_tracing/src/lttng/babeltrace_tool.cpp: BabeltraceTool::init, BabeltraceTool::halt", "scalopus_tracing/include_consumer/scalopus_tracing/subprocess.hpp: popen"]}
{"id": "C137", "title": "Classes of sources and providers written in Python may leave out methods", "statement": "A viewer server with providers written in Python runs on through every history of viewers, whatever methods their classes leave out; each recording calls each method of each source once, in the order of the providers, and the viewer gets the events of all sources.", "quantifier": "all lists of providers, all classes derived from either base class, all results of their methods for each call, all histories of viewers that connect, record and leave", "why_tests_cant": "A recording goes through all methods of all sources of all providers, and each may be defined or left out, return or raise, differently at each call.", "anchors": ["scalopus_python/scalopus/interface.py: TraceEventSource, TraceEventProvider", "scalopus_python/lib/scalopus_interface.cpp: PyTraceEventProvider, PyTraceEventSource", "scalopus_catapult/src/catapult_backend.cpp: CatapultBackend::makeSession", "scalopus_catapult/src/trace_session.cpp: TraceSession::processMessage"]}
{"id": "C138", "title": "Objects of a program that shows traces may be released in any order, by any thread", "statement": "A program that shows traces may give up its references to managers, providers, sources, servers and recorders in any order and from any thread, while processes and viewers come and go: nothing that is still used has been destroyed, no thread waits for its own end, every destructor returns, exactly what is still referred to remains, and every source that is still held can be finished.", "quantifier": "all histories of making managers, providers, sources, servers and recorders, of processes that start and end, of viewers that connect and leave, of references that threads copy, lock and give up, in all orders", "why_tests_cant": "Who destroys an object is decided by which of many threads gives up the last reference, and a destructor waits for a thread that may at that moment hold references to others.", "anchors": ["scalopus_catapult/src/catapult_server.cpp: CatapultServer::~CatapultServer", "scalopus_catapult/src/catapult_backend.cpp: CatapultBackend::makeSession, onDisconnect", "scalopus_catapult/src/trace_session.cpp: TraceSession::~TraceSession", "scalopus_catapult/src/catapult_recorder.cpp: CatapultRecorder::start, ~CatapultRecorder", "scalopus_general/src/endpoint_manager_poll.cpp: EndpointManagerPoll::manage, ~EndpointManagerPoll", "scalopus_tracing/src/native/native_trace_source.cpp: NativeTraceSource::finishInterval", "scalopus_tracing/src/native/native_trace_provider.cpp: NativeTraceProvider::makeSource"]}
{"id": "C139", "title": "A recorder writes exactly the events of its interval, each once", "statement": "After any history of a recorder, a file that it writes is a JSON array of exactly the events that arrived at its providers between the last start of an interval and its stop, or the writing, in the order of the providers and of arrival; so is the file it writes when it is destroyed. Other files stay as they are, and no event is written again until another interval begins. Every event that arrived during an interval is in the file that is written next.", "quantifier": "all histories of adding providers, starting and stopping the recorder and its intervals, events that arrive, collecting, writing to any files, and destroying it; all events", "why_tests_cant": "Which events are in a file depends on the whole history of calls and arrivals before it is written.", "anchors": ["scalopus_catapult/src/catapult_recorder.cpp: CatapultRecorder::start, stop, startInterval, stopInterval, collectEvents, writeToFile, setupDumpFile, ~CatapultRecorder", "scalopus_tracing/src/native/native_trace_source.cpp: NativeTraceSource::startInterval, stopInterval, finishInterval, addData", "scalopus_tracing/src/native/native_trace_provider.cpp: NativeTraceProvider::incoming", "scalopus_general/src/general_source.cpp: GeneralSource::finishInterval"]}
{"id": "C140", "title": "A command line is done as written, or not at all", "statement": "python3 -m scalopus runs the command that its first argument names, with exactly the settings that the other arguments spell, the last one for each setting, wherever options stand. With anything else it runs nothing, and unless help was asked for, its exit status says so.", "quantifier": "all lists of arguments, all spellings of options, all values, with and without LTTng, all ways to read numbers", "why_tests_cant": "There are infinitely many command lines, and options may be repeated, abbreviated, joined with their values and mixed with other arguments.", "anchors": ["scalopus_python/scalopus/__main__.py: the parsers and the choice of the command"]}
{"id": "C141", "title": "A switch set from another process holds from the answer on", "statement": "When setTraceState returns, the switches of the process and of the threads it names are as asked: a thread that was switched off records nothing more, and after the process was switched off no tracepoint that is reached later is recorded, until somebody switches it on again. A call that fails changes nothing. What setTraceState and getTraceState return is how the switches were.", "quantifier": "all numbers of clients and commands, all orders in which the worker takes them, all interleavings of its accesses to the switches with tracepoints, starts, ends and switches of all threads, all moments at which calls give up", "why_tests_cant": "The threads pass tracepoints, switch and end while the command is handled, and ids of threads are used again.", "anchors": ["scalopus_tracing/src/endpoint_trace_configurator.cpp: setTraceState, getTraceState, handle", "scalopus_tracing/src/trace_configurator.cpp: getThreadMap, getThreadStatePtr", "scalopus_tracing/src/native/native_tracepoint.cpp: scope_entry"]}
{"id": "C142", "title": "A process that ends while it is recorded harms neither its own events nor those of others", "statement": "When a traced process ends at any moment, also while it writes a message, the consumer goes on: every event of every batch that was written completely and read is in the finished interval, once, in the order of its process; a batch that was written only in part shows nothing; the end is noticed; other processes are not affected.", "quantifier": "all numbers of processes, all histories of broadcasts and ends, all numbers of bytes written at the end, all orders in which the connections are read, all batches", "why_tests_cant": "The number of bytes that were written when a process ends, and what the others send before the consumer sees it, are not under the control of a test.", "anchors": ["scalopus_transport/src/transport_unix.cpp: work", "scalopus_transport/src/protocol.cpp: readData, receive", "scalopus_tracing/src/native/native_trace_provider.cpp: incoming", "scalopus_tracing/src/native/native_trace_source.cpp: addData, finishInterval"]}
{"id": "C143", "title": "The example programs record what they do", "statement": "What is shown of an example program is what it does: every call that is traced is shown from its entry to its own exit under its name, parts that are switched off are not shown, counters have the values given, whatever random numbers are drawn and however long it runs; random_callstacks accepts any time base and number of threads; the recorder example writes what was recorded.", "quantifier": "all numbers of rounds, all file names, all random numbers, all arguments, all schedules of the threads that draw, all events that arrive before or after the interval is stopped", "why_tests_cant": "The programs run without end and draw random numbers; what is shown must be right for all of them, and whether two threads draw at once depends on the schedule.", "anchors": ["scalopus_examples/src/readme_example.cpp", "scalopus_examples/src/showcase_marker_events.cpp: b", "scalopus_examples/src/showcase_toggle_tracepoints.cpp: b, this_disables_tracepoints_and_calls_a", "scalopus_examples/src/showcase_count_events.cpp: main", "scalopus_examples/src/random_callstacks.cpp: random_callstack, randint, main", "scalopus_examples/src/embedded_catapult_recorder.cpp: main"]}
{"id": "C144", "title": "query_servers prints what every server tells", "statement": "The example query_servers prints an array with one entry for each server that is found and answers, in their order, with what each of its endpoints tells, whatever the other servers do.", "quantifier": "all numbers of servers, all lists of endpoints, all names, threads, switches and trace mappings, all ways in which a server fails to answer", "why_tests_cant": "A server may end between being found and being asked, or be slow; the combinations with what the others tell have no end.", "anchors": ["scalopus_examples/src/query_servers.cpp: main", "scalopus_general/src/endpoint_introspect.cpp: supported", "scalopus_general/src/endpoint_process_info.cpp: processInfo", "scalopus_tracing/src/endpoint_trace_configurator.cpp: getTraceState", "scalopus_tracing/src/endpoint_trace_mapping.cpp: mapping"]}
{"id": "C145", "title": "A thread is shown in a row of its own, under its name", "statement": "What a thread of a traced program recorded is shown in a row of the viewer in which there is nothing of other threads and which has the name that the thread gave itself, also if the thread has ended before the recording is finished; within a row scopes are nested.", "quantifier": "all histories of threads that start, name themselves, enter and leave scopes and end, all reuses of thread ids", "why_tests_cant": "Thread ids are reused by the system when it likes, and threads end at any point of a recording.", "anchors": ["scalopus_tracing/src/native/tracepoint_collector_native.cpp: getBuffer", "scalopus_tracing/src/native/native_trace_source.cpp: finishInterval", "scalopus_general/src/thread_name_tracker.cpp: setCurrentName", "scalopus_general/src/general_source.cpp: finishInterval", "scalopus_general/src/endpoint_process_info.cpp: handle"]}
{"id": "C146", "title": "The memory that tracing needs depends only on how many threads exist", "statement": "However long a program runs and however many of its threads have traced and ended, the number of event buffers that are in use depends only on how many threads exist at a time.", "quantifier": "all histories of threads that start, trace and end and of the sender, all reuses of thread ids, programs with and without a sender", "why_tests_cant": "What piles up shows only after many threads, and depends on whether anything collects the events.", "anchors": ["scalopus_tracing/src/native/tracepoint_collector_native.cpp: getBuffer, retrieveAndClearOrphanedBuffers", "scalopus_tracing/src/native/endpoint_native_trace_sender.cpp: work"]}
{"id": "C147", "title": "A recording shows what happened while it was on", "statement": "A finished recording shows of every process exactly the events that happened between its start and its stop, in order, and nothing that happened before, after, or during an earlier recording.", "quantifier": "all histories of any number of processes that trace, of the rounds of their senders and the arrival of their broadcasts, and of recordings that are started, stopped and finished", "why_tests_cant": "What is on its way when a recording begins or ends depends on the schedule of senders and connections.", "anchors": ["scalopus_tracing/src/native/endpoint_native_trace_sender.cpp: work", "scalopus_tracing/src/native/native_trace_provider.cpp: incoming", "scalopus_tracing/src/native/native_trace_source.cpp: startInterval, stopInterval, finishInterval, addData"]}
{"id": "C148", "title": "Sections, marks and counters made in Python are shown as asked", "statement": "A Python program that makes trace contexts, directly or with a helper, and enters, leaves, marks and counts with them is shown exactly this, call by call, with the name of the context, the level of the mark and the value of the counter, while tracing is on. A call with a wrong value or on a context of the wrong class raises an exception and records nothing. The module has a helper for every class of contexts.", "quantifier": "all Python programs of one thread that make any number of contexts and helpers and use them in any order, with any values and switches", "why_tests_cant": "The names, ids and kinds of all contexts of a program have to fit together for every order of making and using them.", "anchors": ["scalopus_python/scalopus/tracing.py: TraceContext, TraceContextHelper, MarkerEvent, CountEvent, trace_section, trace_count", "scalopus_python/lib/scalopus_tracing.cpp: uniqueTraceId, MarkLevel, setTraceName", "scalopus_tracing/src/native/native_tracepoint.cpp: scope_entry, scope_exit, mark_event, count_event"]}
{"id": "C149", "title": "The example programs in Python trace until they are stopped", "statement": "Each example program in scalopus_python/examples records its sections, marks and counters in every round, nested and with their names, until it is stopped; the source of the provider example shows sections within the interval.", "quantifier": "any number of rounds; for the source all intervals; for the counters all values", "why_tests_cant": "The programs run until they are stopped, and nobody runs them in a test.", "anchors": ["scalopus_python/examples/readme_example.py: a, b, c, d, fooBarBuz", "scalopus_python/examples/readme_example_lttng.py", "scalopus_python/examples/embedded_catapult_server.py", "scalopus_python/examples/python_provider_example.py: PythonSource", "scalopus_python/examples/showcase_counters.py"]}
{"id": "C150", "title": "The sections that are shown of a thread are the scopes that it was in", "statement": "The row of a thread in the viewer shows exactly the traced scopes that the thread entered and left during the recording, each with its name, from its entry to its own exit, and nested as they were; a scope that is still open has begun and not ended, and of one that was entered before the recording nothing is shown. This holds for both backends, however the events are spread over messages, whatever other threads and processes do, and also if the time of day is set while the program runs.", "quantifier": "all programs of nested scopes, marks and counters of a thread, all clocks, all ways in which its events are spread over batches and mixed with those of others", "why_tests_cant": "How begin and end entries pair up depends on the order of all entries after sorting, for every nesting and every time of the clock.", "anchors": ["scalopus_tracing/src/scope_trace_raii.cpp: TraceRAII", "scalopus_tracing/src/native/native_tracepoint.cpp: nativeGetChrono, scope_entry, scope_exit", "scalopus_tracing/src/native/native_trace_source.cpp: finishInterval", "scalopus_tracing/src/lttng/lttng_source.cpp: convertEvents"]}
{"id": "C151", "title": "A full buffer makes no false sections", "statement": "If a thread traces faster than its events are collected, events are lost, but every section that is shown of the thread is a scope that it was in, with its name and from its entry to its own exit, and none seems to go on. If the collection keeps up nothing is lost and every scope is shown.", "quantifier": "all programs of nested scopes, marks and counters of a thread, all buffer sizes, all interleavings of the thread with the sender, all recordings with events of others", "why_tests_cant": "Which events are lost depends on the schedule, and what is shown depends on how the remaining entries and exits pair up.", "anchors": ["scalopus_tracing/src/spsc_ringbuffer.h: push", "scalopus_tracing/src/native/native_tracepoint.cpp: scope_entry, scope_exit", "scalopus_tracing/src/native/endpoint_native_trace_sender.cpp: work", "scalopus_tracing/src/native/native_trace_source.cpp: finishInterval"]}
{"id": "C152", "title": "Switching tracing while a thread is in scopes makes no false sections", "statement": "Whenever tracing is switched off and on, by the thread itself, by other threads or from another process, exactly the scopes of a thread that were entered and left with tracing on are shown, each with its name and from its entry to its own exit; those that were entered with tracing on and left with tracing off are shown as begun and not ended, and no others.", "quantifier": "all programs of nested scopes, marks and counters of a thread, all histories of the switches, all recordings with events of others", "why_tests_cant": "Switches can be set between any two events of a thread, and what is shown depends on how the remaining entries and exits pair up.", "anchors": ["scalopus_tracing/src/native/native_tracepoint.cpp: scope_entry, scope_exit", "scalopus_tracing/src/trace_configurator.cpp: setThreadState, setProcessState", "scalopus_tracing/src/trace_configuration_raii.cpp: TraceConfigurationRAII", "scalopus_tracing/src/native/native_trace_source.cpp: finishInterval"]}
{"id": "C153", "title": "The threads of a traced program do not race and none waits for ever", "statement": "However the threads of a program trace for the first time, name themselves, set and ask the switches, answer queries, end, and make, add and destroy the sender of events, no two of them access the same shared data at the same time with one of them writing, and every call can end.", "quantifier": "all numbers of threads, all histories of calls and all interleavings of their steps", "why_tests_cant": "A race or deadlock shows only under particular interleavings of any number of threads, which no test can enumerate.", "anchors": ["scalopus_tracing/src/native/tracepoint_collector_native.cpp: getBuffer, setRingbufferSize, retrieveAndClearOrphanedBuffers", "scalopus_tracing/src/native/endpoint_native_trace_sender.cpp: work, ~EndpointNativeTraceSender", "scalopus_tracing/src/trace_configurator.cpp: getThreadStatePtr, getThreadMap", "scalopus_general/include/scalopus_general/map_tracker.h", "scalopus_interface/src/endpoint.cpp: setTransport"]}
{"id": "C154", "title": "Viewers that end their recordings at the same time show the right names", "statement": "When a recording is ended, its events are shown with the names that the connected processes had since then, and processes and threads likewise, whatever other viewers of the same server do at the same time; no other names are shown, and no viewer waits for ever.", "quantifier": "all numbers of viewers and processes, all histories of names and connections, all interleavings of the viewers' steps", "why_tests_cant": "All viewers of a server share one table of names, which each of them replaces; what is shown depends on how their questions and answers interleave.", "anchors": ["scalopus_tracing/src/scope_tracing_provider.cpp: updateMapping, getMapping", "scalopus_tracing/src/native/native_trace_source.cpp: finishInterval", "scalopus_tracing/src/lttng/lttng_source.cpp: finishInterval", "scalopus_general/src/general_provider.cpp: updateMapping, getMapping", "scalopus_general/src/general_source.cpp: finishInterval"]}
{"id": "C155", "title": "What was recorded is delivered once, and then released", "statement": "When a viewer ends a recording it gets, of every source, all events that arrived between the start and the end, in order. No event is delivered more often than it arrived, also if the viewer ends a recording again without starting one, and once an end has been dealt with, none of the delivered events is kept.", "quantifier": "all sessions with any sources, all histories of starts and ends of the viewer and of arriving events, all interleavings", "why_tests_cant": "Histories of messages and arrivals are unbounded, and events arrive between any two calls of the sources.", "anchors": ["scalopus_tracing/src/native/native_trace_source.cpp: startInterval, stopInterval, finishInterval", "scalopus_tracing/src/lttng/lttng_source.cpp: startInterval, stopInterval, finishInterval, convertEvents", "scalopus_catapult/src/trace_session.cpp: processMessage"]}
{"id": "C156", "title": "Events of both backends are shown on one time axis", "statement": "A viewer may show processes that trace with the native backend beside processes that trace with LTTng. The timestamp of an event is its time in microseconds, whichever backend recorded it, and events are shown in the order in which they happened, also if different backends recorded them.", "quantifier": "all pairs of events, all times, both backends for each of them", "why_tests_cant": "There are 2^128 pairs of times, and the rounding of each backend differs from one nanosecond to the next.", "anchors": ["scalopus_tracing/src/native/native_trace_source.cpp: finishInterval", "scalopus_tracing/src/lttng/lttng_source.cpp: finishInterval", "scalopus_tracing/src/lttng/ctfevent.cpp: CTFEvent", "scalopus_tracing/src/lttng/babeltrace_tool.cpp: init"]}
{"id": "C157", "title": "Python sets in events arrive as lists of their elements", "statement": "A Python set in the data of an event arrives as a list in which each element of the set occurs once, and equal sets arrive as equal lists, in whatever order Python walks through them.", "quantifier": "all sets of None, booleans, numbers, strings, bytes and tuples of any depth, of any size, in any order", "why_tests_cant": "The order in which Python walks through a set depends on hashes and on the history of the set; tests see one order, and few kinds of elements.", "anchors": ["scalopus_python/lib/json_util.cpp: pyToJson"]}
{"id": "C158", "title": "Whatever Python objects an event is made of, they are converted or an exception is raised", "statement": "Events given by a source written in Python are converted, or raise an exception, whatever objects they are made of: also objects that are in several containers, containers that contain themselves, and containers in containers to any depth.", "quantifier": "all graphs of Python objects, all sizes of the stack", "why_tests_cant": "Tests convert a few small values; containers that contain themselves and deep nesting are unbounded families.", "anchors": ["scalopus_python/lib/json_util.cpp: pyToJson"]}
{"id": "C159", "title": "Messages whose ids are no whole numbers in range are refused", "statement": "A query or an answer in which the id of a thread or a process is not a whole number of the right size is refused with an exception: it neither acts on another thread nor leads to undefined behaviour.", "quantifier": "all request and answer bytes, all values as ids including every double, all reachable states of the server", "why_tests_cant": "Tests speak with the project's own clients, which only send whole numbers; the values another client can send are unbounded.", "anchors": ["scalopus_tracing/src/endpoint_trace_configurator.cpp: from_json, EndpointTraceConfigurator::handle", "scalopus_general/src/endpoint_process_info.cpp: EndpointProcessInfo::processInfo", "scalopus_tracing/src/endpoint_trace_mapping.cpp: EndpointTraceMapping::mapping"]}
{"id": "C160", "title": "A Python program that is interrupted leaves its sections closed and its switch as it was", "statement": "An exception that a signal handler raises in a Python program, as Ctrl-C does, at whatever moment, leaves every section that was entered left, in order, and the tracing state of the thread as it was before.", "quantifier": "all programs of sections, suppressed parts, markers and exception handlers, all moments at which any number of signal handlers raise, all earlier histories of the thread", "why_tests_cant": "The moments at which a signal can arrive are too many to test and cannot be chosen by a test; some are inside of the library.", "anchors": ["scalopus_python/scalopus/tracing.py: TraceContext.__enter__, TraceContext.__exit__, ThreadStateSwitcher.__enter__, ThreadStateSwitcher.__exit__, traced, suppressed"]}
{"id": "C161", "title": "Further LTTng contexts do not change what is shown", "statement": "If a user records more contexts than the two ids that the library needs, such as the names of processes, a finished LTTng interval shows the same as without them, whatever the names are.", "quantifier": "all sequences of lines printed by babeltrace for events of any processes and threads, all further contexts in any order, all names", "why_tests_cant": "A test has its own processes with harmless names; a name is chosen by the traced program, and one that looks like the format of the lines changes the recording of all others.", "anchors": ["scalopus_tracing/src/lttng/ctfevent.cpp: CTFEvent::CTFEvent, processContext", "scalopus_tracing/src/lttng/lttng_source.cpp: LttngSource::finishInterval", "scalopus_tracing/test/start"]}
