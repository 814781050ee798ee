# Formal model of trflynn89/libfly in Lean 4

## Method

The source in `/repo/fly` was read as text and modelled function by function as total, computable
Lean definitions (`/verif/lean/Verif/<Area>/Model.lean`), each citing file and lines. Small
independent specifications live in `Spec.lean` files, helper lemmas in `Lemmas*.lean`, and the
property theorems in `Props.lean` files with non-vacuity examples beside them. A statement whose
English property is false of the unchanged code is refuted by a theorem with a concrete witness
(named `..._violated`), and the part that does hold is proved under a name ending in `_partial`.

C++ undefined behaviour (out-of-bounds access, over-wide shift) is a distinct outcome of the model
wherever the property is about safety, never silently totalised.

## Trusted base

* Lean 4.33.0's kernel, with the standard axioms `propext`, `Classical.choice`, `Quot.sound` only.
* The faithfulness of the hand translation from C++ to Lean (the code is never executed here).
* The assumed behaviour of the standard library / OS primitives listed with each model.

## Property plan

- **C01 Bit stream round trip** — Model writer (u64 buffer, position, flushed bytes) and reader (buffer, position, remaining bytes, remainder) over Nat with the code's shifts and masks. Invariant: flushed bytes + buffer = packed bits (BitString spec = List Bool). Round trip by induction over the writes using a reader invariant 'unread bits = suffix'.
- **C02 Bit stream wire layout** — From the writer invariant of C01: bytes = header :: pack(bits).
- **C03 Bit stream reader never invents data** — Reader invariant: bits held + bytes left = unread suffix, by induction over requests.
- **C04 Base64 round trip** — Chunked encoder/decoder with the real chunk sizes as parameters; algebraic round trip per group; negation for lengths = 196606, 196607 mod 196608 and a _partial theorem for all others (expected: code violates).
- **C05 Base64 encoder conforms to RFC 4648** — Independent RFC 4648 spec over the bit list; induction over 3-byte groups and chunks.
- **C06 Base64 decoder strictness** — Decode success implies grammar predicate; UB for bytes >= 0x80 is a distinct outcome.
- **C07 Base64 memory safety** — Explicit UB outcome for memset and table reads; exact condition theorem; negation witness.
- **C08 Huffman round trip** — Full pipeline: counts, heap-order-agnostic Huffman tree, limit, canonical codes, header, symbols, decode by prefix table; round trip by canonical-code theory + bit stream C01.
- **C09 Huffman codes are a length-limited prefix code** — Kraft sum of tree depths, effect of limiter on Kraft, canonical code intervals.
- **C10 Huffman decoder memory safety** — UB outcome for table index; negation witness by a concrete hostile header; partial theorem under Kraft.
- **C11 Huffman encoder never reports success while losing data** — Negation witness for chunk size 0; partial = C08.
- **C12 UTF-8 encode/decode round trip** — Bit-level model over Nat; case split on ranges; omega.
- **C13 UTF-8 validation is exact** — Declarative RFC 3629 table as spec; both directions.
- **C14 UTF-16 round trip and exact validation** — As C12/C13 for 16-bit units.
- **C15 Transcoding preserves text** — Corollary of decoders/encoders per code point, induction over the string.
- **C16 Escaped code point round trip** — Hex digit lemmas; surrogate arithmetic.
- **C17 Escape-all / unescape-all are inverse** — Negation witness (literal backslash-u); partial for strings without backslash.
- **C18 Split yields the delimiter-separated non-empty pieces** — Spec: List-based splitter; induction with accumulated fuel-free recursion.
- **C19 Trim removes exactly surrounding whitespace** — dropWhile/reverse model against uniqueness spec.
- **C20 replace_all terminates and removes every occurrence** — Fuel-indexed loop (Option = still running); divergence theorem when replacement contains search; postcondition when it returns.
- **C21 Wildcard match is glob match** — Glob spec as inductive relation; completeness proved, soundness refuted by witness.
- **C22 Character classification is ASCII-exact** — BitVec/Int model of the xor trick for signed and unsigned types; refute for negative chars.
- **C23 Lexer number scanning** — Spec via positional value; wrap-around witness.
- **C24 Format string literal text and escapes** — Format-string parser modelled over List Char; structural recursion.
- **C25 Format parameter selection is in range and unmixed** — Parse context invariant.
- **C26 Formatted integers denote the value** — Digits model (Nat.toDigits-like) + padding.
- **C27 Formatted strings honour width, precision and alignment** — List algebra.
- **C28 JSON serialize/parse round trip** — Mutual induction on values; parser in continuation style over List of bytes with fuel.
- **C29 JSON serialization is strict RFC 8259 text** — Inductive RFC grammar; induction on value.
- **C30 JSON string construction un-escapes exactly and rejects bad input** — Scanner model; decode relation.
- **C31 A JSON string read back can be stored again** — Negation witness; partial for strings with no backslash/quote/control.
- **C32 JSON equality is an equivalence** — Integers/strings/containers modelled; floats abstract (excluded, documented); refutation across signed/unsigned wrap.
- **C33 JSON ordering is a strict weak order consistent with equality** — Refutation witnesses; partial on the homogeneous fragment.
- **C34 Equal JSON values hash equally** — Refutation for all n: signed vs unsigned hash.
- **C35 JSON object and array operations behave like a map and a vector** — Refinement of op histories to finite map / list.
- **C36 JSON iterators never leave their container** — Index-based iterator model; invariant 0 <= index <= size.
- **C37 JSON parser rejects non-JSON** — Refutation for vertical tab; partial theorem of acceptance.
- **C38 JSON parser consumes all input and is deterministic about duplicates** — Theorem about parse_internal result.
- **C39 INI parse of rendered configuration** — Printer/parser round trip.
- **C40 INI rejects malformed lines and never drops settings** — Per-line decision theorem; refutation for re-declared sections.
- **C41 Parser input encoding detection** — Byte-level model of detection and transcoding reuse C12-C15.
- **C42 Concurrent queue is a linearizable FIFO** — Small-step interleaving semantics over mutex-protected critical sections; history invariant.
- **C43 Concurrent stack is a linearizable LIFO** — Same with LIFO spec.
- **C44 Timed pop fails only on an empty container, and pushes are not missed** — Condition-variable model with waiter set.
- **C45 Sequenced tasks never overlap and run in posting order** — Small-step task manager model; invariant in_flight <= 1 and history order.
- **C46 Posted tasks are executed exactly once while the manager runs** — Multiset conservation invariant + running flag invariant.
- **C47 Delayed tasks never run early** — Clock in the model; invariant on executed history.
- **C48 Stop is final** — Worker program-counter model with keep_running loads.
- **C49 Replies and weak owners** — Model of wrap_task closures as task descriptions.
- **C50 Configuration objects reflect the last parsed file** — Config manager state machine; refutation for array documents.
- **C51 One live configuration object per identifier** — Invariant on weak map.
- **C52 Path monitor dispatch** — Registry map refinement.
- **C53 Concurrent registration is atomic** — Two-step remove_file interleaving; refutation; partial for serial histories.
- **C54 Every registration that succeeded is served** — Watch descriptor aliasing model; refutation; partial for distinct inodes.
- **C55 Callbacks may use the monitor / no self-deadlock** — Lock-ownership model; refutation.
- **C56 IPv4 text round trip** — Digit printing/parsing round trip.
- **C57 IPv4 parsing is exact** — Refutations (wrap-around, high-bit characters); partial.
- **C58 IPv6 text round trip** — Eight-group model, zero-run compression; round trip.
- **C59 IPv6 parsing rejects malformed text** — Refutations by witness.
- **C60 Endpoint text round trip** — Composition of C56/C58 with port.
- **C61 Byte swapping and endianness** — BitVec algebra.
- **C62 Numeric literals denote their value or fail** — Aggregator with wrap-around; refutation; partial under no overflow.
- **C63 Logger names are unique among live loggers** — Registry history model; refutation.
- **C64 File sink never loses or splits records** — Sink state machine, invariant.
- **C65 Logger ordering, truncation and failure latch** — Logger state machine.
- **C66 Log records are self-delimiting** — Refutation; partial for messages without separators.
- **C67 CPU usage is a percentage** — Rational model; NaN outcome explicit; refutation for equal samples.
- **C68 Every OS socket handle is closed exactly once** — Handle ownership history; refutation for move assignment; partial without it.
- **C69 Connection state matches openness** — State machine; refutation.
- **C70 Asynchronous send accounting** — OS oracle as list of answers; induction.
- **C71 Socket service serves each request at most once, in order per socket** — Queue model of requests; induction over ops.
- **C72 Socket service polling stays armed, and armed once** — Invariant (>=1) and refutation of uniqueness.
- **C73 No invalid handle is given to select** — Refutation; partial.
- **C74 Split with a limit keeps the rest of the string** — Refutation (neighbouring delimiters collapse); partial when no two delimiters are adjacent.
- **C75 Endpoint ordering is a strict total order** — Model both the defaulted comparison and the macOS one; prove the order laws of the former, refute the latter.
- **C76 JSON comments follow their grammar** — Exact language theorem for all flags via parse_iff; refuted after commas (lenient dialect).
- **C77 Formatted floating-point values** — Model the float formatter with std::to_chars as an unconstrained oracle; partial for texts that fit the buffer, refuted otherwise.
- **C78 Messages sent asynchronously on one TCP socket go out in order** — Socket: queue of AsyncSend served oldest first; violated (re-queueing behind later messages), partial when no round would block
- **C79 Asynchronous receive delivers one arrival, once** — Socket: AsyncReceive.ready folded over arrivals
- **C80 I/O closes a socket only on an error or end of stream** — Socket: sendSync/receiveSync (violated), AsyncSend.ready (proved)
- **C81 Existing configuration files are visible from the start** — Model create/start (the file is registered with the monitor but not parsed); refute: whatever the file says, a configuration made before the first event has only defaults.
- **C82 Process CPU usage is a percentage** — Model update_process_cpu_usage over rationals with an arbitrary monotone rounding that is exact on integers up to 2^53; prove the bound.
- **C83 Memory usage and processor count are exact** — Model both functions (wrapping 64-bit arithmetic, line scanning) and prove the equations.
- **C84 The Huffman decoder accepts only well-formed streams** — invert every step of the decoder over the unread bits of the reader; grammar as an inductive relation on bit strings and bytes
- **C85 Huffman codes are as short as possible** — Huffman exchange argument by induction on the queue, Kraft inequality for the rival
- **C86 Huffman decoding terminates** — every round consumes at least eight bits of the input or ends the loop
- **C87 Escape sequences are recognised exactly** — Spec: inductive EscapeText and Unescaped relations over plain text. Prove iff with the model of unescape_codepoint / unescape_all_codepoints by inversion of the digit loop and strong induction on length.
- **C88 The lexer is a faithful cursor** — View split at the cursor into read and remaining; lexer_cursor by cases, lexer_history by induction on the call sequence.
- **C89 Container calls always complete** — A measure on the program counters that every internal step decreases; a case analysis of the states where no internal step is enabled. Theorems container_schedules_bounded, container_no_deadlock, container_completes (Verif/Conc/Live.lean).
- **C90 Accepted tasks get executed** — A potential (steps still needed for queued, pending and running tasks and their replies) decreases at each worker step; an invariant says a sequenced runner with pending tasks has one in flight. Theorems workers_terminate, workers_done_all_executed_partial, accepted_tasks_get_executed_partial; for no worker accepted_tasks_get_executed_violated (Verif/Task/Live.lean).
- **C91 Stop always completes** — The potential of C90 extended by the timer and the timed pops; case analysis of stuck states. Theorems stop_bounded, stop_no_deadlock, stop_completes (Verif/Task/Stop.lean).
- **C92 Converting a JSON value to a C++ type gives its value or throws** — Verif.Json.Convert models the conversion operators over (signedness, width) types; exactness is proved for every representable value, the text reading by an iff with an inductive decimal-numeral specification, containers by an inductive element-wise relation; the silent wrap-around, undefined float conversion and dereferenced empty optional are refuted.
- **C93 Every JSON value a program can build is well formed and can be written and read back** — inductive set Built of buildable values (constructors, parser, all modelled member functions, copies of elements); invariant Value.WF by induction; composition with the serializer and parser theorems (C28, C29, C37).
- **C94 What a file logger was told can be read back from its files** — Compose the logger state machine with the file sink (answers now come from the sink) by a simulation lemma; conclude with C64, C65 and C66.
- **C95 Incoming connections are handed out once, in order** — State machine of the listening socket over the kernel's queue; induction over histories (conservation of connections and of callbacks).
- **C96 is_listening() means connections are accepted** — Same state machine as C95; invariant over histories; refutation for close.
- **C97 Stylers change exactly the text they cover** — Byte-level model of the proxy and its streams (with number format state), independent terminal interpreter as specification; simulation between programs and an expected view; refutations for nesting, restreaming and std::hex.
- **C98 Console records are shown whole and their look does not leak** — Sequence of styler programs; corollary of the styler simulation; refutation for messages containing escape characters.
- **C99 Joining is the inverse of splitting** — Model join on top of the formatter model; induction over the arguments; refute for separators that are negative characters, which the formatter prints as nothing.
- **C100 String to integer conversion is exact** — Model convert as transcoding to UTF-8 followed by from_chars; iff with a relational grammar of numerals; round trip through the formatter model.
- **C101 Random strings** — Model the drawing loop over an arbitrary sequence within the distribution's range; induction; surjectivity.
- **C102 A crash loses no accepted record** — List the effects of stream on the directory one by one, prove that their composition is the sink model of C64, define the directories a crash between or inside the effects can leave, and show the invariant of C64 at each of them. The disk accepts all data (C64 refutes the property for full disks) and the sink is not re-entered by its own logger; power failures are not modelled.
- **C103 Iterators of JSON values are checked against misuse** — World model: variables with versions, iterators with owner, version, kind and position; inductive reachability over all calls; invariant that an undangled iterator has the kind of its container and a position at most its size. Violated for reversed ranges, self-insertion of entries and offset -2^63, so partial.
- **C104 JSON iterators are positions in the sequence of entries** — Positions from the specification predicate Stands; loops as inductive relations on calls; induction on the number of entries left.
- **C105 Inserting and erasing through JSON iterators splices exactly the named entries** — Splice equations on p ++ q ++ r; the loop as an inductive relation, existence and determinism by induction on the entries left.
- **C106 The system monitor reports what the kernel says** — Text-level model of the scans and of the poll task; files specified as the kernel writes them; induction over the polls.
- **C107 Endpoints reach the operating system in network byte order and come back unchanged** — Socket/Wire.lean: sockaddr_in and sockaddr_in6 as the integers stored in them, their memory bytes against the text grammars of C56-C60. Violated for link-local IPv6 peers (the scope is dropped), so partial.
- **C108 Polling reports exactly the sockets that are ready** — Socket/Select.lean: select(2) as a function of nfds and the two sets, std::set as ascending lists; exactness by le_lastOr (nfds covers all handles); composed with the service of C71. Violated for handles from 1024 on (FD_SETSIZE), so partial.
- **C109 UDP messages arrive as sent** — Socket/Network.lean: queue of datagrams between two sockets; induction over the calls. Violated when the receiver's packet size is smaller than the sender's (silent truncation), so partial.
- **C110 TCP bytes arrive as sent** — Socket/Network.lean: byte stream between two sockets; induction over the calls. Violated for the packet size 0, which nothing refuses, so partial.
- **C111 An asynchronous send sends the message it was given** — Socket/Views.lean: the caller's buffer beside the asynchronous send of C70. Violated (the socket keeps a string_view), so partial.
- **C112 Formatting user-defined types** — Model parse_user_defined_specifier, copy_formatting_options_into and the second parse of format_user_defined_value on top of the format model (Format/User.lean). Conservative extension by lockstep induction; no UB by a length invariant of the loop; equality with the standard value for the fields the library gets right by evaluating each stage on the rendered tree; refutations by evaluation.
- **C113 Coding files** — Model a disk (names, files, contents, permissions) and the file entry points over the Base64 and Huffman models, with the device's free space and the stream buffer's late write as nondeterminism (Coder/Model.lean). Frame and round-trip theorems by case analysis, using C04 and C08; refutations on a three-name disk for every outcome the model allows.
- **C114 What a braced list of JSON values denotes** — initList in Json/Convert.lean; Json/Braces.lean proves the exact meaning by induction over the list
- **C115 Swapping and merging JSON values with C++ containers loses nothing** — Json/Exchange.lean: swapWith and mergeRef model the functions with the point where the argument is moved from
- **C116 The exceptions of JSON values say what went wrong** — Json/Exceptions.lean composes the format model with serialize
- **C117 An asynchronous connection is completed once, and the callback is told the truth** — Model one socket, the kernel's side, the service's tasks and write requests; invariant that the pipeline of callbacks is a sublist of the calls that returned connecting; a stage invariant for completion; counterexamples for close and a second call during an attempt.
- **C118 Destroying a path monitor spares the others** — Transition system with the process's table of descriptors, the kernel's inotify instances and their watches, and monitor objects whose destructor is a sequence of system calls; ownership invariant by induction over all executions; the lost watch is an explicit execution; exactness of the watches for executions that open nothing during a destruction.
- **C119 A socket is not affected by an earlier one with the same handle number** — Sockets with identities on top of the socket service model; invariant relating pending removals to the requests of present and past owners of a handle; the foreign callback is an explicit execution.
- **C120 The default logger, and loggers at program exit** — Static objects as a stack with the registry built on first use; reference counts as holds; exact condition under which the exit misuses the registry, with a refutation of the unconditional claim.
- **C121 Reverse JSON iterators are positions of the reversed sequence** — Reverse iterators over the iterator model of C104; every member related to the index in the reversed entry list.
- **C122 INI warnings name the offending line** — Instrument the INI model with the position kept by get() and with the warnings; relate them to the first line the grammar of C61 cannot read.
- **C123 The JSON parser's warnings point at the place they talk about** — Instrument the parser model with Parser::get's counters and the JLOG calls (Json/Warn.lean), prove it returns what the parser returns, prove by induction on the fuel that every warning is Located (text = read ++ rest, position computed from the read part, claim true there), that a silent refusal is at the end of the text, and that an accepted text only warns about comment starts. Refuted parts: columns on later lines are one too high, an accepted text can warn.
- **C124 The path monitor takes the kernel's event buffer apart exactly (Linux)** — Byte-level model of the event walk (PathMonitor/Buffer.lean), encoding of events as a separate inductive specification, proof by induction over the encoding; link to the event-level model.
- **C125 The path monitor takes the notification buffer apart exactly (Windows)** — Byte-level model of the chain walk and of poll; exactness for all completions that are not overflows; refuted for overflows, whose zero byte count is ignored.
- **C126 Stylers on a Windows console** — Model of the Windows proxy (Styler/Win.lean) as a machine of make/text/drop; nested programs shown by an inductive specification, bits of the attributes specified one by one; refuted for stylers not destroyed in reverse order and for movements past the edge.
- **C127 Floating-point values printed with the thread's stream are independent of each other** — Model the thread's stringstream, the scoped modifiers member by member and the three stages of num_put with an abstract printf; invariant of the guard (what is not marked as changed equals what was stored); prove per-call correctness on a fresh stream and freshness after each call; refute for the space sign with an exponent, hexadecimal precision and zero padding, allocation failures and a non-classic locale.
- **C128 What a failed assertion reports** — Model: the macro, both overloads of assertion_failed and log_assertion on top of the verified formatter; spec: the report as one text. Fails for messages: the terminating zero of the literal is written (assert_message_violated).
- **C129 Signal handlers** — Model: the steps of set_signal_handler with signals arriving between them, dispositions of the operating system with and without reset on arrival. Partial: holds between calls and during the first installation; fails while a handler is removed or replaced and where the disposition is reset (signal_handler_violated).
- **C130 Processor and memory usage on Windows and macOS** — Model: the update functions of both systems with unsigned arithmetic and double division; spec: percentage and share of the time between the last two readings. Fails where no tick passed, the clock is set back, on the first poll (Windows), for processes without user time and by truncation to microseconds (macOS).
- **C131 The texts of times and errors** — Model: strftime with the format used and its buffer, the verified formatter for errors; spec: two-digit fields and decimal numerals.
- **C132 The network is up while a socket service exists (Windows)** — Model: transition system of services with the shared counter; invariant by induction over interleavings. Fails while the first service is still starting the network and after a failed start (counter decremented twice).
- **C133 io_mode() tells the truth** — Model: flag words of descriptors, fcntl with failures; spec bit by bit; induction over histories.
- **C134 Host names name the host that is contacted** — Model: resolution through a C string. Fails for names with an embedded zero character: the host named by the part before it is contacted.
- **C135 Sending and receiving on Windows** — Model the loops of send and send_to with the conversion of sizes to int and the OS's answers as inputs; prove they coincide with the loop on Linux for sizes below 2 GiB; refute for larger packet sizes.
- **C136 Polling on Windows reports exactly the sockets that are ready** — Model the fd_set of Winsock (64 entries, additional ones dropped silently) and select; prove exactness up to 64 handles per direction, refute beyond, also for the socket service.
- **C137 Settings written in a configuration file take effect** — Compose the models of the parsers, the configuration manager and the JSON conversions with the getters; prove the value from the text of the file for every getter; refute for truth values in INI files and for numbers out of range in JSON files.
- **C138 Converting text to floating-point numbers** — Verif/Str/Floats.lean: the scanners of from_chars and strtod, the index check of the converters; grammars as separate inductive definitions; iff for both versions, agreement on ordinary texts, refutation otherwise. The rounding of the number to the type is an input.
- **C139 JSON numbers do not depend on the compiler** — Verif/Json/OldFloats.lean: parse_value with the other converter; agreement on every text without x in the C locale, everything accepted beyond JSON is hexadecimal, refutation for hexadecimal numbers and decimal commas.
- **C140 Arguments of format() reach the formatter unchanged** — Verif/Format/Arguments.lean: the constructors and readers of BasicFormatParameter and the length rules; composed with the formatter for the field {}. Refuted for every buffer larger than its text.
- **C141 Starting and stopping a task manager from any thread** — Transition system of the flag, the vector of futures and the phases of the threads; invariant over orderly histories; for overlapping calls a reachable race and an invariant that keeps stop waiting.
- **C142 Task locks: no deadlock, and destructors of captured objects may use the library** — Every function as the sequence of lock operations and destructions of one thread, for whatever it finds; a strict order of the locks gives deadlock freedom for any number of threads; exact conditions for destruction under a lock; counterexamples.
- **C143 The path monitor on macOS** — Transition system of the registrations, the event stream, its buffer and the queue; invariant that the stream watches the registered directories; conservation of notifications while nothing is registered or removed; counterexamples.
- **C144 Windows path monitor used from several threads** — Transition system with one handle and one request per directory and the critical sections as steps; counting invariant for handles, simulation of the reported changes for delivery; the two ways a registration is lost as runs.
- **C145 Asynchronous connections on Windows** — The client model of C117 with the select and the error query of the Windows implementation (Verif/Socket/WinConnect.lean): select gets no exception set, in which Windows reports failures; the buffer for SO_ERROR is one byte. Invariant over any history for the callbacks; the failing case refuted for every state.
- **C146 Identity of a socket, and sockets that were moved from** — Objects with their handle (numbered by creation), identifier, whether configuration and service are non-null and whether a shared_ptr owns them (Verif/Socket/Identity.lean); invariants over any program; a history-based specification of being moved from.
- **C147 JSON operations on a value and a part of itself** — Documents as values, references as paths (Verif/Json/Alias.lean); each call as the steps the code takes: parameter taken or copied, promotion, change. Lemmas about reading and replacing at paths; the cases where a value would come to own itself, or a vector is destroyed while appended to, are refuted for all documents.
- **C148 The Huffman encoder's nodes and stacks** — Nodes as cells addressed by position, with a relation for the queue's choice and a step function for the traversal (Huffman/Memory.lean); refinement to the recursive model by an invariant on the queue and induction on the tree.
- **C149 What the Huffman decoder answers on every stream** — A reference decoder on lists of bits whose table is the concatenation of its slots (Huffman/Reference.lean); simulation of the buffered reader, the canonical code arithmetic and the prefix table by induction on chunks and words.
- **C150 Which exception a JSON iterator throws** — Model: the exception of each operation beside the C-level iterator model; specification: target positions as an inductive relation. Proof by cases with the lemmas of the iterator model.
- **C151 Reserved JSON capacity** — Json/Capacity.lean: cells with a capacity and a block number on top of the calls of Json/Ops; invariant over all histories, induction over the calls after reserve. std::vector and std::string are assumed to reallocate only above the capacity; the growth function is arbitrary.
- **C152 Taking the content out of a JSON value** — Json/Capacity.lean: takeStr/takeObj/takeArr against the copying conversions of Json/Convert; a number is text when copied and an exception when moved, which is the refutation.
- **C153 Releasing a configuration manager** — Config/Lifetime.lean: transition system of the manager, its monitor, the runner's queue and thread and the destructor's stages; an inductive invariant gives lifetime, single poll and the account of changes; completion by constructing the schedule; the hang is an invariant of every continuation.
- **C154 Logging from several threads** — A transition system with the steps of log_to_sink (check, load and store of the counter, stream, answer, note a failure) for any number of threads or the one executor of a sequenced runner. Invariants: at most one executor at work, its index and message are the next ones. Refuted for synchronous loggers by a schedule from every state with two free threads; serial calls proved.
- **C155 The other JSON accessors behave like those of a map and a sequence** — Json/MoreOps.lean: the calls over the values of C35; specification MoreExpected over Abs; refinement by cases on the call; the deviation (a failing emplace turns null into an empty container) is refuted separately
- **C156 The system monitor on Windows and macOS reports what the system says** — System/OtherPoll.lean: the monitor's members and the task, answers of the system are inputs; the specification is the latest answer in the history; induction over the history; macOS stores a count of zero and then stops, refuted separately
- **C157 A socket bound for single use does not share its endpoint** — Socket/Bind.lean: the library's calls over a model of the system's table (SO_REUSEADDR flag and endpoint per socket; the rule of Linux and the one of Windows); specification in terms of the modes; refinement by invariant; the flag outlives a failed call, refuted separately
- **C158 Bit stream writer at every point of its life** — the writer model of C01 over a stream with any content and with any history of calls; simulation by the writer over an empty stream; the content as layers, each written over the start of the one before; the unfinished sequence as the prefix of its full groups of 64 bits but the last. False of the code: after finish the writer goes on at the second byte of the stream.
- **C159 A Huffman decoder used again** — The decoder as an object: the 256 cells of the code array with what earlier calls left there, the size and the maximum length. Refinement to the stateless decoder of C08 by the relation "the cells in use are the codes so far"; the constant by induction on the chunks. It is not always defined: decoding the encoding of nothing with a smaller maximum after a stream with codes leaves lengths above the maximum, and the shift is by a negative amount.
- **C160 What addresses made from octets denote and how addresses and endpoints compare** — The constructors and comparison operators as functions (the compiler-made ones from a three-way comparison, the hand-written macOS ones as written); proved equal to comparisons of the numbers the bytes denote; equality and text by the round trips of C56, C58, C60. On macOS the operators of endpoints contradict each other.
- **C161 Unicode functions stay inside their text** — Iterator-level model: positions in a text, reads and increments outside of it are undefined behaviour, loops take a number of rounds. Refinement to the list-level model of C12-C17 and C87, function by function.
- **C162 JSON strings are un-escaped in place and escaped within their memory** — Model of the loop with a string whose generation changes at every edit; stale iterators are undefined behaviour. Refinement to validateString / escapeBody; the specification is that of C30 and C29.
- **C163 Address and endpoint parsing and formatting stay within their arrays and views** — fixed arrays with an index, iterators as distances, views as position and count; simulation of the list model and its exactness theorems (Net/Arrays.lean).
- **C164 Splitting, trimming, replacing and matching stay inside their texts** — positions as size_t with npos, ranges and front()/back() that can fail; simulation of the list model; the view into the target is read anew each round (Str/Memory.lean).
- **C165 Deep JSON texts and values** — the parser with a number of stack levels; induction on the fuel for texts with fewer openers than levels; induction on the levels for the texts that overflow (Json/Depth.lean).
- **C166 Comparing and hashing JSON values takes time in proportion to their size** — Cost models of ==, < and the hash that count the calls; answers proved equal to those of C32-C34; linear bounds for == and the hash, a bound with the depth in the exponent for <, and nested arrays that reach it.
- **C167 Releasing a task manager** — References are counted in a transition system of the program, the runners and the futures (each with the reference given to its thread); invariant: alive exactly while there is a reference, all joined after a stop. Theorems destroyed_only_unused, release_after_stop_partial; refutation release_without_stop_violated (Verif/Task/Release.lean).
- **C168 Releasing sockets and their service** — Socket/Release.lean: reference counts of sockets and service, tasks with weak references, requests with the sockets their callbacks capture; induction over histories (one callback, one place), absorbing states for the released socket and service. Which handles are ready is any choice; callbacks that capture the service are copies the program holds.

## What is modelled, area by area

Paths are relative to `/repo/fly`. "Assumed" lists what the model takes as given; "not modelled" lists
code of the area that no theorem speaks about.

* **BitStream** — `types/bit_stream/*`: writer and reader functions, the header, the shifts with their
  undefined cases. Assumed: the stream buffer delivers/accepts bytes in order; a flush never fails
  (Logger/EndToEnd drops that assumption). Not modelled: nothing of substance.
* **Base64** — `coders/base64/*`, chunk loops of `coders/coder.cpp`. Assumed: `istream::read` fills the
  requested block unless the input ends. Not modelled: log messages, timing.
* **Huffman** — `coders/huffman/*`: counts, tree, length limiting, canonical codes, header, symbols,
  prefix table, decoding. `std::push_heap`/`pop_heap` are modelled by "takes some minimal element"
  (any order among equals), so the theorems hold for every standard library. Not modelled: logging.
* **Unicode** — `types/string/detail/unicode.hpp`: validation, conversion, escapes, all character types.
  `wchar_t` is 32 bits (as on Linux). Not modelled: exception text.
* **Str** — `types/string/string.hpp`, `lexer.hpp`, `detail/classifier.hpp`, `detail/converter.hpp`.
  Assumed: `std::from_chars` by its standard grammar; random engine: any numbers within the
  distribution's range. Not modelled: overload resolution, `stream_util.hpp`.
* **Numeric** — `types/numeric/*`: byte swap, endian conversion, literals.
* **Net** — `net/ipv4_address.hpp`, `ipv6_address.hpp`, `endpoint.hpp`: parsing, formatting, order. Not
  modelled: hashing, `in_addr` conversions beyond byte order.
* **Conc** — `types/concurrency/*`: threads interleave at the points where the mutex is taken/released;
  condition variables may wake spuriously; a timed wait may end at any time. Assumed: `std::mutex`
  excludes, memory is sequentially consistent under the mutex.
* **Task** — `task/*`: task manager, runners, workers, timer, as a labelled transition system over any
  schedule. Not modelled: perfect forwarding, exceptions thrown by user tasks.
* **Json** — `types/json/*`, `parser/json_parser.*`. Floating-point conversion is abstract (`FloatIO`:
  any pair of conversions). Allocation never fails except by `max_size`. Not modelled: template
  concepts, exception text, iterators of different containers (see C-numbers for what is).
* **Ini**, **Parser** — `parser/ini_parser.cpp`, `parser/parser.cpp`: whole texts, byte order marks.
  Assumed: file reading delivers the bytes of the file.
* **Format** — `types/string/formatters.hpp`, `detail/format_*.hpp`, `format.hpp`. `std::to_chars` for
  integers is digits in the base; for floating point it is abstract (`FloatVal.text`). Not modelled:
  user-defined formatters, locale number grouping.
* **Logger** — `logger/*`: registry, queueing, file sink, rotation, compression, crash points, the
  textual record. Assumed: the file system operations succeed or fail as the `World` says. Not modelled:
  the macros of `logger.hpp`, Windows console.
* **Styler** — `logger/styler.*`, `detail/styler_proxy*`, `detail/nix/styler_proxy_impl.cpp`,
  `detail/console_sink.cpp`: against a small ANSI terminal. Not modelled: Windows.
* **Socket** — `net/socket/*` (nix): handle ownership, synchronous and asynchronous send/receive/accept/
  connect, the service's polling. The operating system is any sequence of answers. Not modelled:
  Windows, DNS resolution, socket options.
* **Config** — `config/*`: registry of configs, live reload, conversion of values.
* **PathMonitor** — `path/path_monitor.cpp`, `path/nix/*`: registration, dispatch, locking. Assumed:
  inotify reports what its manual page says. Not modelled: Windows, macOS, the read loop's errors.
* **System** — `system/nix/system_monitor_impl.cpp`: CPU, process and memory readings over abstract IEEE
  double arithmetic with its rounding rules. Not modelled: Windows, signal handlers.
* Not modelled at all: `assert/*`, `fly.hpp`, build system, tests.

## Axioms

`AXIOMS.md` lists, for every theorem named in `MANIFEST.json`, the axioms `#print axioms` reports. Only
`propext`, `Classical.choice` and `Quot.sound` occur; there are no project axioms, and nothing is
accepted by compiled code.

## Wrong programs

`seeded/LOG.jsonl` records every edit of the model made in a scratch copy, by hand and by a script, with
the theorems that failed and those tightened because they did not.

## Findings: English properties the unchanged code violates

Generated from the comments of the refuting theorems.

* `Assert/Props.lean` `assert_message_violated` — C128 fails for messages: the terminating zero of the string literal is written too.
* `Base64/Props.lean` `base64_memory_safety_encode_violated` — C07 is false of the unchanged code on the encoder side: 98305 bytes make the encoder clear past the end of its 196608-byte buffer.
* `Base64/Props.lean` `base64_memory_safety_decode_violated` — C07 is false of the unchanged code on the decoder side: a byte at or above 0x80 is sign extended and used as an index far outside the 256-entry code table.
* `Base64/Props.lean` `base64_decode_boundary_violated` — The decoder refuses the RFC encoding of some byte strings (for example of 196607 bytes), although it is well formed.
* `Base64/Props.lean` `base64_roundtrip_violated` — C04 is false of the unchanged code: for 98305 bytes already the encoder's behaviour is undefined.
* `BitStream/Props.lean` `bitstream_roundtrip_violated` — C01 is false of the unchanged code: two consecutive 64-bit writes shift a 64-bit value by 64 (bit_stream_writer.hpp 107-111 with `m_position == 0`), which is undefined behaviour.
* `BitStream/Reuse.lean` `bitstream_append_violated` — C158 is false of the unchanged code: what was finished is lost when the program goes on writing.
* `BitStream/Reuse.lean` `bitstream_stale_violated` — C158 is false of the unchanged code: the rest of a longer stream is read as if it had been written.
* `Coder/Props.lean` `encode_in_place_violated` — C113 does not hold in general: encoding a file onto itself destroys it and reports success (the output is truncated before the input is read, coder.cpp 85-86), also if the two names differ.
* `Coder/Props.lean` `failed_call_truncates_violated` — C113 does not hold in general: a call that fails because there is no input file empties the output file.
* `Coder/Props.lean` `full_device_success_violated` — C113 does not hold in general: on a full device the Huffman encoder reports success (the bit stream writer drops the result of every write, bit_stream_writer.hpp 133-135), and what is left is no encoding.
* `Coder/Props.lean` `late_write_violated` — C113 does not hold in general: the Base64 encoder may report success on a full device, because the last bytes are still in the stream's buffer when the return value is fixed.
* `Config/LifetimeProps.lean` `release_in_callback_violated` — C153 fails in full: if the program releases its last reference while the callback is being executed, the manager is never destroyed: the callback's own reference is then the last one, and the destructor waits for the mutex that its own thread holds. Whatever happens later, the destructor does not return, the runner's thread does not leave the poll, and so no other task of this runner is executed and nobody else gets the monitor's mutex.
* `Config/Props.lean` `config_reflects_file_violated` — C50 fails for a file that can be parsed but is not an object: the configuration keeps the values of an older file, although the manager has dropped them; and they then change to the defaults just by asking for the configuration again. (config_manager.cpp 151-156)
* `Config/Props.lean` `existing_file_not_read_violated` — C81 fails: the values of a configuration file that exists when the manager is created are not seen until the file is changed: a configuration made then has its defaults only, whatever the file says.
* `Config/Settings.lean` `ini_boolean_violated` — C137 fails for INI files: whatever text is written for the setting that is a truth value, such as `false`, `no` or `0`, it means "yes" unless it is empty.
* `Config/Settings.lean` `json_settings_violated` — C137 fails for JSON files: a number the setting's type does not hold is not replaced by the default but wrapped around, and one in floating-point notation that does not fit is undefined behaviour: a maximal code length of 267 means 11, a packet size of -1 means 2^64-1, and one of 1e20 anything.
* `Format/Arguments.lean` `buffer_shown_violated` — C140 fails for every buffer that is larger than the text in it needs: the zero after the text and what follows it are shown too, whatever the text and the buffer; the same buffer given as a pointer is shown right.
* `Format/FloatAlt.lean` `float_alt_leading_zeros_violated` — C77 does not hold for small numbers in the alternate general form: leading zeros are counted as significant digits (formatters.hpp 826-833). 0.001 at precision 6 has the text `0.001` and must be shown with six significant digits (`0.00100000`, as `printf("%#g")` does); it is shown as `0.00100`.
* `Format/FloatAlt.lean` `float_alt_infinity_violated` — C77 does not hold for infinity in the alternate form: a point and zeros are appended to its text (`inf.000`).
* `Format/Props.lean` `confused_field_violated` — C24 does not hold in general: the valid field `{:}` is rejected if an alignment character follows it (format_specifier.hpp 534 looks one character past the field).
* `Format/Props.lean` `position_overflow_violated` — C25 does not hold in general: positions are reduced modulo 2^64, so `{18446744073709551616}` is accepted and names parameter 0.
* `Format/Props.lean` `foreign_width_violated` — C27 does not hold for strings of another character type: `{:2}` in a UTF-16 format string with the UTF-8 string `é` has one unit, not two, because the width counts the units before transcoding.
* `Format/Props.lean` `float_buffer_violated` — C77 does not hold in general: the buffer for the digits has as many characters as the type has bits of precision, and what it happens to hold is printed if the digits do not fit (formatters.hpp 777, 800-803): a `double` of 10^60 in the fixed format needs 68 characters.
* `Format/Stream.lean` `stream_format_violated` — C127 fails: 1. with a space for the sign, every `+` of the text becomes a space, also the one of the exponent; 2. a precision of the hexadecimal presentation is ignored; 3. zero padding of a hexadecimal value goes between `0x` and the digits; 4. after a call that an exception left behind the insertion, the next text starts with the one left over; 5. after an insertion that ran out of memory, every later value of the thread is written as nothing; 6. the decimal point is the one of the global locale when the thread formatted its first value, although the locale is not asked for.
* `Format/UserProps.lean` `derived_options_violated` — C112 does not hold in general: options on a field of a derived type make it refer to the first parameter (format_string.hpp 213-219 with format_specifier.hpp 211-235 overwrites the position with 0), so `{:d} {:>3}` with 5 and a JSON value shows 5 twice.
* `Format/UserProps.lean` `derived_lookahead_violated` — C112 does not hold in general: a field `{}` of a derived type reads the text that follows it as its options if an alignment character comes first (format_parameters.hpp 305-332 parses again): `{}<5` shows the value padded with closing braces.
* `Format/UserProps.lean` `derived_integer_violated` — C112 does not hold in general: a field `{}` of a type derived from the formatter of integers has no presentation type, and the value of the enumerator for that, 20, is the base the number is shown in (format_specifier.hpp 150-164, formatters.hpp 291-350): 30 is shown as `1a`.
* `Huffman/Props.lean` `huffman_decoder_safe_violated` — C10 fails. A 13-byte stream announcing three codes of length one with a maximum of one bit makes the decoder write past its prefix table; and a stream whose last code is cut short makes it shift by far too much.
* `Huffman/Props.lean` `huffman_lossless_violated` — C11 fails for a chunk size of zero: whatever the input, the encoder reports success with an output that the decoder rejects.
* `Huffman/Props.lean` `huffman_lossless_violated` — It also fails when a chunk has more distinct symbols than the maximum length has codes.
* `Huffman/Reuse.lean` `huffman_kraft_violated` — The constant is not always defined: a decoder that has decoded three codes of up to two bits and then the encoding of nothing with a maximum of one bit (both successfully) would shift by a negative amount.
* `Ini/Lines.lean` `ini_warning_lines_violated` — Warnings do not name the line they are about: in the text `a` newline `[b]`, the first line is wrong, and the warning says 2.
* `Ini/Props.lean` `ini_lost_setting_violated` — C40 fails: the second declaration of section `a` discards `x=1`.
* `Ini/Props.lean` `ini_missing_name_violated` — C40 fails: `=x=1` is no assignment `name=value` (the name is missing), but is accepted as `x=1`.
* `Ini/Props.lean` `ini_lone_quote_violated` — C40 fails: a value that is a single quotation mark is unbalanced, but is accepted as empty.
* `Json/Alias.lean` `assign_move_violated` — Moving a value into a part of itself loses all of it: the value is null afterwards.
* `Json/Alias.lean` `push_copy_violated` — Appending a null value to itself appends an empty array instead of null, wherever it is.
* `Json/Alias.lean` `push_move_violated` — Appending an array to itself by moving uses a vector that is gone, for every array and null value wherever it is; appending what it is part of loses that.
* `Json/Alias.lean` `self_move_violated` — A call that throws should leave the value alone; with an argument moved from the value itself the value is lost: by `x[key] = std::move(x)` with a key that is not valid, and by `x.insert(key, std::move(x))` always. `insert_or_assign` loses it if there is an entry with the key; if there is none it works.
* `Json/AliasMerge.lean` `merge_parts_violated` — C147 fails otherwise: an object merged into something inside one of its entries, whose keys do not include that entry's, disappears with all entries handed over.
* `Json/Built.lean` `json_built_cut_violated` — C93 does not hold of the call left out: shortening a string can leave half a character.
* `Json/Capacity.lean` `move_is_copy_violated` — A number converts to a string when it is copied but throws when it is moved.
* `Json/ConvertProps.lean` `json_number_exact_violated` — C92 is false of the code: an integer that does not fit the type is silently reduced modulo a power of two, a floating-point value that does not fit is undefined.
* `Json/ConvertProps.lean` `json_to_wide_violated` — C92 is false of the code for a string cut by `resize`: the empty result is dereferenced.
* `Json/Cost.lean` `json_less_cost_violated` — C166 refuted for `<`: `n` arrays, one in the other, are read from a text of `2n` brackets, and comparing two of them takes `2^n - 1` calls; the time is in no proportion to the size.
* `Json/Depth.lean` `json_depth_violated` — C165 refuted: however large the stack, there is an RFC 8259 array on which the parser overflows it, although the array is no longer than twice the number of levels and a parser without a limit reads it.
* `Json/Depth.lean` `json_open_violated` — C165 refuted for malformed texts: opening brackets alone overflow the stack, whatever follows them; no closing bracket is read first.
* `Json/DepthUse.lean` `json_use_depth_violated` — C165 refuted for values built in other ways: on a stack of any size a loop that moves a value into an array again and again, and needs no depth for it, makes a value that cannot be destroyed, copied, compared with itself or written any more.
* `Json/DepthWrite.lean` `json_write_depth_violated` — C165 refuted for writing: however large the stack, an array of arrays, that many levels and one deep, overflows it.
* `Json/Exceptions.lean` `exception_cut_violated` — C116 fails for a string shortened in the middle of a character: building any exception that shows it is undefined behaviour, so a wrong index into an array that holds it is not reported but undefined.
* `Json/Exceptions.lean` `missing_key_text_violated` — C116 fails for keys given as `std::string`: the message is the same for all of them, without the key.
* `Json/Exchange.lean` `swap_loses_violated` — C115 fails when the string is not acceptable: the call throws, the JSON value is as before, and the caller's string is lost.
* `Json/Exchange.lean` `swap_twice_violated` — C115 fails for texts with characters JSON escapes: swapping twice need not restore anything, here because the JSON string holds a line feed.
* `Json/Exchange.lean` `merge_loses_violated` — C115 fails for containers whose values are strings: when a value is not acceptable the merge throws, and that value is lost from the container.
* `Json/InPlace.lean` `json_string_write_violated` — C162 fails for a string that is not UTF-8 (`resize` can leave one behind, C93): the value of an empty optional is used.
* `Json/MoreOpsProps.lean` `json_accessors_violated` — C155 fails: an `emplace` that throws turns a null value into an empty object or array.
* `Json/OldFloats.lean` `json_stold_violated` — C139 fails on compilers without `std::from_chars` for floating-point types: the parser takes `0x1.8` and `-0xe1` for numbers, whatever number `std::stold` makes of them, and with a decimal comma in the locale it refuses `1.5`.
* `Json/Props.lean` `serialize_resize_violated` — C29 fails for a string cut inside a character by `resize`: the value is reached by one call, and serializing it dereferences an empty optional.
* `Json/Props.lean` `serialize_inf_violated` — C29 fails for an infinity, printed as `inf` (formatters.hpp uses `std::to_chars`): no RFC 8259 text.
* `Json/Props.lean` `json_string_restore_violated` — C31 fails: the stored string may be un-escaped a second time to something else, or be rejected.
* `Json/Props.lean` `json_eq_trans_violated` — C32 fails: `-1 == -1.0`, and `-1` (signed) equals 2^64 - 1 (unsigned), but `-1.0` does not.
* `Json/Props.lean` `json_eq_trans_floats_violated` — C32 fails among floats as well: 0, 2^-63, 2^-62.
* `Json/Props.lean` `json_eq_refl_violated` — C32 fails: infinities and NaN are not equal to themselves.
* `Json/Props.lean` `json_order_violated` — C33 fails: signed -1 is below unsigned 0 and unsigned 0 is below signed -1.
* `Json/Props.lean` `json_hash_violated` — C34 fails: equal values with integers of different kinds hash differently whenever `std::hash` maps 1 of both integer types to 1 (libstdc++: the identity).
* `Json/Props.lean` `json_containers_violated` — C35 fails: `json[key]` with an invalid key throws but turns null into an empty object, and so does `merge` with an array; `json[SIZE_MAX]` throws but empties the array.
* `Json/Props.lean` `json_iterators_violated` — C36 fails for the offset -2^63.
* `Json/Props.lean` `json_parser_strict_violated` — C37 fails: `[\v]` is accepted, although a vertical tab is no JSON white space.
* `Json/Props.lean` `json_parser_comment_violated` — C76 fails: with comments allowed, a solidus and any one byte after a comma are skipped: `[1,/x2]` is read as `[1,2]`.
* `Json/RangeError.lean` `iterator_throws_violated` — C150 fails for the smallest offset, -2^63: on every array, at every position, `+=`, `-=` and `[]` have undefined behaviour (the magnitude of that offset is no `difference_type`) instead of throwing; so does `-=` on the iterators of an object.
* `Json/Reverse.lean` `reverse_iterator_offset_violated` — The offset -2^63 is undefined, of any reverse iterator.
* `Json/WarnProps.lean` `json_warnings_violated` — The column is not the number of symbols read of the line, on any line but the first; and a text accepted can give a warning.
* `Json/WorldLoops.lean` `json_iterators_unchecked_violated` — C103 violated: with iterators that are all usable, and calls that only use them on their own objects, the program is undefined when a range is given the wrong way round, when the entries of an object are inserted into itself, or with the offset -2^63. Nothing in the library rejects these calls.
* `Logger/Default.lean` `exit_violated` — Programs do not end safely in general: a logger kept in a static variable.
* `Logger/Props.lean` `get_lost_violated` — **C63 is violated.** Calling `create` with a name in use returns nothing, but the destructor of the object it had made removes the entry of the logger that owns the name: `get` no longer finds the first logger, although nobody released it.
* `Logger/Props.lean` `unique_names_violated` — **C63 is violated.** After such a refused `create`, a third one succeeds: two loggers of one name are in use.
* `Logger/Props.lean` `default_name_violated` — **C63 is violated** for the reserved name: once a logger of that name was created it can never be created again, although no logger of that name is left.
* `Logger/Props.lean` `late_destructor_violated` — **C63 is violated** by a race: a logger nobody can reach any more still blocks its name, and when its destructor comes late it removes the entry of a newer logger.
* `Logger/Props.lean` `lost_record_violated` — **C64 is violated**: when a record cannot be written (disk full), `stream` still answers true, and the record is in no file: only the next call fails.
* `Logger/Props.lean` `compressed_log_lost_violated` — **C64 is violated**: the Huffman encoder does not notice that its output could not be written (`BitStreamWriter::flush` ignores what `sputn` returns, bit_stream_writer.hpp 126-137, so `finish` finds the stream good), so `encode_file` returns true with an incomplete file, and the sink removes the log itself: all its records are lost.
* `Logger/Props.lean` `default_logger_rotation_violated` — **C64 is violated** for the file sink of a synchronous default logger with compression (the default configuration): the encoder logs its statistics through that same logger while the sink rotates. In surroundings where nothing fails, with every record accepted so far, rotating for the first time makes the sink (1) answer false, so the logger stops for good, (2) lose the statistics record, (3) remove the new file it had just opened, and (4) leave the full log file next to its compressed version.
* `Logger/Props.lean` `log_readback_violated` — **C66 is violated**: a message may contain the separators, and then one record's bytes are those of two; no reader can tell them apart.
* `Logger/ThreadsProps.lean` `sync_violated` — Two threads at work at the same time: both records get the same index and the sink works on both at once. And if it then refuses the first of them, the logger can go on as if nothing had happened. From every state of a synchronous logger in which two threads are free.
* `Net/Order.lean` `endpoint_mac_operators_violated` — On macOS the operators disagree with each other: of two endpoints each is less than the other, neither is less than or equal to the other, and they are not equal.
* `Net/Props.lean` `v4_parse_violated` — C57 refuted: "18446744073709551617" (2^64 + 1, outside every form's range) is accepted as 0.0.0.1; and so is the text "5\xff", although 0xff is no digit.
* `Net/Props.lean` `v6_parse_violated` — C59 refuted: neither ":1:2:3:4:5:6:7:8" nor "::1:" is an RFC 4291 text, and both are accepted.
* `Net/Props.lean` `endpoint_port_violated` — C60 refuted for larger ports: port text "18446744073709551617" (2^64 + 1) is accepted as 1.
* `Net/Props.lean` `endpoint_order_violated` — C75 refuted for the hand-written comparison used on macOS: two distinct endpoints are each less than the other.
* `Numeric/Props.lean` `literal_unsigned_violated` — C62 refuted: `18446744073709551617_u8` (2^64 + 1) compiles, to 1.
* `Parser/Props.lean` `bom_utf16le_nul_violated` — C41 fails: the UTF-16LE document of the characters NUL, `1` has the UTF-8 transcoding `00 31`, but is taken for a UTF-32LE document whose last two bytes are cut off: the parser sees the empty text.
* `Parser/Props.lean` `bom_truncated_unit_violated` — C41, a finding: the file `FE FF 00 31 00` is no UTF-16 text (its last unit is cut off), but parses as `1`.
* `PathMonitor/Buffer.lean` `win_polls_violated` — Windows: after an overflow, of which the system reports zero bytes, the entries of the previous completion are delivered again; and an overflow before anything was written makes the monitor take apart an array that was never filled, which can lead outside it.
* `PathMonitor/Destroy.lean` `destroy_silences_other_violated` — Destroying a monitor can silence another one: monitor 0 watches a directory and is destroyed; between the `close` and the `inotify_rm_watch` of its destructor, monitor 1 is created, is given the number just closed, and starts to watch a directory; the destructor then removes that watch. Monitor 1 has the directory registered, and hears nothing of it any more.
* `PathMonitor/Lock.lean` `callback_uses_monitor_violated` — C55 fails for a callback that calls the monitor (here `remove_path`): the dispatching thread waits for itself forever, in every execution in which it gets that far; and any other thread that uses the monitor waits too.
* `PathMonitor/Lock.lean` `config_manager_released_violated` — C55 fails for the library's own callback: if the user of a `ConfigManager` gives up the last reference while a change of the file is being dispatched, the reference held by the callback becomes the last one; the destructor then runs inside the callback and locks the monitor's mutex, which its thread holds.
* `PathMonitor/Mac.lean` `mac_refresh_violated` — C143, against it: a change to a watched file is not reported, ever, if another directory is registered (or one is removed) before the stream has passed it on: for any monitor with nothing else on its way, whatever happens later.
* `PathMonitor/Mac.lean` `mac_unserved_violated` — C143, against it: a registration succeeds although no stream could be created, and then nothing is noticed in any directory, the ones registered earlier included.
* `PathMonitor/Mac.lean` `mac_same_directory_violated` — C143, against it: of two spellings of one directory only one is served: an event leads to one call at most, so one of the two callbacks is not invoked, for whatever order of the hash map.
* `PathMonitor/Mac.lean` `mac_rename_violated` — C143, against it: files that are moved (`kFSEventStreamEventFlagItemRenamed` is 0x800) are not reported. On Linux they are (`created` where they appear, `deleted` where they vanish).
* `PathMonitor/Mac.lean` `mac_destroy_violated` — C143, against it: destroying a monitor is defined only if nothing is registered: otherwise the directories use the parts of the monitor that are gone. After any history.
* `PathMonitor/Mac.lean` `mac_poll_violated` — C143, against it: events that are handled in less than a millisecond each do not use up the time of the poll: with a timeout of one millisecond (or any other), it can last as long as you like, and other tasks of the runner wait.
* `PathMonitor/Props.lean` `concurrent_registration_violated` — C53 fails: `remove_file` of one file and `add_file` of another run concurrently and both succeed, but afterwards the added file is not monitored: whatever happens to it, no callback is invoked.
* `PathMonitor/Props.lean` `registration_served_aliases_violated` — C54 fails with two spellings of one directory: both registrations succeed, but an event is reported under one of them only, depending on the order of the hash map; and after one of them is removed the other, though still registered, is never served again.
* `PathMonitor/Props.lean` `registration_served_recreated_violated` — C54 fails for a directory that is removed and created again: `add_path` for the new directory succeeds, but its events are never reported.
* `PathMonitor/Win.lean` `registration_lost_violated` — A registration that succeeded is lost although nobody removed it and the system took every request for it: a poll finds that the directory cannot be asked about any further and lets go of the mutex; another thread removes the directory and adds it again, which succeeds, with a new handle; then the poll removes it.
* `PathMonitor/Win.lean` `registration_dead_violated` — A registration succeeds and is never served, though nobody removes it and the system takes requests for the directory: the directory was registered, deleted and made again, and then added again.
* `Socket/BindProps.lean` `bind_modes_violated` — C157 fails. 1. On Linux a call of `bind` that fails still permits reuse for good: a socket bound for single use afterwards (here to another endpoint, after the first was refused by the system) shares it with a socket that allows reuse; 2. also one bound for single use before, on which `bind` is called again and fails; 3. on Windows a socket that allows reuse takes the endpoint of one bound for single use in any case.
* `Socket/Connect.lean` `connect_callback_dropped_violated` — C117 fails in full: the attempt ends and the callback is never told. First: the socket is closed while the connection is being made. Second: another `connect_async` is made meanwhile; the OS answers `EALREADY`, which closes the socket, and the first callback is dropped. In both, no task and no request is left.
* `Socket/Connect.lean` `connect_closes_connected_violated` — C117 fails in full: a second `connect_async` that is answered "connected" (the first attempt has just succeeded) makes the first callback's `finish_connect` close the connection that was reported as made.
* `Socket/Identity.lean` `moved_from_receive_violated` — A call on a socket that was moved from should fail as on a closed socket; instead receiving from it dereferences a null pointer, for every socket a program has and whatever else it does with others meanwhile (the calls with a callback are refused).
* `Socket/Identity.lean` `moved_async_violated` — Asynchronous calls are accepted or refused, without exceptions, on every object a service made or that was constructed in place; an object into which an asynchronous socket was moved, and which is not itself owned by a `shared_ptr`, is open and asynchronous but every asynchronous call on it throws.
* `Socket/Listen.lean` `accept_error_closes_violated` — **C95 does not hold in full**: one failed `accept` (a client that gave up: `ECONNABORTED`; no descriptors left: `EMFILE`) closes the listening socket: the connections already waiting are lost, and the other callbacks are never invoked.
* `Socket/Listen.lean` `accept_would_block_closes_violated` — **C95 does not hold in full**: `accept` on a socket in the asynchronous mode with no connection waiting closes it (listen_socket.cpp 98-113 ignores `would_block`): the callbacks waiting are never invoked, later connections are refused.
* `Socket/Listen.lean` `listening_after_close_violated` — **C96 does not hold in full**: after `close`, and after a failed `accept`, `is_listening` is still true.
* `Socket/Mode.lean` `by_name_violated` — C134 fails for names with a zero character: the call goes to the host named by what precedes it, although no host has the name given.
* `Socket/Network.lean` `udp_delivery_violated` — C109 fails if the receiver's packet size is smaller than the sender's: the end of the message is lost without a trace, and the socket stays open. (nix/socket_operations.cpp 492-500)
* `Socket/Network.lean` `tcp_zero_packet_violated` — With a configured packet size of 0 (nothing refuses it) the receiving socket closes itself although data is waiting.
* `Socket/Props.lean` `handles_closed_exactly_once_violated` — C68 fails in general: assigning a socket to another one that is open loses the handle the latter held; it stays open after all sockets are gone. (base_socket.cpp 65-77)
* `Socket/Props.lean` `connected_is_open_violated` — C69 fails: a connected socket that is closed (by the program, or by a failed send or receive) still reports connected; and so does an accepted socket whose I/O mode could not be set. (base_socket.cpp 145-158)
* `Socket/Props.lean` `sync_send_closes_healthy_socket_violated` — A synchronous send of the empty message, or one for which a non-blocking socket has no room right now, closes the socket although nothing is wrong with it.
* `Socket/Props.lean` `stream_order_violated` — C78 fails: two messages sent asynchronously on one TCP socket are mixed up when the first one finds room for only a part: its remainder is queued behind the second message.
* `Socket/Props.lean` `empty_datagram_closes_violated` — A UDP socket that receives an empty datagram (a legal datagram) is closed.
* `Socket/Props.lean` `sync_receive_would_block_closes_violated` — A synchronous receive on a non-blocking socket with nothing to receive yet closes it.
* `Socket/Props.lean` `polling_once_violated` — C72 fails in general: closing a socket and using a new one again and again makes polls pile up without bound.
* `Socket/Props.lean` `select_handles_violated` — C73 fails: an asynchronous operation on a closed socket makes a request for handle -1, which is passed to `select` (`FD_SET(-1)`, undefined behaviour), in every poll to come.
* `Socket/Reuse.lean` `reuse_callbacks_violated` — A callback can be invoked on account of another socket: socket 0 waits for data and is closed; its handle number is given to socket 1 before the service has run the removal, data arrive for socket 1, and the poll that is already queued invokes the callback of socket 0.
* `Socket/Select.lean` `select_large_handle_violated` — C108 fails for handles from 1024 on (a process may well have that many files open: the limit on descriptors is not `FD_SETSIZE`): `FD_SET` writes outside the `fd_set`, whatever the kernel would answer.
* `Socket/Views.lean` `async_send_view_violated` — C111 fails: nothing in the documentation of `send_async` asks the caller to keep the message, but if the message is destroyed before the socket becomes writable, destroyed memory is read and sent; and if it is overwritten, the peer gets the new bytes, and, after a partial send, a mixture of both.
* `Socket/WinConnect.lean` `win_connect_failure_violated` — A connection attempt that fails is never reported: from any state in which the attempt is under way, whatever the service does and however often it polls, the callback is not invoked and its request stays where it is (so that the service polls for ever), until somebody closes the socket or tries again.
* `Socket/WinConnect.lean` `win_connect_short_buffer_violated` — If `getsockopt` refuses the short buffer, every connection that was made is reported as failed, and closed.
* `Socket/WinIo.lean` `win_send_to_violated` — C135 fails for every packet size from 2147483648 to 4294967296 and every message at least as long: nothing is sent although the OS would accept all of it, and the caller is not told that it could try again (so the socket is closed).
* `Socket/WinIo.lean` `win_recv_violated` — C135 fails for packet sizes from 2147483648 below 4294967296: whatever arrives, an empty string is returned, and not because the call would block; with 4294967296 nothing of a stream is ever delivered.
* `Socket/WinIo.lean` `win_select_violated` — C136 fails with more than 64 handles in a direction: whatever the OS finds ready, of the handles in ascending order those after the first 64 are never reported.
* `Socket/WinIo.lean` `win_poll_starves_violated` — C136 fails for the service: a request for a socket to be read whose handle comes after 64 others that are waited for is not served by a poll, ready or not; so it is never served as long as the others are waited for.
* `Socket/Winsock.lean` `winsock_up_violated` — C132 fails: 1. while one thread is still starting the network, another one's service is created at once and finds it down; 2. if starting the network fails once, the counter is decremented twice: after that service is gone, the next one does not even try; 3. a service whose start failed calls `WSACleanup` although it started nothing: it takes down the network that another service has started in the meantime.
* `Socket/Wire.lean` `endpoint_reply_violated` — C107 fails for link-local IPv6 peers: the scope (the interface) is dropped. Two different peers, `fe80::1` on interfaces 2 and 3, are the same endpoint to the program, and a reply to either is handed to the OS without an interface. (nix/socket_operations.cpp 44-47, 60-69)
* `Str/Cursor.lean` `lexer_calls_violated` — C88 fails for offsets that carry past 2^64: after any character was taken, `peek(-1)` - the largest offset - is not past the end but shows that character again; no cursor answers so.
* `Str/Floats.lean` `float_versions_agree_violated` — C138 fails on compilers without `std::from_chars` for floating-point types: `" 1"`, `"+1"` and `"0x1p4"` are converted although they are not texts of a floating-point number, and in a locale with a decimal comma `"1.5"` is refused and `"1,5"` converted. The decimal comma and the others are refused by the version with `std::from_chars`.
* `Str/Memory.lean` `replace_self_violated` — C164 refuted for a search view into the target: with any such view that is not empty and any replacement of the same length, `replace_all` never ends, for every target — also where it ends with a copy of the same search string.
* `Str/Props.lean` `split_keeps_rest_violated` — C74 refuted: with a limit, the rest of the string is not kept verbatim in the last element: `split("a=b==c", '=', 2)` drops one of the two neighbouring delimiters.
* `Str/Props.lean` `replace_all_diverges_violated` — C20 refuted: `replace_all` does not terminate when the search string occurs in the target and also in the replacement.
* `Str/Props.lean` `wildcard_exact_violated` — C21 refuted: the pattern "a*a" is reported to match "a", and the pattern "a" to match "aba".
* `Str/Props.lean` `classify_digits_violated` — C22 refuted for `char` and `wchar_t`: the byte 0xE9 (é in Latin-1) is a digit and a hexadecimal digit, and so is a negative `wchar_t`.
* `Str/Props.lean` `consume_number_violated` — C23 refuted: a run whose value does not fit is accepted with the value reduced modulo 2^64 ("18446744073709551617" gives 1), and a negative character is consumed as a digit.
* `Str/Replace.lean` `replace_all_again_violated` — Where the replacement runs into the search string the two differ: the loop finds an occurrence that was not there before. "ab" by "b" gives "b" for "aab", from left to right it is "ab".
* `Str/Text.lean` `join_negative_separator_violated` — C99 refuted: a separator at or above 0x80 (negative as `char`) is left out.
* `Styler/Nested.lean` `styler_width_violated` — C97 is false of the unchanged code: the field width meant for the text is spent on the styler.
* `Styler/Nested.lean` `styler_left_violated` — C97 is false of the unchanged code: with the padding on the right it ends up inside the control sequence, the rest of which is displayed.
* `Styler/Props.lean` `styler_nested_violated` — C97 refuted, nesting: destroying an inner styler also ends the look of the outer one, which is still alive ("reset the stream's style and color to its original state").
* `Styler/Props.lean` `styler_restream_violated` — C97 refuted, a styler held and streamed again: the second streaming switches the look off.
* `Styler/Props.lean` `styler_hex_violated` — C97 refuted, number formats: after `std::hex` the colour 20 is written as `14`.
* `Styler/Props.lean` `console_injection_violated` — C98 refuted for messages with escape characters: the message of one record changes the look of the next record's message.
* `Styler/Win.lean` `win_styler_violated` — Two stylers that are destroyed in the order of their creation leave the look of the second one behind for ever; and a movement past the right edge is not carried out at all, with it all other movements of the same styler.
* `System/OtherPollProps.lean` `mac_monitor_reports_violated` — C156 fails on macOS: if the system names no processors at one poll, the monitor that knew of some reports none, and stops for good: nothing it is told later is reported.
* `System/Others.lean` `windows_usage_violated` — C130 fails on Windows: 1. two polls within one tick of the clock, as with a short poll interval: the usage is not a number, or infinite; 2. the clock is set back between two polls: a process that used all of the second reported is said to have used less than one percent; 3. the first poll divides by the time since 1601: a process that was busy from its start is said to have used less than one percent.
* `System/Others.lean` `windows_no_processors_violated` — C130 fails on Windows as long as the number of processors is not known (it is 0 until it could be polled): the usage is no percentage, and "not a number" for a process that has not used any time.
* `System/Others.lean` `mac_usage_violated` — C130 fails on macOS: 1. a process that has used no time outside the system is never measured, whatever it uses: its usage stays zero for as long as that is so, and for one poll more; 2. two polls less than a microsecond apart: the usage is not a number, or infinite; 3. the time between two polls is cut to whole microseconds: the usage can exceed 100 although no more time was used than there was (3 of 3.998 microseconds of two processors are 150 %).
* `System/Props.lean` `cpu_usage_percentage_violated` — C67 fails if two samples are equal, as when the monitor polls more often than the kernel counts: the usage is then not a number.
* `System/Rounded.lean` `cpu_usage_rounding_violated` — C67 fails for large counters, however ties are rounded: if all of 1441151880758565 ticks were busy (less than 2^51), the usage reported is more than 100.
* `System/Signals.lean` `signal_handler_violated` — C129 fails: 1. while a handler is being removed, a signal calls an empty function: the handler is dropped before the signals are set back; 2. while a handler is being replaced, a signal calls a function that is being assigned; 3. where the disposition is reset on arrival (Windows, System V), only the first signal of each number reaches the handler; the second gets the default action.
* `Task/Lifecycle.lean` `start_during_stop_violated` — C141, against it: a `start` that comes while another thread is in `stop` succeeds, and then two calls use the vector of futures at once; moreover that `stop` does not return, whatever happens, until somebody calls `stop` once more. And a `stop` that comes second returns at once although no thread has ended. For any number of workers.
* `Task/Live.lean` `accepted_tasks_get_executed_violated` — Violation of the claim for "every number of workers": `TaskManager::create(0)` succeeds and starts only the timer thread (task_manager.cpp 57-64). A runner of that running manager accepts the task, and in no later state, whatever happens, has the task begun.
* `Task/Locks.lean` `captures_violated` — C142, against it: objects captured by tasks whose destructors post a task make the thread wait for itself. A worker that drops a task because its runner is gone destroys it at the next pop, under the lock of the queue. The timer drops a delayed task under the lock of the delayed tasks. And a program whose task is refused by a sequenced runner, as the manager is gone, destroys it under the lock of that runner.
* `Task/Locks.lean` `sequence_captures_violated` — C142, also against it: the objects captured by a task of a sequenced runner are destroyed only after the next task of that runner has been handed to the workers, so their destructors can run at the same time as the next task.
* `Task/Props.lean` `restart_wedges_runner_violated` — C46 refuted as stated: a task manager that was stopped and started again may leave a sequenced runner that accepts tasks (the call returns true) and never executes any of them, in any continuation.
* `Task/Release.lean` `release_without_stop_violated` — C167 fails for a manager that was not stopped: its threads have references to it, so when the program has released its last one the manager is never destroyed, and all its threads run for ever, whatever happens: nobody can call `stop` any more.
* `Unicode/Props.lean` `escape_all_inverse_violated` — C17 is false of the unchanged code: the six characters `\u0041` are all printable, so escaping leaves them alone and unescaping turns them into `A`.

## Other observations made while reading

Not theorems (the surrounding code is not modelled, or the point is about another platform):

* `select` is given the time `{0, usec}`, invalid on some systems for a timeout of a second or more.
* `Json::swap(string&)` loses the other string if constructing the new value throws.
* Reversed iterator ranges passed to `Json::erase`/`insert` are not validated.
* `encode_string`/`decode_string` assign their output only on success.
* `format("{}", c)` for a negative `char` prints nothing.
