{"id": "C01", "title": "Bit stream round trip", "statement": "If a client performs any sequence of write_bits calls (each value fitting in its width), then finish() returns success, a BitStreamReader over the produced bytes that reads the same widths in the same order gets back the same values with full width, and fully_consumed() is then true.", "quantifier": "every finite sequence of (width, value) writes with width 1..64 and value < 2^width, of any total length", "why_tests_cant": "widths interleave with the 64-bit buffer, byte flushes and the remainder header; the combinations are unbounded", "anchors": ["fly/types/bit_stream/bit_stream_writer.cpp:BitStreamWriter", "fly/types/bit_stream/bit_stream_writer.hpp:write_bits", "fly/types/bit_stream/bit_stream_reader.hpp:read_bits", "fly/types/bit_stream/bit_stream_reader.cpp:refill_buffer"]}
{"id": "C02", "title": "Bit stream wire layout", "statement": "The bytes produced by the writer are exactly: one header byte (magic 0x1a in the top five bits, number of zero padding bits in the low three) followed by the written bits, most significant first, packed big-endian and zero padded to a whole byte.", "quantifier": "every finite sequence of writes", "why_tests_cant": "the layout must hold for every alignment of writes against the buffer", "anchors": ["fly/types/bit_stream/bit_stream_writer.cpp:finish", "fly/types/bit_stream/bit_stream_writer.cpp:flush_header", "fly/types/bit_stream/bit_stream_writer.hpp:write_bits"]}
{"id": "C03", "title": "Bit stream reader never invents data", "statement": "A reader hands out exactly the bits stored in the stream: any sequence of read requests returns consecutive bits of the stream, a read that asks for more than is left reports fewer bits, and the total number of bits reported never exceeds the number stored; a stream whose first byte lacks the magic (or is empty) is rejected.", "quantifier": "every byte string and every finite sequence of read widths", "why_tests_cant": "arbitrary streams times arbitrary request sequences", "anchors": ["fly/types/bit_stream/bit_stream_reader.hpp:peek_bits", "fly/types/bit_stream/bit_stream_reader.hpp:read_bits", "fly/types/bit_stream/bit_stream_reader.cpp:BitStreamReader"]}
{"id": "C04", "title": "Base64 round trip", "statement": "For every byte string, encoding and then decoding succeeds and returns the original bytes.", "quantifier": "every byte string of every length", "why_tests_cant": "chunked streaming with 192 KiB / 256 KiB buffers makes the behaviour depend on length in ways small tests never reach", "anchors": ["fly/coders/base64/base64_coder.cpp:encode_internal", "fly/coders/base64/base64_coder.cpp:decode_internal"]}
{"id": "C05", "title": "Base64 encoder conforms to RFC 4648", "statement": "The encoder's output is the RFC 4648 encoding of the input: length 4*ceil(n/3), characters only from the alphabet, exactly (3 - n mod 3) mod 3 '=' characters at the end, and the sextets are the big-endian regrouping of the input bits, independent of buffer boundaries.", "quantifier": "every byte string", "why_tests_cant": "unbounded input and buffer-boundary effects", "anchors": ["fly/coders/base64/base64_coder.cpp:encode_internal", "fly/coders/base64/base64_coder.cpp:encode_chunk"]}
{"id": "C06", "title": "Base64 decoder strictness", "statement": "The decoder reports success only for input that is a sequence of four-character groups over the alphabet, with padding only in the last group; any other character, misplaced padding or truncated group is reported as failure.", "quantifier": "every input string", "why_tests_cant": "the rejected set is infinite", "anchors": ["fly/coders/base64/base64_coder.cpp:decode_internal", "fly/coders/base64/base64_coder.cpp:decode_chunk", "fly/coders/base64/base64_coder.cpp:parse_chunk"]}
{"id": "C07", "title": "Base64 memory safety", "statement": "Encoding and decoding never read or write outside the coder's tables and buffers.", "quantifier": "every input string", "why_tests_cant": "undefined behaviour depends on byte values and lengths no test enumerates", "anchors": ["fly/coders/base64/base64_coder.cpp:encode_internal", "fly/coders/base64/base64_coder.cpp:decode_chunk"]}
{"id": "C08", "title": "Huffman round trip", "statement": "For every valid coder configuration and every byte string, HuffmanEncoder followed by HuffmanDecoder succeeds and returns the original bytes.", "quantifier": "every byte string, every chunk size >= 1 KiB, every maximum code length that can hold the alphabet", "why_tests_cant": "tree shapes, tie breaking, length limiting and chunking are combinatorial", "anchors": ["fly/coders/huffman/huffman_encoder.cpp:encode_binary", "fly/coders/huffman/huffman_decoder.cpp:decode_binary"]}
{"id": "C09", "title": "Huffman codes are a length-limited prefix code", "statement": "For every frequency table the codes assigned are pairwise prefix-free, no code is longer than the configured maximum, and every symbol that occurs has a code of length at least 1.", "quantifier": "every frequency table and maximum length 1..15 with enough room", "why_tests_cant": "needs an argument over all trees and the length-limiting heuristic", "anchors": ["fly/coders/huffman/huffman_encoder.cpp:create_codes", "fly/coders/huffman/huffman_encoder.cpp:limit_code_lengths", "fly/coders/huffman/huffman_encoder.cpp:convert_to_canonical_form"]}
{"id": "C10", "title": "Huffman decoder memory safety", "statement": "On every input, including hostile ones, the decoder stays inside its code array and prefix table.", "quantifier": "every byte string given to the decoder", "why_tests_cant": "hostile inputs are unbounded", "anchors": ["fly/coders/huffman/huffman_decoder.cpp:decode_codes", "fly/coders/huffman/huffman_decoder.cpp:convert_to_prefix_table"]}
{"id": "C11", "title": "Huffman encoder never reports success while losing data", "statement": "Whenever the encoder reports success, the output decodes to the input (in particular for every configuration value).", "quantifier": "every configuration and byte string", "why_tests_cant": "configuration corner values", "anchors": ["fly/coders/huffman/huffman_encoder.cpp:encode_binary", "fly/coders/coder_config.cpp:huffman_encoder_chunk_size"]}
{"id": "C12", "title": "UTF-8 encode/decode round trip", "statement": "Encoding any Unicode scalar value to UTF-8 and decoding it consumes the whole encoding and returns the same value.", "quantifier": "all 1,112,064 scalar values and any trailing text", "why_tests_cant": "whole code space times arbitrary following text", "anchors": ["fly/types/string/detail/unicode.hpp:codepoint_to_string", "fly/types/string/detail/unicode.hpp:codepoint_from_string"]}
{"id": "C13", "title": "UTF-8 validation is exact", "statement": "String validation accepts a byte string iff it is well-formed UTF-8 in the sense of RFC 3629 (shortest form, no surrogates, at most U+10FFFF).", "quantifier": "every byte string", "why_tests_cant": "exactness over an infinite language; overlong, truncated and surrogate forms", "anchors": ["fly/types/string/detail/unicode.hpp:validate_encoding", "fly/types/string/detail/unicode.hpp:codepoint_from_string"]}
{"id": "C14", "title": "UTF-16 round trip and exact validation", "statement": "Encoding any scalar value to UTF-16 and decoding returns it; a UTF-16 string validates iff every surrogate is part of a high-low pair.", "quantifier": "every scalar value and every sequence of 16-bit units", "why_tests_cant": "infinite language", "anchors": ["fly/types/string/detail/unicode.hpp:codepoint_from_string", "fly/types/string/detail/unicode.hpp:codepoint_to_string"]}
{"id": "C15", "title": "Transcoding preserves text", "statement": "Converting a valid string between UTF-8, UTF-16 and UTF-32 succeeds and converting back yields the original string; converting an invalid string fails.", "quantifier": "every string in every encoding pair", "why_tests_cant": "infinite language times nine encoding pairs", "anchors": ["fly/types/string/detail/unicode.hpp:convert_encoding", "fly/types/string/string.hpp:convert"]}
{"id": "C16", "title": "Escaped code point round trip", "statement": "escape_codepoint followed by unescape_codepoint returns the original character for both \\u and \\U styles; output of escape is printable ASCII.", "quantifier": "every scalar value, both prefixes", "why_tests_cant": "whole code space", "anchors": ["fly/types/string/detail/unicode.hpp:escape_codepoint", "fly/types/string/detail/unicode.hpp:unescape_codepoint"]}
{"id": "C17", "title": "Escape-all / unescape-all are inverse", "statement": "escape_all_codepoints followed by unescape_all_codepoints returns the original string.", "quantifier": "every valid string", "why_tests_cant": "interaction of literal backslashes with escapes", "anchors": ["fly/types/string/detail/unicode.hpp:escape_all_codepoints", "fly/types/string/string.hpp:unescape_all_codepoints"]}
{"id": "C18", "title": "Split yields the delimiter-separated non-empty pieces", "statement": "split(s, d) returns, in order, exactly the maximal delimiter-free non-empty substrings of s; split(s, d, n) with n > 0 returns at most n pieces (the last one holds the rest of the text; n = 0 means no limit).", "quantifier": "every string, delimiter and count", "why_tests_cant": "unbounded", "anchors": ["fly/types/string/string.hpp:split"]}
{"id": "C19", "title": "Trim removes exactly surrounding whitespace", "statement": "trim(s) is the unique string with no leading or trailing whitespace such that s is whitespace ++ it ++ whitespace (or empty if all whitespace).", "quantifier": "every string", "why_tests_cant": "unbounded", "anchors": ["fly/types/string/string.hpp:trim"]}
{"id": "C20", "title": "replace_all terminates and removes every occurrence", "statement": "replace_all terminates and its result contains no occurrence of the search string.", "quantifier": "every source, search and replacement", "why_tests_cant": "termination for all inputs is not testable", "anchors": ["fly/types/string/string.hpp:replace_all", "fly/types/string/string.hpp:remove_all"]}
{"id": "C21", "title": "Wildcard match is glob match", "statement": "wildcard_match(source, pattern) is true iff source matches pattern where '*' stands for any (possibly empty) substring.", "quantifier": "every source and pattern", "why_tests_cant": "infinite relation", "anchors": ["fly/types/string/string.hpp:wildcard_match"]}
{"id": "C22", "title": "Character classification is ASCII-exact", "statement": "is_digit, is_x_digit, is_alpha, is_upper, is_lower, is_space, to_upper and to_lower agree with their ASCII definitions on every character of every character type.", "quantifier": "every value of every character type", "why_tests_cant": "every code unit of four character widths including negative ones", "anchors": ["fly/types/string/detail/classifier.hpp:is_digit", "fly/types/string/detail/classifier.hpp:is_x_digit"]}
{"id": "C23", "title": "Lexer number scanning", "statement": "consume_number (consume_hex_number) consumes exactly the maximal run of digits at the cursor and returns its value, or consumes nothing and returns nothing.", "quantifier": "every string and cursor position", "why_tests_cant": "digit runs of any length, including ones that do not fit", "anchors": ["fly/types/string/lexer.hpp:consume_number", "fly/types/string/lexer.hpp:consume_hex_number"]}
{"id": "C24", "title": "Format string literal text and escapes", "statement": "format copies literal text unchanged, turns '{{' and '}}' into single braces, and rejects unmatched braces.", "quantifier": "every format string", "why_tests_cant": "unbounded grammar", "anchors": ["fly/types/string/detail/format_string.hpp:BasicFormatString", "fly/types/string/detail/format.hpp:format_to"]}
{"id": "C25", "title": "Format parameter selection is in range and unmixed", "statement": "An accepted format string only refers to existing parameters, and automatic and explicit positions are never mixed; automatic positions are assigned 0,1,2,... in order.", "quantifier": "every format string and parameter count", "why_tests_cant": "all specifier combinations", "anchors": ["fly/types/string/detail/format_parse_context.hpp:next_position", "fly/types/string/detail/format_specifier.hpp:parse"]}
{"id": "C26", "title": "Formatted integers denote the value", "statement": "Formatting an integer with base b, sign, prefix, width, alignment and fill produces text which, after removing padding, sign and prefix, is the base-b representation of its absolute value, and has length max(width, natural length).", "quantifier": "every 64-bit integer and every specifier combination", "why_tests_cant": "value and option space", "anchors": ["fly/types/string/formatters.hpp:Formatter"]}
{"id": "C27", "title": "Formatted strings honour width, precision and alignment", "statement": "Formatting a string with precision p and width w yields the first p characters padded with the fill to w on the side(s) given by the alignment.", "quantifier": "every string, width, precision, fill, alignment", "why_tests_cant": "unbounded", "anchors": ["fly/types/string/formatters.hpp:Formatter"]}
{"id": "C28", "title": "JSON serialize/parse round trip", "statement": "Parsing the serialization of a JSON value yields an equal value.", "quantifier": "every JSON value without floating point numbers whose strings are well formed, of any depth and width", "why_tests_cant": "recursive structure and escapes", "anchors": ["fly/types/json/json.cpp:serialize", "fly/parser/json_parser.cpp:parse_internal"]}
{"id": "C29", "title": "JSON serialization is strict RFC 8259 text", "statement": "serialize() emits a text derivable from the RFC 8259 grammar (strings fully escaped, no raw control characters).", "quantifier": "every JSON value", "why_tests_cant": "recursive structure", "anchors": ["fly/types/json/json.cpp:serialize", "fly/types/json/json.cpp:write_escaped_character"]}
{"id": "C30", "title": "JSON string construction un-escapes exactly and rejects bad input", "statement": "Constructing a JSON string accepts exactly texts without raw quotes/control characters and with valid escapes, and stores the characters the escapes denote.", "quantifier": "every string", "why_tests_cant": "infinite language", "anchors": ["fly/types/json/json.cpp:validate_string", "fly/types/json/json.cpp:read_escaped_character"]}
{"id": "C31", "title": "A JSON string read back can be stored again", "statement": "Taking the string (or object key) held in a Json and constructing a Json from it (or looking the key up) succeeds and gives an equal value.", "quantifier": "every JSON string", "why_tests_cant": "all escape combinations", "anchors": ["fly/types/json/json.hpp:convert_to_string", "fly/types/json/json.cpp:validate_string"]}
{"id": "C32", "title": "JSON equality is an equivalence", "statement": "operator== on Json is reflexive, symmetric and transitive.", "quantifier": "all JSON values", "why_tests_cant": "all triples of values of eight types", "anchors": ["fly/types/json/json.cpp:operator=="]}
{"id": "C33", "title": "JSON ordering is a strict weak order consistent with equality", "statement": "operator< is irreflexive, asymmetric and transitive, and exactly one of a<b, a==b, b<a holds.", "quantifier": "all JSON values", "why_tests_cant": "all triples", "anchors": ["fly/types/json/json.cpp:operator<"]}
{"id": "C34", "title": "Equal JSON values hash equally", "statement": "a == b implies std::hash(a) == std::hash(b).", "quantifier": "all pairs of JSON values", "why_tests_cant": "all pairs", "anchors": ["fly/types/json/json.hpp:hash"]}
{"id": "C35", "title": "JSON object and array operations behave like a map and a vector", "statement": "Every history of at/operator[]/insert/insert_or_assign/erase/merge/clear/push_back/pop_back/resize calls has the results of the same operations on a mathematical finite map or sequence, and fails without changing the value when the type does not support it.", "quantifier": "every finite sequence of operations", "why_tests_cant": "histories are unbounded", "anchors": ["fly/types/json/json.hpp:insert_or_assign", "fly/types/json/json.cpp:erase", "fly/types/json/json.cpp:merge", "fly/types/json/json.hpp:get_or_promote"]}
{"id": "C36", "title": "JSON iterators never leave their container", "statement": "Any sequence of iterator increments, decrements, offsets and dereferences either throws or refers to an element of the container.", "quantifier": "every container and every sequence of iterator operations", "why_tests_cant": "unbounded histories and offsets", "anchors": ["fly/types/json/detail/json_iterator.hpp:validate_offset", "fly/types/json/detail/json_iterator.hpp:validate_dereference"]}
{"id": "C37", "title": "JSON parser rejects non-JSON", "statement": "With no feature flags the parser succeeds only on texts that are (whitespace-delimited) RFC 8259 objects or arrays; comments and trailing commas are accepted only with their flags.", "quantifier": "every input text", "why_tests_cant": "infinite language", "anchors": ["fly/parser/json_parser.cpp:parse_value", "fly/parser/json_parser.cpp:validate_number"]}
{"id": "C38", "title": "JSON parser consumes all input and is deterministic about duplicates", "statement": "A successful parse has consumed the entire input, and for duplicate keys the last occurrence wins.", "quantifier": "every input text", "why_tests_cant": "infinite language", "anchors": ["fly/parser/json_parser.cpp:parse_internal", "fly/parser/json_parser.cpp:parse_object"]}
{"id": "C39", "title": "INI parse of rendered configuration", "statement": "Parsing the rendering of a configuration (sections of name=value lines) yields exactly that configuration.", "quantifier": "every configuration with clean names and values", "why_tests_cant": "unbounded", "anchors": ["fly/parser/ini_parser.cpp:parse_internal", "fly/parser/ini_parser.cpp:on_value"]}
{"id": "C40", "title": "INI rejects malformed lines and never drops settings", "statement": "Any line that is not blank, a comment, a balanced section header or a name=value assignment inside a section makes the parse fail; every accepted assignment is present in the result.", "quantifier": "every input text", "why_tests_cant": "infinite language", "anchors": ["fly/parser/ini_parser.cpp:on_line", "fly/parser/ini_parser.cpp:on_section"]}
{"id": "C41", "title": "Parser input encoding detection", "statement": "A UTF-16 or UTF-32 document with a byte-order mark parses exactly like its UTF-8 transcoding; a document without one is read as UTF-8.", "quantifier": "every text and each of the five byte-order marks", "why_tests_cant": "every document", "anchors": ["fly/parser/parser.cpp:ensure_utf8", "fly/parser/parser.cpp:detect_encoding"]}
{"id": "C42", "title": "Concurrent queue is a linearizable FIFO", "statement": "In every interleaving of pushes and pops by any number of threads, popped values come out in push order, each pushed value is popped at most once and none is invented or lost.", "quantifier": "all interleavings of any number of threads", "why_tests_cant": "schedules", "anchors": ["fly/types/concurrency/concurrent_queue.hpp:ConcurrentQueue", "fly/types/concurrency/detail/concurrent_container.hpp:push"]}
{"id": "C43", "title": "Concurrent stack is a linearizable LIFO", "statement": "As C42, with last-in first-out order.", "quantifier": "all interleavings", "why_tests_cant": "schedules", "anchors": ["fly/types/concurrency/concurrent_stack.hpp:ConcurrentStack", "fly/types/concurrency/detail/concurrent_container.hpp:pop"]}
{"id": "C44", "title": "Timed pop fails only on an empty container, and pushes are not missed", "statement": "A timed pop returns false only if the container was empty when it gave up; no waiting consumer stays asleep while an element is available and a notification was due to it.", "quantifier": "all interleavings", "why_tests_cant": "wake-up races", "anchors": ["fly/types/concurrency/detail/concurrent_container.hpp:pop"]}
{"id": "C45", "title": "Sequenced tasks never overlap and run in posting order", "statement": "Tasks posted to one SequencedTaskRunner execute one at a time, in the order they were posted, whatever the worker threads do and whatever tasks post from within tasks.", "quantifier": "every number of workers and every interleaving of posts, timer expiries and executions", "why_tests_cant": "schedules", "anchors": ["fly/task/task_runner.cpp:maybe_post_task", "fly/task/task_manager.cpp:worker_thread"]}
{"id": "C46", "title": "Posted tasks are executed exactly once while the manager runs", "statement": "While the task manager is running, every accepted task of a live runner is held exactly once (queued, pending or executing) until it is executed, and is executed at most once; a sequenced runner with waiting tasks always has one in flight.", "quantifier": "all interleavings", "why_tests_cant": "schedules", "anchors": ["fly/task/task_runner.cpp:post_task_to_task_manager", "fly/task/task_manager.cpp:worker_thread"]}
{"id": "C47", "title": "Delayed tasks never run early", "statement": "A task posted with a delay is never executed before its delay has elapsed, and is handed to its runner exactly once (discarded instead only if the program released the runner); every pass of the timer hands over everything that was due when it began.", "quantifier": "every schedule and clock", "why_tests_cant": "timing", "anchors": ["fly/task/task_manager.cpp:timer_thread", "fly/task/task_manager.cpp:post_task_with_delay"]}
{"id": "C48", "title": "Stop is final", "statement": "Provided start is not called while a stop is still in progress: successful start and stop calls alternate; when stop returns every task that has begun has finished, and no task begins executing until the manager is started again; once stop has been called, each worker begins at most one more task however many are queued.", "quantifier": "every interleaving of stop with workers", "why_tests_cant": "schedules", "anchors": ["fly/task/task_manager.cpp:stop", "fly/task/task_manager.cpp:worker_thread"]}
{"id": "C49", "title": "Replies and weak owners", "statement": "A reply runs after its task, with the task's result, on the same runner; a task (or reply) whose owner is gone when it is due is dropped without running.", "quantifier": "every schedule and every point at which the owner dies", "why_tests_cant": "schedules", "anchors": ["fly/task/task_runner.hpp:wrap_task"]}
{"id": "C50", "title": "Configuration objects reflect the last parsed file", "statement": "After an update, every live configuration object sees exactly the values of its section of the last parsed file, and defaults for anything missing.", "quantifier": "every sequence of file contents, create_config and prune calls", "why_tests_cant": "histories", "anchors": ["fly/config/config_manager.cpp:update_config", "fly/config/config_manager.hpp:create_config"]}
{"id": "C51", "title": "One live configuration object per identifier", "statement": "create_config returns the same object as long as an earlier one is alive, a fresh one afterwards, and nothing if the type differs; prune returns the number of live objects.", "quantifier": "every history of creations, releases and prunes", "why_tests_cant": "histories", "anchors": ["fly/config/config_manager.hpp:create_config", "fly/config/config_manager.cpp:prune"]}
{"id": "C52", "title": "Path monitor dispatch", "statement": "After any history of successful add/remove calls, an event for a file invokes the file's own callback if registered, else its directory's callback, else nothing; invoked exactly once.", "quantifier": "every history of registrations and every event", "why_tests_cant": "histories", "anchors": ["fly/path/path_monitor.cpp:add_file", "fly/path/path_monitor.cpp:remove_file", "fly/path/nix/path_monitor_impl.cpp:handle_event"]}
{"id": "C53", "title": "Concurrent registration is atomic", "statement": "If add_file and remove_file for different files of one directory run concurrently and both succeed, the added file is monitored and the removed one is not.", "quantifier": "all interleavings", "why_tests_cant": "schedules", "anchors": ["fly/path/path_monitor.cpp:remove_file", "fly/path/path_monitor.cpp:remove_path"]}
{"id": "C54", "title": "Every registration that succeeded is served", "statement": "After add_path/add_file returned true, events of that directory reach that callback (until removed), whatever other paths are registered or removed.", "quantifier": "every history, including different spellings of a directory", "why_tests_cant": "aliasing", "anchors": ["fly/path/nix/path_monitor_impl.cpp:handle_event", "fly/path/nix/path_monitor_impl.cpp:PathInfoImpl"]}
{"id": "C55", "title": "Callbacks may use the monitor / no self-deadlock", "statement": "Dispatching an event never blocks forever, whatever the callback does with the monitor or with the last reference to a ConfigManager.", "quantifier": "every callback action and schedule", "why_tests_cant": "re-entrancy and destruction races", "anchors": ["fly/path/nix/path_monitor_impl.cpp:poll", "fly/config/config_manager.cpp:~ConfigManager"]}
{"id": "C56", "title": "IPv4 text round trip", "statement": "Formatting any IPv4 address and parsing the text gives back the address.", "quantifier": "all 2^32 addresses", "why_tests_cant": "state space", "anchors": ["fly/net/ipv4_address.hpp:from_string"]}
{"id": "C57", "title": "IPv4 parsing is exact", "statement": "from_string accepts exactly the inet_aton forms (1 to 4 decimal parts within range) and returns the address they denote.", "quantifier": "every string", "why_tests_cant": "infinite language", "anchors": ["fly/net/ipv4_address.hpp:from_string"]}
{"id": "C58", "title": "IPv6 text round trip", "statement": "Formatting any IPv6 address and parsing the text gives back the address.", "quantifier": "all 2^128 addresses", "why_tests_cant": "state space", "anchors": ["fly/net/ipv6_address.hpp:from_string", "fly/net/ipv6_address.hpp:Formatter"]}
{"id": "C59", "title": "IPv6 parsing rejects malformed text", "statement": "from_string accepts only RFC 4291 texts.", "quantifier": "every string", "why_tests_cant": "infinite language", "anchors": ["fly/net/ipv6_address.hpp:from_string"]}
{"id": "C60", "title": "Endpoint text round trip", "statement": "Formatting any endpoint and parsing the text gives back address and port; ports above 65535 are rejected.", "quantifier": "all addresses and ports; every string", "why_tests_cant": "state space", "anchors": ["fly/net/endpoint.hpp:from_string"]}
{"id": "C61", "title": "Byte swapping and endianness", "statement": "change_endian is an involution and converts exactly between host and big/little-endian representation for every width.", "quantifier": "all values of all widths", "why_tests_cant": "state space", "anchors": ["fly/types/numeric/endian.hpp:endian_swap"]}
{"id": "C62", "title": "Numeric literals denote their value or fail", "statement": "An integer literal either denotes its mathematical value in the target type or is rejected.", "quantifier": "every literal and every target width", "why_tests_cant": "infinite language", "anchors": ["fly/types/numeric/literals.hpp", "fly/types/numeric/detail/literal_parser.hpp:literal"]}
{"id": "C63", "title": "Logger names are unique among live loggers", "statement": "At any time at most one live named logger is registered under a name, get(name) returns it while it is alive, and create fails iff such a logger exists (or its sink fails).", "quantifier": "every history of create/destroy/get", "why_tests_cant": "histories", "anchors": ["fly/logger/logger.cpp:create", "fly/logger/detail/registry.cpp:register_logger", "fly/logger/detail/registry.cpp:unregister_logger"]}
{"id": "C64", "title": "File sink never loses or splits records", "statement": "Over any sequence of logs, the concatenation of the files written equals the concatenation of the records, every record lies entirely in one file, and a file is rotated exactly when it exceeds the limit.", "quantifier": "every sequence of records and size limit", "why_tests_cant": "histories", "anchors": ["fly/logger/detail/file_sink.cpp:stream", "fly/logger/detail/file_sink.cpp:create_log_file"]}
{"id": "C65", "title": "Logger ordering, truncation and failure latch", "statement": "Records reach the sink in order with consecutive indices from 0, messages are cut to the configured maximum, and after the sink has refused one record no further record is offered.", "quantifier": "every sequence of log calls and sink answers", "why_tests_cant": "histories", "anchors": ["fly/logger/logger.cpp:log", "fly/logger/logger.cpp:log_to_sink"]}
{"id": "C66", "title": "Log records are self-delimiting", "statement": "A log file can be split back into its records and fields.", "quantifier": "every sequence of log messages", "why_tests_cant": "messages may contain anything", "anchors": ["fly/logger/log.cpp:operator<<"]}
{"id": "C67", "title": "CPU usage is a percentage", "statement": "The system CPU usage reported after any sequence of samples is between 0 and 100.", "quantifier": "every sequence of kernel samples, including equal and decreasing ones", "why_tests_cant": "samples", "anchors": ["fly/system/nix/system_monitor_impl.cpp:update_system_cpu_usage"]}
{"id": "C68", "title": "Every OS socket handle is closed exactly once", "statement": "Whatever sequence of constructions, moves, closes and destructions a program performs, each handle opened is closed exactly once when all sockets are gone, and never closed while another socket owns it.", "quantifier": "every history", "why_tests_cant": "histories of moves", "anchors": ["fly/net/socket/detail/base_socket.cpp:operator=", "fly/net/socket/detail/base_socket.cpp:close"]}
{"id": "C69", "title": "Connection state matches openness", "statement": "A socket that reports connected or connecting is open.", "quantifier": "every history of connect/send/receive/close results", "why_tests_cant": "histories of OS answers", "anchors": ["fly/net/socket/tcp_socket.cpp:is_connected", "fly/net/socket/tcp_socket.cpp:connect", "fly/net/socket/tcp_socket.cpp:send"]}
{"id": "C70", "title": "Asynchronous send accounting", "statement": "send_async hands the OS the bytes of the message in order without gaps or repeats, and invokes the callback at most once, with the number of bytes accepted; it equals the message length unless an error occurred, in which case the socket is closed first.", "quantifier": "every message and every pattern of partial sends, would-block and errors", "why_tests_cant": "OS behaviours", "anchors": ["fly/net/socket/tcp_socket.cpp:ready_to_send", "fly/net/socket/detail/nix/socket_operations.cpp:send"]}
{"id": "C71", "title": "Socket service serves each request at most once, in order per socket", "statement": "Each monitored request's callback is invoked at most once, only when its handle was reported ready, oldest first per handle, and never after the request was removed.", "quantifier": "every history of notify/remove/poll", "why_tests_cant": "histories", "anchors": ["fly/net/socket/socket_service.cpp:poll", "fly/net/socket/socket_service.cpp:remove_socket"]}
{"id": "C72", "title": "Socket service polling stays armed, and armed once", "statement": "While requests are outstanding a poll task is pending; at most one poll task is ever pending.", "quantifier": "every history", "why_tests_cant": "histories", "anchors": ["fly/net/socket/socket_service.cpp:notify_when_writable", "fly/net/socket/socket_service.cpp:poll"]}
{"id": "C73", "title": "No invalid handle is given to select", "statement": "The service never passes an invalid (closed) handle to the OS readiness call.", "quantifier": "every history of async operations and closes", "why_tests_cant": "histories", "anchors": ["fly/net/socket/tcp_socket.cpp:send_async", "fly/net/socket/detail/nix/socket_operations.cpp:select"]}
{"id": "C74", "title": "Split with a limit keeps the rest of the string", "statement": "split(s, d, n) puts the whole rest of the string, unchanged, into the last element once n elements exist.", "quantifier": "every string, delimiter and limit", "why_tests_cant": "unbounded", "anchors": ["fly/types/string/string.hpp:split"]}
{"id": "C75", "title": "Endpoint ordering is a strict total order", "statement": "The comparison of endpoints is irreflexive, asymmetric, transitive and total, so endpoints can be keys of ordered containers.", "quantifier": "all pairs and triples of endpoints", "why_tests_cant": "must hold for all triples", "anchors": ["fly/net/endpoint.hpp:operator<"]}
{"id": "C76", "title": "JSON comments follow their grammar", "statement": "With comments allowed, the parser accepts a text exactly if removing well-formed // and /* */ comments between tokens leaves JSON; anything else after a solidus is an error.", "quantifier": "every input text and every combination of parser flags", "why_tests_cant": "Malformed comments can appear at any nesting depth between any tokens; tests try a few positions.", "anchors": ["fly/parser/json_parser.cpp:consume_comment", "fly/parser/json_parser.cpp:consume_comma", "fly/parser/json_parser.cpp:parse_json"]}
{"id": "C77", "title": "Formatted floating-point values", "statement": "Formatting a floating-point value shows its sign and the std::to_chars text of its absolute value for the requested format and precision, padded to the width.", "quantifier": "every floating-point value and specifier", "why_tests_cant": "value and option space, buffer sizes", "anchors": ["fly/types/string/formatters.hpp:convert_value"]}
{"id": "C78", "title": "Messages sent asynchronously on one TCP socket go out in order", "statement": "The bytes the peer receives on a TCP connection are the messages passed to send_async, one after the other in the order of the calls.", "quantifier": "every list of messages and every pattern of partial sends and would-block", "why_tests_cant": "depends on how much room the OS has in each round", "anchors": ["fly/net/socket/tcp_socket.cpp:ready_to_send", "fly/net/socket/socket_service.cpp:notify_when_writable"]}
{"id": "C79", "title": "Asynchronous receive delivers one arrival, once", "statement": "The callback of receive_async is invoked at most once, with exactly the bytes of the first receive call that did not report would-block; the socket is closed exactly if that call delivered nothing.", "quantifier": "every sequence of OS answers", "why_tests_cant": "OS answers", "anchors": ["fly/net/socket/tcp_socket.cpp:ready_to_receive", "fly/net/socket/udp_socket.cpp:ready_to_receive"]}
{"id": "C80", "title": "I/O closes a socket only on an error or end of stream", "statement": "A send or receive closes the socket only if the OS reported an error or the end of a stream; an empty message, an empty datagram or a would-block does not.", "quantifier": "every message and every OS answer", "why_tests_cant": "OS answers", "anchors": ["fly/net/socket/tcp_socket.cpp:send", "fly/net/socket/udp_socket.cpp:receive", "fly/net/socket/tcp_socket.cpp:ready_to_send"]}
{"id": "C81", "title": "Existing configuration files are visible from the start", "statement": "If the configuration file already exists and is valid when the manager is created, a configuration object created right afterwards sees its values.", "quantifier": "every valid file content and every configuration identifier", "why_tests_cant": "holds or fails for every content of the file, and depends on whether any change event ever arrives", "anchors": ["fly/config/config_manager.cpp:start", "fly/config/config_manager.cpp:create"]}
{"id": "C82", "title": "Process CPU usage is a percentage", "statement": "If a process used no more CPU time between two polls than the processors had, the process CPU usage reported is between 0 and 100, and it is never divided by zero.", "quantifier": "every sequence of samples and every processor count", "why_tests_cant": "arithmetic over all samples", "anchors": ["fly/system/nix/system_monitor_impl.cpp:update_process_cpu_usage"]}
{"id": "C83", "title": "Memory usage and processor count are exact", "statement": "Used plus free memory is the total memory; the processor count is the number of per-processor lines of /proc/stat and never becomes zero once known.", "quantifier": "every kernel report", "why_tests_cant": "all reports", "anchors": ["fly/system/nix/system_monitor_impl.cpp:update_system_memory_usage", "fly/system/nix/system_monitor_impl.cpp:update_system_cpu_count"]}
{"id": "C84", "title": "The Huffman decoder accepts only well-formed streams", "statement": "Bytes for which decoding succeeds are a version-1 Huffman stream: magic number, header with chunk size and maximum code length in range, then chunks up to the very last bit, each a code table that fits the header followed by code words; every chunk but the last stands for exactly the chunk size, the output is the concatenation, and code words of complete tables are those of the table.", "quantifier": "every byte sequence", "why_tests_cant": "all byte sequences, not only those an encoder wrote", "anchors": ["fly/coders/huffman/huffman_decoder.cpp:decode_header", "fly/coders/huffman/huffman_decoder.cpp:decode_codes", "fly/coders/huffman/huffman_decoder.cpp:decode_symbols"]}
{"id": "C85", "title": "Huffman codes are as short as possible", "statement": "If no code has to be shortened to the configured maximum length, the code words written for a chunk take no more bits than with any prefix-free code with non-empty words for its symbols.", "quantifier": "every chunk, every behaviour of the priority queue on ties, every rival code", "why_tests_cant": "ranges over all rival codes", "anchors": ["fly/coders/huffman/huffman_encoder.cpp:create_tree", "fly/coders/huffman/huffman_encoder.cpp:create_codes"]}
{"id": "C86", "title": "Huffman decoding terminates", "statement": "The decoder returns on every input, after a number of chunk rounds bounded by the length of the input.", "quantifier": "every byte sequence", "why_tests_cant": "hostile inputs could make the loop spin without consuming", "anchors": ["fly/coders/huffman/huffman_decoder.cpp:decode_binary"]}
{"id": "C87", "title": "Escape sequences are recognised exactly", "statement": "Un-escaping one sequence succeeds exactly when the text starts with \\uXXXX for a scalar value, a \\u high/low surrogate pair, or \\UXXXXXXXX for a scalar value (hex digits of either case), consumes exactly that text and yields that character's encoding; un-escaping a whole string replaces exactly those sequences, copies everything else unchanged, and fails exactly when a backslash followed by u or U does not begin such a sequence.", "quantifier": "every string, every character type", "why_tests_cant": "The set of strings is infinite and near-miss sequences (wrong case, wrong prefix on the second half, short digit runs) are exactly what samples miss.", "anchors": ["fly/types/string/detail/unicode.hpp:unescape_codepoint", "fly/types/string/string.hpp:unescape_all_codepoints"]}
{"id": "C88", "title": "The lexer is a faithful cursor", "statement": "peek(n) shows the n-th remaining character, consume takes exactly the next one, consume_if takes it exactly when it matches; over any sequence of calls the characters taken are exactly the text between the old and the new position, and past the end every call fails without moving.", "quantifier": "every text, position and sequence of calls", "why_tests_cant": "All call histories on all texts; an off-by-one only shows at particular positions.", "anchors": ["fly/types/string/lexer.hpp:peek", "fly/types/string/lexer.hpp:consume", "fly/types/string/lexer.hpp:consume_if"]}
{"id": "C89", "title": "Container calls always complete", "statement": "In the concurrent queue and stack, calls in progress always finish: without new calls and spurious wake-ups, the threads take at most 13 steps per thread in total whatever the schedule; and when none of them can move any more, every call has returned except untimed pops, which remain blocked only while the container is empty (no deadlock, no lost wake-up).", "quantifier": "every number of threads, every history of pushes, pops (timed or not), queries and wake-ups, every schedule", "why_tests_cant": "A lost wake-up or a deadlock appears only in particular interleavings of lock, notify and wait; tests sample a few schedules.", "anchors": ["fly/types/concurrency/detail/concurrency_container.hpp", "fly/types/concurrency/concurrent_queue.hpp", "fly/types/concurrency/concurrent_stack.hpp"]}
{"id": "C90", "title": "Accepted tasks get executed", "statement": "While a task manager runs and stop is never called, every task a runner has accepted is eventually executed as long as its runner stays alive and its weak owner, if any, is alive: the workers take only finitely many steps, and when they can do nothing but wait for items, each accepted task has begun (or its owner is gone).", "quantifier": "every number of workers, set of runners (parallel or sequenced), history of posts, replies, delayed posts, owner and runner destructions, and schedule", "why_tests_cant": "A sequenced runner that forgets to post its next task hangs only in certain interleavings of completion and posting.", "anchors": ["fly/task/task_manager.cpp", "fly/task/task_runner.cpp"]}
{"id": "C91", "title": "Stop always completes", "statement": "Once stop has been called on a task manager, its threads take only finitely many further steps however they are scheduled, none of them can block for ever, and so the call returns with every worker and the timer thread finished.", "quantifier": "every reachable state in which stop is in progress, every schedule of workers and timer, whatever tasks are queued, running, pending or delayed", "why_tests_cant": "Whether joining can hang depends on where each thread is when the flag is cleared; tests stop an idle manager.", "anchors": ["fly/task/task_manager.cpp", "fly/task/task_runner.cpp"]}
{"id": "C92", "title": "Converting a JSON value to a C++ type gives its value or throws", "statement": "Reading a Json value as an integer, boolean, string, sequence, fixed-size array or map gives the value it holds, converted element by element; a text is read as an integer exactly if it is a decimal numeral of a value of that type; a value that the target type cannot represent is refused with an exception, never silently changed.", "quantifier": "all JSON values, all integral types of 1 to 64 bits, all texts, all element conversions and container sizes", "why_tests_cant": "the domain is every pair of a value and a target type; range errors only show at the boundary of each type", "anchors": ["fly/types/json/json.hpp:Json::operator_T", "fly/types/json/json.hpp:Json::Json", "fly/types/string/detail/converter.hpp:Converter", "fly/types/json/detail/array_util.hpp"]}
{"id": "C93", "title": "Every JSON value a program can build is well formed and can be written and read back", "statement": "Whatever sequence of constructors, parses, member function calls and element copies a program uses (other than shortening a string with resize, see C29), the value it holds has UTF-8 strings and keys, unique sorted keys and integers in range; if it has no floating-point numbers, serializing it gives RFC 8259 text that parses to an equal value.", "quantifier": "all programs over the Json API (inductively: all constructor arguments, texts, keys, operations and nested values)", "why_tests_cant": "the set of reachable values is infinite and closed under arbitrary call sequences", "anchors": ["fly/types/json/json.hpp:Json", "fly/types/json/json.cpp:Json", "fly/parser/json_parser.cpp:JsonParser::parse_internal"]}
{"id": "C94", "title": "What a file logger was told can be read back from its files", "statement": "For every file logger, synchronous or asynchronous, every history of calls and every outcome of opening, sizing and compressing its files: reading the files (decompressing where there is only a compressed one) in the order they were opened yields exactly the records of the first k valid calls, in call order, numbered 0, 1, 2, ..., with messages cut to the configured limit; and k is all of them, save those still queued, as long as the files could be opened and the logger has an owner.", "quantifier": "all call histories, message limits, file size limits, compression settings, and all failures of opening, sizing and compressing files", "why_tests_cant": "The composition of queueing, latch, rotation, compression and record format over unbounded histories cannot be covered by running some of them.", "anchors": ["fly/logger/logger.cpp:Logger::log", "fly/logger/logger.cpp:Logger::log_to_sink", "fly/logger/detail/file_sink.cpp:FileSink::stream", "fly/logger/log.cpp:operator<<"]}
{"id": "C95", "title": "Incoming connections are handed out once, in order", "statement": "Every connection that reaches a listening socket is given to exactly one accept() or accept_async() caller, in the order of arrival, as long as the socket is not closed; every accept_async() callback is invoked exactly once.", "quantifier": "all interleavings of arrivals, accept() and accept_async() calls, reports of the socket service (also spurious ones), OS errors and close()", "why_tests_cant": "Depends on the order of arrivals, calls and reports; a test sees a handful of schedules.", "anchors": ["fly/net/socket/listen_socket.cpp:ListenSocket::accept", "fly/net/socket/listen_socket.cpp:ListenSocket::ready_to_accept", "fly/net/socket/detail/nix/socket_operations.cpp:accept"]}
{"id": "C96", "title": "is_listening() means connections are accepted", "statement": "If is_listening() returns true then listen() succeeded on this socket, and the socket is open and accepts connections.", "quantifier": "all histories of listen, accept, close and moves of a listening socket", "why_tests_cant": "A statement about every history.", "anchors": ["fly/net/socket/listen_socket.cpp:ListenSocket::is_listening", "fly/net/socket/detail/base_socket.cpp:BaseSocket::close"]}
{"id": "C97", "title": "Stylers change exactly the text they cover", "statement": "Text printed through standard output or error while a Styler is in force is displayed by an ECMA-48 terminal with exactly the combination of styles asked for and the last foreground and background colour asked for, the cursor moves exactly as asked for, and once the styler is destroyed the stream's look is what it was before; other streams receive no escape sequences.", "quantifier": "all modifier lists, all texts, all programs creating, streaming and destroying stylers on any streams", "why_tests_cant": "The documented effect concerns every combination of modifiers and every interleaving of styler lifetimes; tests compare a few literal escape strings.", "anchors": ["fly/logger/styler.hpp", "fly/logger/styler.cpp", "fly/logger/detail/nix/styler_proxy_impl.cpp", "Styler", "StylerProxyImpl"]}
{"id": "C98", "title": "Console records are shown whole and their look does not leak", "statement": "A record logged to the console appears on the stream of its level as one line made of time, trace and message, the time and trace in the look of the level and the message in the usual look, in logging order, and no record changes the look of another.", "quantifier": "all sequences of records of all levels", "why_tests_cant": "Leaks and mix-ups depend on the whole sequence and on message contents.", "anchors": ["fly/logger/detail/console_sink.cpp", "ConsoleSink::stream"]}
{"id": "C99", "title": "Joining is the inverse of splitting", "statement": "join(separator, a, b, ...) returns the text each argument has when formatted alone, in order, with exactly one separator between neighbours; split on the separator gives the joined strings back when they are non-empty and do not contain it.", "quantifier": "every character type, separator and list of formattable values", "why_tests_cant": "The claim ranges over all separators (also those negative as char) and all argument lists.", "anchors": ["fly/types/string/string.hpp:join", "fly/types/string/string.hpp:join_internal", "fly/types/string/formatters.hpp"]}
{"id": "C100", "title": "String to integer conversion is exact", "statement": "convert<T>(s), for an integral T, succeeds exactly if s is, in full, a decimal numeral of a value of T (a minus sign only for signed T, no blanks, no plus sign, no trailing text) and then returns that value; formatting an integer with {} and converting the text gives the integer back, in every character type.", "quantifier": "every integral type, string and character type", "why_tests_cant": "All numerals of all lengths, all types, and strings with ill-formed Unicode.", "anchors": ["fly/types/string/string.hpp:convert", "fly/types/string/detail/converter.hpp"]}
{"id": "C101", "title": "Random strings", "statement": "generate_random_string(n) returns exactly n characters, each an ASCII letter or digit, whatever the random engine draws, without reading outside its table; every such string can be returned.", "quantifier": "every length and every sequence drawn by the random engine", "why_tests_cant": "The engine is random: a test sees a sample of the draws.", "anchors": ["fly/types/string/string.hpp:generate_random_string"]}
{"id": "C102", "title": "A crash loses no accepted record", "statement": "If the process is killed at any moment while a file logger writes a record - during the write, while the full log is being compressed, before or after the plain log is removed, or while the next file is created - then the log files (taking the compressed file where the plain one is gone) still hold every record accepted before, whole, once and in order, followed at most by an initial part of the record being written, and no other file is touched.", "quantifier": "every history of records, every size limit and compression setting, every crash point", "why_tests_cant": "A test would have to kill the process between any two file system operations of any history.", "anchors": ["fly/logger/detail/file_sink.cpp:FileSink::stream", "fly/logger/detail/file_sink.cpp:FileSink::create_log_file", "fly/coders/coder.cpp:Encoder::encode_file"]}
{"id": "C103", "title": "Iterators of JSON values are checked against misuse", "statement": "In a program with any number of Json objects and iterators, calls on iterators whose object has not changed structure since they were obtained never have undefined behaviour: comparing, ordering, subtracting or splicing with iterators of different objects, using a default-constructed iterator, reading the end, or moving out of range throws and changes nothing.", "quantifier": "every sequence of calls on any number of Json objects and iterators obtained from them, and every next call on iterators that are not dangling", "why_tests_cant": "A test tries single misuses on fresh objects; the claim is about every history of mutations and every pair of iterators that survives it.", "anchors": ["fly/types/json/detail/json_iterator.hpp:validate_iterator", "fly/types/json/detail/json_iterator.hpp:validate_offset", "fly/types/json/json.cpp:erase", "fly/types/json/json.cpp:insert", "fly/types/json/json.hpp:array_inserter"]}
{"id": "C104", "title": "JSON iterators are positions in the sequence of entries", "statement": "For iterators of one array, ==, !=, <, <=, >, >= and - agree with the positions, and i + (j - i) reaches j; for objects only == and != are defined. operator* and key() show exactly the entry at the position, a loop from begin() to end() sees the entries in order, a reverse loop the reverse, front() and back() are the first and last entry, and assigning through an iterator changes that entry only.", "quantifier": "every reachable program state, every pair of iterators and every array or object of any size", "why_tests_cant": "The order laws and the loops hold for all sizes and positions, of which a test picks a few.", "anchors": ["fly/types/json/detail/json_iterator.hpp:operator<", "fly/types/json/detail/json_iterator.hpp:operator-", "fly/types/json/detail/json_reverse_iterator.hpp", "fly/types/json/json.cpp:begin", "fly/types/json/json.cpp:back"]}
{"id": "C105", "title": "Inserting and erasing through JSON iterators splices exactly the named entries", "statement": "erase(it), erase(first, last), insert(pos, value / count, value / first, last) and insert(first, last) of entries change exactly the entries named, keep the order of all others, touch no other object, and return an iterator to the entry that follows the erased ones or to the first inserted one; find and insert(key, value) return an iterator to the entry of that key; the loop that erases while iterating ends and keeps exactly the entries its predicate rejects.", "quantifier": "every reachable program state, every position, range, count, key, value and predicate", "why_tests_cant": "The claim ranges over every container content and every place in it, and the loop over every predicate.", "anchors": ["fly/types/json/json.cpp:erase", "fly/types/json/json.cpp:insert", "fly/types/json/json.hpp:object_inserter", "fly/types/json/json.hpp:array_inserter", "fly/types/json/json.hpp:find"]}
{"id": "C106", "title": "The system monitor reports what the kernel says", "statement": "A system monitor is created exactly if /proc/stat names processors and its task is accepted; it starts with zeros, and from then on keeps polling: it always knows a positive number of processors and is queued again after every poll. After a poll the processor count, the memory total and usage, and the memory of the process are the numbers the kernel's files and calls gave at that poll; a reading that fails leaves the last value.", "quantifier": "every history of polls and every content of /proc/stat, /proc/self/status and result of sysinfo and times", "why_tests_cant": "A test sees the files of one machine at a few moments; failing reads cannot be provoked.", "anchors": ["fly/system/system_monitor.cpp:create", "fly/system/system_monitor.cpp:poll_system_later", "fly/system/nix/system_monitor_impl.cpp:update_process_memory_usage", "fly/system/nix/system_monitor_impl.cpp:update_system_cpu_count"]}
{"id": "C107", "title": "Endpoints reach the operating system in network byte order and come back unchanged", "statement": "The endpoint a text denotes is the one handed to bind, connect and sendto: right family, address and port bytes most significant first; an endpoint read back from the OS is the one given to it, and replying to the endpoint a datagram or connection came from addresses the same peer.", "quantifier": "every endpoint text, every address and port, every kernel address", "why_tests_cant": "2^32 and 2^128 addresses times 2^16 ports; byte order mistakes cancel out in a test that both binds and connects through the same code", "anchors": ["fly/net/socket/detail/nix/socket_operations.cpp:", "endpoint_to_address,", "address_to_endpoint,", "create_address;", "fly/net/endpoint.hpp:", "Endpoint::from_string"]}
{"id": "C108", "title": "Polling reports exactly the sockets that are ready", "statement": "When the socket service polls, a request is served if and only if it is the oldest of its handle and direction and the kernel finds that handle ready; a failed poll serves nothing.", "quantifier": "every set of requests, every set of ready handles, every outcome of select(2)", "why_tests_cant": "which sockets are ready together, and which numbers their handles have, depends on the history of the process and the kernel", "anchors": ["fly/net/socket/detail/nix/socket_operations.cpp:", "select;", "fly/net/socket/socket_service.cpp:", "SocketService::poll"]}
{"id": "C109", "title": "UDP messages arrive as sent", "statement": "Over a network that loses nothing, the strings returned by receive() are the messages sent, in order; a message that fits the packet size arrives whole in one receive(), a longer one cut every packet-size bytes.", "quantifier": "every sequence of sends and receives, every message, every packet size", "why_tests_cant": "needs all interleavings of senders and receivers and all sizes around multiples of the packet size", "anchors": ["fly/net/socket/udp_socket.cpp:", "send,", "receive;", "fly/net/socket/detail/nix/socket_operations.cpp:", "send_to,", "recv_from"]}
{"id": "C110", "title": "TCP bytes arrive as sent", "statement": "What receive() has returned so far, followed by what is under way, is the concatenation of what the OS accepted from the messages sent, in order; receive() returns something non-empty of at most the packet size and does not close the socket while data is waiting.", "quantifier": "every sequence of sends and receives, every way the OS splits and merges data, every packet size", "why_tests_cant": "the way a stream is cut into pieces is chosen by the OS", "anchors": ["fly/net/socket/tcp_socket.cpp:", "send,", "receive;", "fly/net/socket/detail/nix/socket_operations.cpp:", "send,", "recv"]}
{"id": "C111", "title": "An asynchronous send sends the message it was given", "statement": "The bytes transmitted by send_async are those of the message at the time of the call, whatever the caller does with its own buffer afterwards.", "quantifier": "every message, every later change of the caller's buffer, every schedule of the service", "why_tests_cant": "a test usually sends a literal, which lives for ever; reading a destroyed buffer often goes unnoticed", "anchors": ["fly/net/socket/tcp_socket.cpp:", "send_async;", "fly/net/socket/udp_socket.cpp:", "send_async"]}
{"id": "C112", "title": "Formatting user-defined types", "statement": "A format parameter whose type has a user-provided formatter is shown as that formatter says: the text a formatter without options writes, or, for a formatter derived from a standard one, exactly what the standard value it hands on would show in the same field. Adding such parameters changes nothing for standard ones, and never leads to undefined behaviour.", "quantifier": "all character types, format strings, and lists of standard and user-defined parameters", "why_tests_cant": "the tests format a user-defined value only as the first and only parameter; the result depends on its position, on the text after the field and on the presentation type", "anchors": ["fly/types/string/detail/format_string.hpp:parse_user_defined_specifier", "fly/types/string/detail/format_specifier.hpp:copy_formatting_options_into", "fly/types/string/detail/format_parameters.hpp:format_user_defined_value"]}
{"id": "C113", "title": "Coding files", "statement": "encode_file(a, b) followed by decode_file(b, c) restores the contents of a in c; no file other than the named output changes; when a call returns true the output file holds what the coder produces for the contents of the input; when it fails the output file is left as it was.", "quantifier": "all file contents, all assignments of names to files (distinct, new, or naming the same file), all coder configurations, all amounts of free space on the device", "why_tests_cant": "the tests code a fixed file to a fresh temporary file on a device with room; nobody tests the same file under two names, a missing input with an existing output, or a full device", "anchors": ["fly/coders/coder.cpp:Encoder::encode_file", "fly/coders/coder.cpp:Decoder::decode_file", "fly/types/bit_stream/bit_stream_writer.hpp:flush", "fly/coders/base64/base64_coder.cpp:encode_internal"]}
{"id": "C114", "title": "What a braced list of JSON values denotes", "statement": "Json built from a braced list of values is an object when every listed value is a two-element array whose first element is a string, mapping each of those strings to the value listed first with it; otherwise it is the array of exactly the listed values in order. The construction never ends the program.", "quantifier": "every finite list of JSON values", "why_tests_cant": "lists of any length and nesting; the shape of every element decides", "anchors": ["fly/types/json/json.cpp:Json::Json(std::initializer_list<Json>)", "fly/types/json/json.cpp:is_object_like"]}
{"id": "C115", "title": "Swapping and merging JSON values with C++ containers loses nothing", "statement": "swap(container) either exchanges the contents of the JSON value and the container, or throws and changes neither; swapping twice restores both. merge(container) moves exactly the entries whose key the object does not have yet (the first for each key), leaves the others in the container, and never loses an entry, also when it throws.", "quantifier": "every JSON value, every container, every place where a conversion can throw", "why_tests_cant": "any contents and any point of failure", "anchors": ["fly/types/json/json.hpp:Json::swap", "fly/types/json/json.hpp:Json::merge"]}
{"id": "C116", "title": "The exceptions of JSON values say what went wrong", "statement": "Every exception thrown by the JSON class can be built, and its text is the class name, the message and the JSON text of the values involved; a missing key is named in the message.", "quantifier": "every JSON value and message", "why_tests_cant": "the text depends on arbitrary values", "anchors": ["fly/types/json/json_exception.cpp:JsonException", "fly/types/json/json.hpp:Json::at"]}
{"id": "C117", "title": "An asynchronous connection is completed once, and the callback is told the truth", "statement": "connect_async returns the state reached; if it returns connecting, the callback is invoked once the attempt ends, at most once, in the order of the calls, with connected exactly when the socket is open and connected, and with disconnected when it is closed; a callback of a call that returned a final state is never invoked.", "quantifier": "every history of connect_async and close calls, answers of the OS, ends of attempts, tasks run and polls of the service", "why_tests_cant": "every interleaving of the service's tasks with the caller and the network", "anchors": ["fly/net/socket/tcp_socket.cpp:TcpSocket::connect_async", "fly/net/socket/tcp_socket.cpp:TcpSocket::finish_connect", "fly/net/socket/socket_service.cpp:SocketService::poll"]}
{"id": "C118", "title": "Destroying a path monitor spares the others", "statement": "Destroying a path monitor closes its own inotify descriptor exactly once and no other one, leaks none, and leaves every directory registered with another monitor of the process being watched for it.", "quantifier": "every number of monitors, every history of registrations, removals, creations and destructions, every interleaving with other threads that open and close descriptors", "why_tests_cant": "the failure needs a descriptor number to be reused in the few instructions between two system calls of a destructor", "anchors": ["fly/path/nix/path_monitor_impl.cpp:~PathMonitorImpl", "fly/path/nix/path_monitor_impl.cpp:~PathInfoImpl", "fly/path/path_monitor.cpp:~PathMonitor"]}
{"id": "C119", "title": "A socket is not affected by an earlier one with the same handle number", "statement": "Operating systems reuse handle numbers. An asynchronous operation started on a socket that stays open is never lost because an earlier socket with the same handle number was closed, and a completion callback runs only on account of its own socket, not because the next owner of the number became ready.", "quantifier": "every number of sockets, every history of opening, asynchronous operations and closing from any threads and callbacks, every interleaving with the socket service, every readiness reported", "why_tests_cant": "needs a handle number to be reused while the service still has a task about the old socket", "anchors": ["fly/net/socket/detail/base_socket.cpp:close", "fly/net/socket/socket_service.cpp:remove_socket", "fly/net/socket/socket_service.cpp:poll"]}
{"id": "C120", "title": "The default logger, and loggers at program exit", "statement": "After any sequence of creating, copying, resetting loggers and calling set_default_logger, the LOG macros use the logger last given to set_default_logger (the built-in console logger after null or none), which is still alive even if the caller gave up all its references; and ending the program never uses the logger registry after it was destroyed.", "quantifier": "every sequence of operations on any number of static and other variables that hold loggers, and every order of construction", "why_tests_cant": "The order of static construction and destruction depends on the whole program; a test binary has one such order.", "anchors": ["fly/logger/detail/registry.cpp", "fly/logger/logger.cpp", "fly/logger/logger.hpp"]}
{"id": "C121", "title": "Reverse JSON iterators are positions of the reversed sequence", "statement": "rbegin() and rend() are the ends of the reversed sequence of entries; *, ->, value() and key() show exactly the entry at the index; ++ and -- move by one, + - += -= [] by the offset; comparisons and differences agree with the indices in the reversed sequence; anything that leaves the sequence, reads past its end, orders object iterators or uses an empty iterator throws.", "quantifier": "every reachable program state with any number of JSON values and iterators, every index and 64-bit offset", "why_tests_cant": "The statement ranges over all histories of values, positions and offsets.", "anchors": ["fly/types/json/detail/json_reverse_iterator.hpp", "fly/types/json/json.cpp"]}
{"id": "C122", "title": "INI warnings name the offending line", "statement": "When an INI text is refused because of a line, the parser writes at least one warning, and every warning it writes carries the number of that first unreadable line; a text all of whose lines are readable gives no warning.", "quantifier": "every byte text (below 4 GB)", "why_tests_cant": "The line that is wrong, the number of lines before it and what follows it are unbounded.", "anchors": ["fly/parser/ini_parser.cpp", "fly/parser/parser.hpp", "fly/parser/parser.cpp"]}
{"id": "C123", "title": "The JSON parser's warnings point at the place they talk about", "statement": "Every warning the JSON parser logs carries the line and the column of a place in the text at which what it says is true: the unexpected symbol it names is the last one read there and differs from the expected one, the text it names is there and is no JSON value, the comment or trailing comma is there and the feature is off, the extraneous symbol is the next one. A refused text either gives a warning or was read to its end. An accepted text gives none. The column is the number of symbols read of the line.", "quantifier": "every text, every set of features", "why_tests_cant": "the position is a running count over everything read before; warnings are only visible in the log, for texts nobody thinks of", "anchors": ["fly/parser/json_parser.cpp", "fly/parser/parser.hpp", "JsonParser::parse_internal", "JLOG", "Parser::get"]}
{"id": "C124", "title": "The path monitor takes the kernel's event buffer apart exactly (Linux)", "statement": "For every series of batches the kernel writes, with any mix of named and nameless events, any padding, and whatever was left in the buffer by earlier reads, one poll invokes exactly the callbacks of the named events, in the kernel's order, and reads nothing outside the buffer.", "quantifier": "every series of batches, every event, every earlier buffer content, every set of registered paths", "why_tests_cant": "the layout of a batch depends on kernel timing and file-name lengths; a test sees a few single events", "anchors": ["fly/path/nix/path_monitor_impl.cpp", "fly/path/nix/path_monitor_impl.hpp", "PathMonitorImpl::poll", "PathMonitorImpl::read_events"]}
{"id": "C125", "title": "The path monitor takes the notification buffer apart exactly (Windows)", "statement": "On Windows, over any series of polls, each entry the system writes gives one call, in order, to the file's callback or else the directory's, and no other call is made; nothing outside the buffer is read; when the directory can no longer be watched nothing more is delivered.", "quantifier": "every series of completions and of entries, every earlier buffer content", "why_tests_cant": "overflows depend on timing, and tests run one change at a time", "anchors": ["fly/path/win/path_monitor_impl.cpp", "fly/path/win/path_monitor_impl.hpp", "PathMonitorImpl::handle_events", "PathMonitorImpl::poll", "PathMonitorImpl::PathInfoImpl::refresh"]}
{"id": "C126", "title": "Stylers on a Windows console", "statement": "On a Windows console each character streamed while stylers are in force is shown with the attributes in force before, changed exactly as those stylers ask (last colour of a plane wins, bold and underlined are added, everything else untouched); when the stylers are gone the console looks as before; stylers of other streams and stylers the system refuses change nothing; the cursor goes where it is asked, but not off the screen.", "quantifier": "every program of stylers and text, every answer of the system, every attribute value", "why_tests_cant": "the look is state of the console shared by all streams; a test sees one styler on one console", "anchors": ["fly/logger/detail/win/styler_proxy_impl.cpp", "fly/logger/styler.hpp", "StylerProxyImpl"]}
{"id": "C127", "title": "Floating-point values printed with the thread's stream are independent of each other", "statement": "Where the compiler lacks floating-point to_chars, every replacement field of a floating-point value shows the value as its own options say (sign, alternate form, zero padding, precision, presentation type, case, fill, alignment, width), whatever values were formatted on the same thread before and whatever the locale; and the options of one field never leak into the next, not even when an exception leaves the formatter.", "quantifier": "every C library that behaves as the C standard says, every sequence of calls on a thread with any options, parameters and values, any point at which memory runs out", "why_tests_cant": "the stream is a thread-local that lives between calls; a leak shows up only for particular pairs of consecutive calls, and failures of allocation inside the stream cannot be provoked by tests", "anchors": ["fly/types/string/formatters.hpp:Formatter<FormattableFloatingPoint>::format", "fly/types/string/detail/stream_util.hpp:ScopedStreamModifiers"]}
{"id": "C128", "title": "What a failed assertion reports", "statement": "An assertion that holds writes nothing and lets the program go on; one that fails aborts after writing a report: the message if there is one, the asserted expression, the file and line, the function, every captured value under its own name in order as the format string {} shows it, and the call stack.", "quantifier": "every expression, message, list of captured values of any formattable type, every call stack", "why_tests_cant": "the names and values are matched by position in texts made by the preprocessor; tests cannot survive the abort", "anchors": ["fly/assert/assert.hpp", "fly/assert/detail/assert_enabled.hpp:assertion_failed", "fly/assert/detail/assert_enabled.cpp:Assertion::log_assertion"]}
{"id": "C129", "title": "Signal handlers", "statement": "After set_signal_handler every terminal signal calls the handler set last with the number of the signal, whenever it arrives and however often; with a null handler it gets the default action; other signals are never touched.", "quantifier": "every sequence of handlers set and removed, every signal, arriving between any two steps, any number of times", "why_tests_cant": "a signal arrives between any two instructions; tests raise signals at rest", "anchors": ["fly/system/system.cpp:set_signal_handler", "fly/system/system.hpp"]}
{"id": "C130", "title": "Processor and memory usage on Windows and macOS", "statement": "After every poll on Windows or macOS the processor usage of the process is between 0 and 100 and is the share of the processors' time that the process used since the poll before; the usage of the system is between 0 and 100; the memory used and the memory free add up to the total.", "quantifier": "every history of polls, with failed ones, every processor count and every answer of the operating system", "why_tests_cant": "arithmetic over all samples and intervals; polls that fall on one clock tick or on a change of the clock cannot be arranged by tests", "anchors": ["fly/system/win/system_monitor_impl.cpp:update_process_cpu_usage", "fly/system/mac/system_monitor_impl.mm:update_process_cpu_usage", "fly/system/mac/system_monitor_impl.mm:update_system_cpu_usage"]}
{"id": "C131", "title": "The texts of times and errors", "statement": "local_time shows the month, day, year, hour, minute and second of the system's local time, so that different times have different texts, and is empty only if the system does not know the local time; get_error_string shows the code of an error in parentheses and the system's text for it.", "quantifier": "every local time with a year that fits in an int, every error code and text", "why_tests_cant": "the buffer has a fixed size and tests see the time at which they run", "anchors": ["fly/system/nix/system_impl.cpp:local_time", "fly/system/win/system_impl.cpp:local_time", "fly/system/system.cpp:get_error_string"]}
{"id": "C132", "title": "The network is up while a socket service exists (Windows)", "statement": "On Windows the network interface of the system is started before the constructor of a socket service returns and stays started until its destructor begins, however many services threads create and destroy; it is cleaned up as often as it was started.", "quantifier": "every interleaving of constructors and destructors of any number of services, every outcome of starting the network", "why_tests_cant": "needs races between constructors and failures of the system's start-up call", "anchors": ["fly/net/socket/detail/win/socket_operations.cpp:initialize", "fly/net/socket/detail/win/socket_operations.cpp:deinitialize", "fly/net/socket/socket_service.cpp"]}
{"id": "C133", "title": "io_mode() tells the truth", "statement": "While a socket is open, io_mode() is the mode asked for last, calls on it block exactly in the synchronous mode, and changing the mode changes nothing else; if the system refuses a change the socket is closed, and set_io_mode says so.", "quantifier": "every history of mode changes and closes, every flag word, every failure of the system", "why_tests_cant": "failures of fcntl cannot be provoked; the flag word has 2^32 values", "anchors": ["fly/net/socket/detail/base_socket.cpp:set_io_mode", "fly/net/socket/detail/nix/socket_operations.cpp:set_io_mode"]}
{"id": "C134", "title": "Host names name the host that is contacted", "statement": "connect, bind and send with a host name act on an address of that very host and the port given, and are refused if there is no such host.", "quantifier": "every host name, every resolver, every port", "why_tests_cant": "host names are arbitrary strings; a test tries a few", "anchors": ["fly/net/socket/detail/nix/socket_operations.cpp:hostname_to_address", "fly/net/socket/detail/base_socket.cpp:bind", "fly/net/socket/tcp_socket.cpp:connect", "fly/net/socket/udp_socket.cpp:send"]}
{"id": "C135", "title": "Sending and receiving on Windows", "statement": "On Windows a message of any size is handed to the operating system in order without gaps, in portions it accepts (for datagrams at most the packet size), completely while it makes progress; what arrives is returned unchanged up to the packet size.", "quantifier": "all messages, packet sizes and answers of the operating system", "why_tests_cant": "A test cannot send messages of every size, nor make the operating system answer in every way.", "anchors": ["fly/net/socket/detail/win/socket_operations.cpp:send", "fly/net/socket/detail/win/socket_operations.cpp:send_to", "fly/net/socket/detail/win/socket_operations.cpp:recv"]}
{"id": "C136", "title": "Polling on Windows reports exactly the sockets that are ready", "statement": "On Windows too a socket waited for is reported if and only if the operating system finds it ready, however many sockets there are.", "quantifier": "all sets of handles and all answers of the operating system", "why_tests_cant": "A test opens a few sockets; the set holds 64.", "anchors": ["fly/net/socket/detail/win/socket_operations.cpp:select"]}
{"id": "C137", "title": "Settings written in a configuration file take effect", "statement": "Each setting of the library's own components (network, logger, path, system, coder) has the value the configuration file last read states for it, if that is a value of the setting's type, and its default otherwise.", "quantifier": "all histories of a manager, all INI and JSON files, all settings", "why_tests_cant": "a test reads a few files; the file is written by users", "anchors": ["fly/config/config.hpp:get_value", "fly/net/network_config.cpp:NetworkConfig", "fly/logger/logger_config.cpp:LoggerConfig", "fly/coders/coder_config.cpp:CoderConfig", "fly/path/path_config.cpp:PathConfig", "fly/system/system_config.cpp:SystemConfig"]}
{"id": "C138", "title": "Converting text to floating-point numbers", "statement": "fly::String::convert to float, double or long double gives the number written if the whole text is a floating-point number (an optional minus, decimal digits with at most one point, an optional exponent, or a name of infinity or not-a-number) in the range of the type, and an empty result for every other text; the answer depends neither on the compiler nor on the locale.", "quantifier": "every text, every decimal point of a locale (. or ,), both versions of the converter, every rounding function", "why_tests_cant": "There are unboundedly many texts; that nothing outside the grammar is converted, and that the two versions of the code agree, are statements about all of them. Tests see one compiler and one locale.", "anchors": ["fly/types/string/detail/converter.hpp", "fly/types/string/string.hpp", "fly/fly.hpp", "Converter", "BasicString::convert"]}
{"id": "C139", "title": "JSON numbers do not depend on the compiler", "statement": "The JSON parser takes exactly the numbers of RFC 8259 for numbers, also where the compiler lacks floating-point std::from_chars and std::stold is used instead, and in every locale.", "quantifier": "every text of a JSON value, both versions of the converter, decimal point . or ,", "why_tests_cant": "The parser's own check only looks at the first characters and relies on the converter for the rest; whether the converter refuses everything else is a statement about all texts.", "anchors": ["fly/parser/json_parser.cpp", "fly/types/string/detail/converter.hpp", "JsonParser::parse_value", "JsonParser::validate_number"]}
{"id": "C140", "title": "Arguments of format() reach the formatter unchanged", "statement": "However a text is handed to fly::string::format (std::string, view, literal, character array, pointer), the formatter gets the text in it, the characters before the terminating zero if there is one; integers of every type get there with their value, although the parameter forgets their type.", "quantifier": "every text, array content and memory content; every integer type of at most 64 bits, signed or not, and every value", "why_tests_cant": "The round trip through a 64-bit integer must hold for every width, sign and value, and the length rule for every content of an array; tests use literals, for which all rules agree.", "anchors": ["fly/types/string/detail/format_parameters.hpp", "fly/types/string/detail/classifier.hpp", "fly/types/string/lexer.hpp", "BasicFormatParameter", "BasicClassifier::size", "format_standard_value", "format_string_value"]}
{"id": "C141", "title": "Starting and stopping a task manager from any thread", "statement": "A task manager can be started, stopped and started again any number of times, by whichever thread, including its own tasks for start: the calls never corrupt each other's bookkeeping, a stop that returns true has waited for every thread the manager ever created, and a stop (by a thread that is not one of the manager's) always returns once the running tasks have.", "quantifier": "all numbers of workers and other threads, all interleavings of calls to start and stop with tasks beginning and ending and threads leaving, all histories", "why_tests_cant": "a test makes one start and one stop; overlapping calls need particular interleavings, and 'never returns' cannot be tested", "anchors": ["fly/task/task_manager.cpp:TaskManager::start", "fly/task/task_manager.cpp:TaskManager::stop"]}
{"id": "C142", "title": "Task locks: no deadlock, and destructors of captured objects may use the library", "statement": "Threads posting tasks, worker threads and the timer never wait for each other for ever on the library's locks; and the objects captured by a task, executed or dropped, are destroyed while the library holds no lock, so that their destructors may post tasks, and before the next task of the same sequenced runner can begin.", "quantifier": "all numbers of threads, all interleavings, all sequences of calls, all states the functions may find (runner alive or gone, pending tasks, manager gone)", "why_tests_cant": "deadlocks need particular interleavings; dropped tasks with posting destructors are a corner no test visits", "anchors": ["fly/task/task_manager.cpp:TaskManager::worker_thread", "fly/task/task_manager.cpp:TaskManager::timer_thread", "fly/task/task_runner.cpp:SequencedTaskRunner::maybe_post_task", "fly/types/concurrency/detail/concurrent_container.hpp:ConcurrentContainer::pop"]}
{"id": "C143", "title": "The path monitor on macOS", "statement": "On macOS the path monitor behaves as on the other systems: exactly the registered directories are watched, every change to a file in them is given once, in order, to the callback of the file or else of the directory, a registration that succeeded is served whatever spelling was used, a poll lasts as long as its interval, and destroying a monitor is always defined.", "quantifier": "all histories of registering, removing, changing files, deliveries and polls, all orders of the hash map, all answers of the system", "why_tests_cant": "the project's tests register one directory and remove it; lost notifications and destruction orders depend on timing", "anchors": ["fly/path/mac/path_monitor_impl.mm:PathMonitorImpl::refresh_monitored_paths", "fly/path/mac/path_monitor_impl.mm:PathMonitorImpl::handle_event", "fly/path/mac/path_monitor_impl.mm:PathInfoImpl::~PathInfoImpl", "fly/path/path_monitor.cpp:PathMonitor::~PathMonitor"]}
{"id": "C144", "title": "Windows path monitor used from several threads", "statement": "On Windows, over every interleaving of add_path, remove_path, remove_all_paths, polls, completions and the destructor: every handle opened is closed exactly once, and no other; a registration that succeeded stays and every change the system reports for the directory is given to its callback once, in order, until it is removed or the system refuses to watch the directory any further.", "quantifier": "every series of calls from any thread, completions and failures of the system, and critical sections of polls", "why_tests_cant": "tests cannot schedule calls between the two critical sections of a poll, nor make the system fail requests", "anchors": ["fly/path/win/path_monitor_impl.cpp:PathMonitorImpl::poll", "fly/path/win/path_monitor_impl.cpp:PathInfoImpl", "fly/path/path_monitor.cpp:PathMonitor::add_path", "fly/path/path_monitor.cpp:PathMonitor::remove_path"]}
{"id": "C145", "title": "Asynchronous connections on Windows", "statement": "On Windows, as on Linux, every asynchronous connection attempt that the system has begun is reported exactly once to the callback given, in the order of the calls, as connected if the system made the connection and as failed if it did not; no callback is invoked otherwise.", "quantifier": "every history of connect_async calls, service tasks, polls and closes, every outcome of the attempt, every error code, both behaviours of getsockopt with a short buffer", "why_tests_cant": "A test on one machine sees one outcome of one attempt; a refused attempt must be observed for ever not to be reported.", "anchors": ["fly/net/socket/detail/win/socket_operations.cpp:is_error_free", "fly/net/socket/detail/win/socket_operations.cpp:connect", "fly/net/socket/detail/win/socket_operations.cpp:select", "fly/net/socket/tcp_socket.cpp:connect_async", "fly/net/socket/tcp_socket.cpp:ready_to_send"]}
{"id": "C146", "title": "Identity of a socket, and sockets that were moved from", "statement": "The identifiers of sockets that are open at the same time differ, and an identifier stays with the system's socket through moves; calls on a socket that was moved from fail as on a closed socket; a socket into which an asynchronous one was moved can be used asynchronously.", "quantifier": "every program that constructs, creates, moves, assigns, closes and destroys any number of socket objects", "why_tests_cant": "Tests move one socket and check nothing of the rest; whether any object a program can reach is usable quantifies over programs.", "anchors": ["fly/net/socket/detail/base_socket.cpp:BaseSocket", "fly/net/socket/detail/base_socket.cpp:operator=", "fly/net/socket/detail/base_socket.cpp:packet_size", "fly/net/socket/tcp_socket.cpp:receive", "fly/net/socket/tcp_socket.cpp:receive_async", "fly/net/socket/udp_socket.cpp:send"]}
{"id": "C147", "title": "JSON operations on a value and a part of itself", "statement": "An operation on a JSON value whose argument is the value itself, a part of it, or a value it is part of, acts as if the argument had been copied (or, if moved, taken out) before the call: assignment, push_back, swap, subscript assignment, insert and insert_or_assign neither lose nor change anything else.", "quantifier": "every document, every pair of places in it, every key", "why_tests_cant": "Tests use separate values as arguments; aliasing quantifies over all pairs of places in all documents.", "anchors": ["fly/types/json/json.cpp:operator=", "fly/types/json/json.cpp:push_back", "fly/types/json/json.cpp:swap", "fly/types/json/json.hpp:operator[]", "fly/types/json/json.hpp:insert", "fly/types/json/json.hpp:insert_or_assign", "fly/types/json/json.hpp:get_or_promote"]}
{"id": "C148", "title": "The Huffman encoder's nodes and stacks", "statement": "Encoding a chunk links nodes in a fixed array of 512 and walks them with two stacks. Whatever the previous chunk left in the array, and whichever of equally frequent nodes the queue gives first, the array is never overrun, the nodes form one tree built by repeatedly combining two least frequent ones, the walk ends after listing at most 256 codes, and the codes used are those of that tree.", "quantifier": "every non-empty chunk shorter than 2^32 bytes, every earlier content of the node array, every order of equal elements in the priority queue", "why_tests_cant": "The order among equal frequencies is the library's, stale links depend on the whole history of chunks, and the worst case of the arrays needs all 256 symbols; a test sees a few chunks under one library.", "anchors": ["fly/coders/huffman/huffman_encoder.cpp:create_tree", "fly/coders/huffman/huffman_encoder.cpp:create_codes", "fly/coders/huffman/huffman_encoder.cpp:insert_code", "fly/coders/huffman/types.cpp:become_symbol", "fly/coders/huffman/types.cpp:become_intermediate"]}
{"id": "C149", "title": "What the Huffman decoder answers on every stream", "statement": "Decoding any byte string gives the answer of a bit-level reference decoder: the same bytes, a refusal of exactly the same streams, and undefined behaviour exactly for tables with more slots than the announced greatest length allows or for a last code word that is cut off. Code words longer than the chunk's own greatest length, which an earlier chunk left in an incomplete table, may in addition count as cut off.", "quantifier": "all byte strings", "why_tests_cant": "Hostile streams are unbounded in number of chunks, tables and word alignments; the decoder's answer depends on buffer refills and on tables left by earlier chunks.", "anchors": ["fly/coders/huffman/huffman_decoder.cpp:decode_binary", "fly/coders/huffman/huffman_decoder.cpp:decode_codes", "fly/coders/huffman/huffman_decoder.cpp:convert_to_prefix_table", "fly/coders/huffman/huffman_decoder.cpp:decode_symbols"]}
{"id": "C150", "title": "Which exception a JSON iterator throws", "statement": "At any position of its container an iterator's operation throws OutOfRangeJsonException exactly when it would leave the container, and offset() is the signed distance from the iterator (for a reverse iterator: from its base, in the container's direction); NullJsonException exactly for reading at the end (in reverse, the beginning); JsonIteratorException exactly for offsets on an object's iterator; nothing otherwise. The text of the range exception shows that offset and the value.", "quantifier": "all arrays, objects and strings' containers, all positions, all operations and offsets", "why_tests_cant": "The pair of position and offset is unbounded; tests try a few offsets.", "anchors": ["fly/types/json/detail/json_iterator.hpp:validate_offset", "fly/types/json/detail/json_iterator.hpp:validate_dereference", "fly/types/json/detail/json_reverse_iterator.hpp:operator[]", "fly/types/json/json_exception.cpp:OutOfRangeJsonException"]}
{"id": "C151", "title": "Reserved JSON capacity", "statement": "size() never exceeds capacity(). reserve(n) returns exactly for strings and arrays (and amounts that can be had), never changes the value, and gives a capacity of at least n; after it no sequence of calls moves the content, and so invalidates references to elements, while the size stays at most n.", "quantifier": "every value, every history of calls, every growth policy of the containers", "why_tests_cant": "A test sees one library's growth policy and one history; references must stay good for all.", "anchors": ["fly/types/json/json.cpp:Json::capacity", "fly/types/json/json.cpp:Json::reserve"]}
{"id": "C152", "title": "Taking the content out of a JSON value", "statement": "Converting an rvalue JSON to its own string, object or array type hands over exactly the content and leaves null; if the type is another one it throws and the value is unchanged. Moving out gives what copying out of the same value gives.", "quantifier": "every JSON value", "why_tests_cant": "All values of all types.", "anchors": ["fly/types/json/json.cpp:operator_json_string_type", "fly/types/json/json.cpp:operator_json_object_type", "fly/types/json/json.cpp:operator_json_array_type"]}
{"id": "C153", "title": "Releasing a configuration manager", "statement": "A configuration manager may be released at any moment from any thread: it is then destroyed once, after the last use by its own tasks and callback, its path monitor is destroyed with it, and no task of theirs is left behind. While it exists, exactly one poll of its monitor is waiting or being executed, and every change of the file that is noticed is followed by a new reading of the file.", "quantifier": "all interleavings of the program's threads (any number of references), the runner's thread, the destructor and file system events, including a task manager that goes away", "why_tests_cant": "the hang needs a release of the last reference between two instructions of a callback; tests do not hit that window", "anchors": ["fly/config/config_manager.cpp:ConfigManager::start,~ConfigManager", "fly/path/path_monitor.cpp:poll_paths_later,remove_file", "fly/path/nix/path_monitor_impl.cpp:poll"]}
{"id": "C154", "title": "Logging from several threads", "statement": "Whatever threads call a logger's log functions, the records reach the sink in the order of the calls, none lost or repeated, numbered 0, 1, 2, ...; the sink's stream function is never entered while another call of it is going on; and once the sink has refused a record no other is offered to it. (Refuted for synchronous loggers: the record counter is a plain integer and nothing protects the sink, so two overlapping calls can get the same number, be in the sink at once, and a refusal can be forgotten. sink.hpp warns that sinks should not assume thread safety, nothing is said of the logger.)", "quantifier": "every number of threads, every interleaving of the calls with each other and with the task runner, every answer of the sink", "why_tests_cant": "A test sees the interleavings the scheduler happens to produce; the lost counter update needs two threads between a load and a store.", "anchors": ["fly/logger/logger.cpp", "fly/logger/logger.hpp", "fly/logger/sink.hpp"]}
{"id": "C155", "title": "The other JSON accessors behave like those of a map and a sequence", "statement": "Every history that also uses the references returned by at(), the const operator[], front, back, find, count, emplace and emplace_back gives the results, and leaves the content, of the same operations on a finite map (ordered by key) or a sequence; a call that fails changes nothing.", "quantifier": "every finite sequence of calls, every value and every byte string as key", "why_tests_cant": "histories and keys are unbounded", "anchors": ["fly/types/json/json.hpp:emplace", "fly/types/json/json.hpp:find", "fly/types/json/json.hpp:count", "fly/types/json/json.hpp:emplace_back", "fly/types/json/json.cpp:front", "fly/types/json/json.cpp:back"]}
{"id": "C156", "title": "The system monitor on Windows and macOS reports what the system says", "statement": "On Windows and macOS a system monitor is created exactly if the system names processors and the task is accepted; after every history of polls it is queued for another one and each function reports the latest answer the system gave to its question, or zero if there was none; what fails affects nothing else, and no performance query is left open.", "quantifier": "every history of polls with any answers missing, and every way the constructor's calls can end", "why_tests_cant": "histories with failing system calls cannot be arranged by tests", "anchors": ["fly/system/win/system_monitor_impl.cpp:update_system_cpu_usage", "fly/system/win/system_monitor_impl.cpp:SystemMonitorImpl", "fly/system/mac/system_monitor_impl.mm:update_system_memory_usage", "fly/system/system_monitor.cpp:poll_system_later"]}
{"id": "C157", "title": "A socket bound for single use does not share its endpoint", "statement": "bind succeeds exactly if the socket is open and not bound, the system permits the endpoint, and no other socket has it, except sockets bound with AllowReuse if this one is too; then local_endpoint tells that endpoint (with the port the system chose for port 0); a call that fails changes nothing.", "quantifier": "every history of sockets being created, bound, queried and closed, every endpoint", "why_tests_cant": "histories of several sockets; the kernel's state depends on all calls before", "anchors": ["fly/net/socket/detail/nix/socket_operations.cpp:bind", "fly/net/socket/detail/win/socket_operations.cpp:bind", "fly/net/socket/detail/base_socket.cpp:bind", "fly/net/socket/detail/base_socket.cpp:local_endpoint"]}
{"id": "C158", "title": "Bit stream writer at every point of its life", "statement": "At every point of a bit stream writer's life - before finish, after it, and while the program writes on - the stream holds a valid bit stream of what was written so far (before finish: a prefix of it), and nothing else; a second finish changes nothing.", "quantifier": "every content of the stream before, every history of writes and finishes, every point of it", "why_tests_cant": "the histories and the crash points are unbounded; the tests finish once and read afterwards", "anchors": ["fly/types/bit_stream/bit_stream_writer.cpp", "fly/types/bit_stream/bit_stream_writer.hpp:BitStreamWriter::write_bits,finish,flush_header,flush_buffer"]}
{"id": "C159", "title": "A Huffman decoder used again", "statement": "A Huffman decoder answers each stream exactly as a new decoder would, whatever streams it decoded or rejected before; and the Kraft-McMillan constant it offers afterwards is defined, and for data the encoder produced is the sum over the codes of the last chunk, between one and two to the maximum code length.", "quantifier": "every history of streams (well-formed, truncated or hostile) given to one decoder; every input and usable configuration of the encoder", "why_tests_cant": "the state one call leaves to the next depends on the whole history of streams; tests use a decoder on a few", "anchors": ["fly/coders/huffman/huffman_decoder.cpp:compute_kraft_mcmillan_constant", "fly/coders/huffman/huffman_decoder.cpp:decode_binary", "fly/coders/huffman/huffman_decoder.hpp:m_huffman_codes"]}
{"id": "C160", "title": "What addresses made from octets denote and how addresses and endpoints compare", "statement": "An IPv4 address made of four octets shows them in that order and in host order has the first on top; the any, broadcast and loopback addresses are those; IPv4 addresses compare by their network-order integer, IPv6 addresses as 128-bit numbers, endpoints by address and then by port, with all six operators agreeing; and endpoints are equal exactly if their texts are.", "quantifier": "all octets, all addresses of both families, all ports, all six comparison operators", "why_tests_cant": "there are 2^128 addresses and pairs of them; tests compare a few", "anchors": ["fly/net/ipv4_address.hpp:IPv4Address", "fly/net/ipv6_address.hpp:IPv6Address", "fly/net/endpoint.hpp:Endpoint"]}
{"id": "C161", "title": "Unicode functions stay inside their text", "statement": "Decoding, escaping and un-escaping a code point from an iterator, and validating, converting, escaping and un-escaping a whole string, read only the units of the text that was passed, leave the iterator inside the text or at its end, and come to an end.", "quantifier": "every text (valid or not), every character type, every position", "why_tests_cant": "a read behind the end of a truncated sequence is silent in a test", "anchors": ["fly/types/string/detail/unicode.hpp:next_encoded_byte,codepoint_from_string,unescape_codepoint;", "fly/types/string/string.hpp:validate,convert,escape_all_codepoints,unescape_all_codepoints"]}
{"id": "C162", "title": "JSON strings are un-escaped in place and escaped within their memory", "statement": "Constructing a JSON string edits the string it iterates over without using an invalidated iterator or leaving its memory, ends, and accepts and stores what RFC 8259 says; writing a JSON string reads only that string and ends.", "quantifier": "every sequence of bytes", "why_tests_cant": "iterator invalidation and reads at the end are silent in a test", "anchors": ["fly/types/json/json.cpp:validate_string,read_escaped_character,write_escaped_character,serialize;", "fly/types/json/json.hpp:convert_to_string"]}
{"id": "C163", "title": "Address and endpoint parsing and formatting stay within their arrays and views", "statement": "Parsing an IPv4 address, an IPv6 address or an endpoint never stores or loads outside of its array of parts, rotates iterators in order, and cuts its views within their bounds; formatting an IPv6 address reads its sixteen bytes only; all of them end, with the result the grammar says.", "quantifier": "every text of bytes, every address", "why_tests_cant": "an out-of-bounds store in a constexpr function is silent at run time, and the texts that would reach it are unlimited", "anchors": ["fly/net/ipv4_address.hpp:IPv4Address::from_string", "fly/net/ipv6_address.hpp:IPv6Address::from_string,formatter", "fly/net/endpoint.hpp:Endpoint::from_string"]}
{"id": "C164", "title": "Splitting, trimming, replacing and matching stay inside their texts", "statement": "split, trim, wildcard_match and replace_all never cut a text beyond its end, erase a range out of order or take the first or last element of nothing, and end; replace_all does so also when the search view shows part of the target.", "quantifier": "every text, delimiter, limit, pattern, search string, replacement and every position of a view into the target", "why_tests_cant": "reads at the end of a text are silent, and a loop that does not end for one text among all is not found by sampling", "anchors": ["fly/types/string/string.hpp:split,trim,replace_all,remove_all,wildcard_match"]}
{"id": "C165", "title": "Deep JSON texts and values", "statement": "Parsing a JSON text of any depth and writing, copying, comparing or destroying a JSON value of any depth come back: with the value, the text, the answer or a failure, never by overflowing the stack.", "quantifier": "every text, every value, every size of the stack", "why_tests_cant": "a test that nests deeper than the stack kills the test program, and one that does not shows nothing", "anchors": ["fly/parser/json_parser.cpp:parse_json,parse_object,parse_array"]}
{"id": "C166", "title": "Comparing and hashing JSON values takes time in proportion to their size", "statement": "Comparing two JSON values with == or <, or hashing one, takes a number of steps proportional to the number of values they consist of.", "quantifier": "every pair of values, of any depth and width", "why_tests_cant": "A test measures a few values; a bound on the steps speaks of all of them, and the values for which it fails are deep, not large.", "anchors": ["fly/types/json/json.cpp:operator==", "fly/types/json/json.cpp:operator<", "fly/types/json/json.hpp:std::hash"]}
{"id": "C167", "title": "Releasing a task manager", "statement": "When the program has released its last reference to a task manager, the manager and its threads go away: it is destroyed exactly once, after every thread it ever had has returned and been waited for, and never while something can still use it.", "quantifier": "every number of workers, every history of start, stop, copies and releases of references, posts through runners, and thread exits", "why_tests_cant": "A missing or extra reference shows only in particular orders of releases, posts and thread exits, and a leak shows nowhere.", "anchors": ["fly/task/task_manager.cpp:start", "fly/task/task_manager.cpp:stop", "fly/task/task_runner.cpp"]}
{"id": "C168", "title": "Releasing sockets and their service", "statement": "A callback given to an asynchronous call of a socket is invoked once, or destroyed without being invoked, or the call refuses it: never two of these, and as long as none has happened the library holds it. Once nobody refers to a socket any more, none of its callbacks runs. Once the program has released the socket service and no poll is in progress, no callback of any of its sockets runs; when the runner has worked off the tasks it has, the library holds no callback, and exactly those sockets exist that the program refers to.", "quantifier": "every number of sockets, every history of calls (with callbacks that capture references to any sockets), copies, releases, closes, tasks and requests served in any order", "why_tests_cant": "the fate of a callback depends on when the references go away relative to the runner; a test takes a few schedules", "anchors": ["fly/net/socket/socket_service.cpp:SocketService", "fly/net/socket/socket_service.hpp:SocketService::wrap_callback", "fly/net/socket/detail/base_socket.cpp:BaseSocket"]}
