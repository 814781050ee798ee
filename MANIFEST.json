{
 "claims": [
  {
   "property": "C01",
   "status": "partial",
   "theorems": [
    "Verif.BitStream.bitstream_roundtrip_partial",
    "Verif.BitStream.bitstream_roundtrip_violated",
    "Verif.BitStream.not_overshift_of_lt"
   ],
   "note": "The code violates C01 when a 64-bit write falls exactly on a 64-bit boundary (shift by 64, undefined); violated theorem exhibits it, partial theorem covers every other legal write sequence."
  },
  {
   "property": "C02",
   "status": "partial",
   "theorems": [
    "Verif.BitStream.bitstream_layout_partial",
    "Verif.BitStream.bitstream_write_ub_iff",
    "Verif.BitStream.bitstream_roundtrip_violated"
   ],
   "note": "Layout for every legal write sequence except those that reach the undefined shift, which bitstream_write_ub_iff characterises exactly."
  },
  {
   "property": "C03",
   "status": "proved",
   "theorems": [
    "Verif.BitStream.bitstream_reads_exact",
    "Verif.BitStream.bitstream_reads_bounded",
    "Verif.BitStream.bitstream_bad_header",
    "Verif.BitStream.bitstream_fully_consumed_iff"
   ],
   "note": "For arbitrary byte strings and any sequence of legal reads."
  },
  {
   "property": "C04",
   "status": "partial",
   "theorems": [
    "Verif.Base64.base64_roundtrip_partial",
    "Verif.Base64.base64_roundtrip_violated",
    "Verif.Base64.base64_decode_boundary_violated"
   ],
   "note": "Round trip proved for every byte string whose length is not in Overrun; for those lengths the encoder writes out of bounds (violated)."
  },
  {
   "property": "C05",
   "status": "partial",
   "theorems": [
    "Verif.Base64.base64_encode_rfc_partial",
    "Verif.Base64.base64_rfc_shape",
    "Verif.Base64.base64_roundtrip_violated"
   ],
   "note": "All inputs except the Overrun lengths, where the encoder's behaviour is undefined."
  },
  {
   "property": "C06",
   "status": "partial",
   "theorems": [
    "Verif.Base64.base64_decode_sound",
    "Verif.Base64.base64_decode_strict_partial",
    "Verif.Base64.base64_decode_boundary_violated"
   ],
   "note": "Soundness for every input; exact verdict for every ASCII input; bytes >= 0x80 are undefined behaviour in the code."
  },
  {
   "property": "C07",
   "status": "partial",
   "theorems": [
    "Verif.Base64.base64_memory_safety_partial",
    "Verif.Base64.base64_encode_ub_iff",
    "Verif.Base64.base64_memory_safety_encode_violated",
    "Verif.Base64.base64_memory_safety_decode_violated"
   ],
   "note": "The code violates this for encoder lengths in Overrun (characterised exactly) and for decoder input with bytes >= 0x80; safe everywhere else."
  },
  {
   "property": "C08",
   "status": "proved",
   "theorems": [
    "Verif.Huffman.huffman_roundtrip",
    "Verif.Huffman.valid_of_eight"
   ],
   "note": "For every usable configuration; tie breaking in the priority queue is left open."
  },
  {
   "property": "C09",
   "status": "proved",
   "theorems": [
    "Verif.Huffman.huffman_prefix_code",
    "Verif.Huffman.huffman_tree_exists"
   ],
   "note": "All trees the queue can build, all maximum lengths 1..15 with room."
  },
  {
   "property": "C10",
   "status": "partial",
   "theorems": [
    "Verif.Huffman.huffman_decoder_safe_violated",
    "Verif.Huffman.huffman_decoder_safe_partial",
    "Verif.Huffman.decode_no_fuel",
    "Verif.Huffman.prefix_table_exact",
    "Verif.Huffman.Reference.decoder_is_reference"
   ],
   "note": "Violated: over-subscribed count tables overflow the prefix table and truncated streams reach an undefined shift. Proved: code array bound, in-range lookups, safe table filling under the Kraft inequality, termination. prefix_table_exact: the table overflows exactly if the Kraft sum of the counts exceeds it. decoder_is_reference (C149) says on every byte string which undefined behaviour, if any, is reached."
  },
  {
   "property": "C100",
   "status": "proved",
   "theorems": [
    "Verif.Str.convert_integer",
    "Verif.Str.format_convert_roundtrip",
    "Verif.Json.parser_integers"
   ],
   "note": "Integral targets; floating point targets rest on the standard library and are not modelled."
  },
  {
   "property": "C101",
   "status": "proved",
   "theorems": [
    "Verif.Str.random_string",
    "Verif.Str.random_string_onto"
   ],
   "note": ""
  },
  {
   "property": "C102",
   "status": "proved",
   "theorems": [
    "Verif.Logger.crash_keeps_records",
    "Verif.Logger.stream_effects"
   ],
   "note": "Process crashes on a disk that accepts all data, sink not re-entered by the synchronous default logger (C64 covers those cases by refutations); power failure is not modelled."
  },
  {
   "property": "C103",
   "status": "partial",
   "theorems": [
    "Verif.Json.json_iterators_safe_partial",
    "Verif.Json.json_foreign_iterators_rejected",
    "Verif.Json.json_iterators_unchecked_violated"
   ],
   "note": "proved for every program state and call except what the library does not check: ranges the wrong way round, entries of an object inserted into itself, offset -2^63; these are refuted"
  },
  {
   "property": "C104",
   "status": "proved",
   "theorems": [
    "Verif.Json.json_iterator_positions",
    "Verif.Json.json_object_iterator_positions",
    "Verif.Json.json_iterator_reads",
    "Verif.Json.json_traversal",
    "Verif.Json.json_assign_front_back"
   ],
   "note": ""
  },
  {
   "property": "C105",
   "status": "proved",
   "theorems": [
    "Verif.Json.json_erase_range",
    "Verif.Json.json_erase_one",
    "Verif.Json.json_insert_values",
    "Verif.Json.json_insert_entries",
    "Verif.Json.json_find_insert",
    "Verif.Json.json_erase_loop"
   ],
   "note": ""
  },
  {
   "property": "C106",
   "status": "proved",
   "theorems": [
    "Verif.System.system_monitor_alive",
    "Verif.System.system_monitor_reports",
    "Verif.System.system_monitor_failed_readings"
   ],
   "note": ""
  },
  {
   "property": "C107",
   "status": "partial",
   "theorems": [
    "Verif.Socket.endpoint4_given_to_os",
    "Verif.Socket.endpoint6_given_to_os",
    "Verif.Socket.endpoint_round_trip_os",
    "Verif.Socket.endpoint_reply_partial",
    "Verif.Socket.endpoint_reply_violated"
   ],
   "note": "Proved for all texts and addresses; replying to a link-local IPv6 peer loses the interface (refuted)."
  },
  {
   "property": "C108",
   "status": "partial",
   "theorems": [
    "Verif.Socket.select_exact_partial",
    "Verif.Socket.poll_serves_exactly_ready",
    "Verif.Socket.select_large_handle_violated"
   ],
   "note": "Exact for handles 0..1023; any handle from 1024 on is undefined behaviour (refuted for all such handles)."
  },
  {
   "property": "C109",
   "status": "partial",
   "theorems": [
    "Verif.Socket.udp_delivery_partial",
    "Verif.Socket.udp_message_whole",
    "Verif.Socket.udp_delivery_violated"
   ],
   "note": "Proved for all interleavings when the receiver's packet size is at least the sender's; refuted otherwise."
  },
  {
   "property": "C11",
   "status": "partial",
   "theorems": [
    "Verif.Huffman.huffman_lossless_violated",
    "Verif.Huffman.huffman_lossless_violated_room",
    "Verif.Huffman.huffman_lossless_partial"
   ],
   "note": "Violated for chunk size 0 (any input) and for alphabets larger than the code space; holds for usable configurations."
  },
  {
   "property": "C110",
   "status": "partial",
   "theorems": [
    "Verif.Socket.tcp_delivery",
    "Verif.Socket.tcp_delivery_complete",
    "Verif.Socket.tcp_zero_packet_violated"
   ],
   "note": "Proved for every packet size above 0; refuted for 0."
  },
  {
   "property": "C111",
   "status": "partial",
   "theorems": [
    "Verif.Socket.async_send_view_partial",
    "Verif.Socket.async_send_view_violated",
    "Verif.Socket.async_send_view_dangles"
   ],
   "note": "Proved while the caller leaves its buffer alone until the callback; refuted otherwise: the socket keeps a string_view (undocumented)."
  },
  {
   "property": "C112",
   "status": "partial",
   "theorems": [
    "Verif.Format.format_standard_types",
    "Verif.Format.format_user_never_ub",
    "Verif.Format.user_types_partial",
    "Verif.Format.own_parser",
    "Verif.Format.derived_options_violated",
    "Verif.Format.derived_lookahead_violated",
    "Verif.Format.derived_integer_violated"
   ],
   "note": "Holds for the fields in SafeField and, for a formatter with its own parse method, for a format string of one field (own_parser); false in general: options on a derived type's field reset its position to 0, a bare field looks past itself when an alignment character follows, and a bare field of an integer-derived type is shown in base 20."
  },
  {
   "property": "C113",
   "status": "partial",
   "theorems": [
    "Verif.Coder.other_files_untouched",
    "Verif.Coder.success_means_coded",
    "Verif.Coder.coded_if_possible",
    "Verif.Coder.base64_file_roundtrip_partial",
    "Verif.Coder.huffman_file_roundtrip_partial",
    "Verif.Coder.base64_decode_file_sound",
    "Verif.Coder.huffman_encode_file_refused",
    "Verif.Coder.unopened_refused",
    "Verif.Coder.encode_in_place_violated",
    "Verif.Coder.failed_call_truncates_violated",
    "Verif.Coder.full_device_success_violated",
    "Verif.Coder.late_write_violated"
   ],
   "note": "Holds for distinct files on a device with room. False in general: coding a file onto itself empties it and reports success, a failed call empties the output, and success is reported on a full device."
  },
  {
   "property": "C114",
   "status": "proved",
   "theorems": [
    "Verif.Json.braced_list",
    "Verif.Json.braced_list_complete",
    "Verif.Json.braced_list_no_array_of_pairs"
   ],
   "note": "Exact for every list; consequence shown: an array of pairs with string keys cannot be written as a braced list."
  },
  {
   "property": "C115",
   "status": "partial",
   "theorems": [
    "Verif.Json.swap_exchanges",
    "Verif.Json.swap_array",
    "Verif.Json.swap_string_plain",
    "Verif.Json.swap_loses_violated",
    "Verif.Json.swap_twice_violated",
    "Verif.Json.merge_moves",
    "Verif.Json.merge_keeps",
    "Verif.Json.merge_loses_violated",
    "Verif.Json.merge_given_away"
   ],
   "note": "Exchange and merge are exact when nothing throws; refuted: a swap or merge whose argument cannot be converted loses the caller's string, and swapping a string with escaped characters back does not restore it."
  },
  {
   "property": "C116",
   "status": "partial",
   "theorems": [
    "Verif.Json.exception_text",
    "Verif.Json.exception_plain",
    "Verif.Json.iterator_exception_text",
    "Verif.Json.exception_cut_violated",
    "Verif.Json.missing_key_text_partial",
    "Verif.Json.missing_key_text_violated",
    "Verif.Json.range_exception_text"
   ],
   "note": "Texts are exact for well-formed values; refuted: a string shortened inside a character makes building the exception undefined behaviour, and a key given as std::string is not named (it has been moved from)."
  },
  {
   "property": "C117",
   "status": "partial",
   "theorems": [
    "Verif.Socket.connect_callbacks",
    "Verif.Socket.connect_callback_once",
    "Verif.Socket.connect_callback_truth",
    "Verif.Socket.connect_completes_partial",
    "Verif.Socket.connect_served",
    "Verif.Socket.connect_callback_dropped_violated",
    "Verif.Socket.connect_closes_connected_violated"
   ],
   "note": "At most once, order and truth are proved for every history; completion for attempts left alone. Violated: closing the socket, or calling connect_async again, while an attempt is pending drops its callback; a second call answered connected is closed by the first callback."
  },
  {
   "property": "C118",
   "status": "partial",
   "theorems": [
    "Verif.PathMonitor.Destroy.destroy_closes_own",
    "Verif.PathMonitor.Destroy.destroy_silences_other_violated",
    "Verif.PathMonitor.Destroy.destroy_spares_others_partial"
   ],
   "note": "The code violates the last clause: the destructor removes watches through a descriptor number it has already closed, so if the number is reused in between, another monitor's watch is removed (destroy_silences_other_violated). Descriptor ownership and absence of leaks hold in every execution (destroy_closes_own); the watches are exact in every execution in which nothing is opened during a destruction (destroy_spares_others_partial)."
  },
  {
   "property": "C119",
   "status": "partial",
   "theorems": [
    "Verif.Socket.Reuse.reuse_loses_nothing",
    "Verif.Socket.Reuse.reuse_callbacks_partial",
    "Verif.Socket.Reuse.reuse_callbacks_violated"
   ],
   "note": "No request of an open socket is lost (reuse_loses_nothing, every execution). The second clause fails in the code: the removal is an asynchronous task, so a poll queued before it can invoke the closed socket's callback when the new owner of the number is ready (reuse_callbacks_violated); it can happen only while that removal is pending (reuse_callbacks_partial)."
  },
  {
   "property": "C12",
   "status": "proved",
   "theorems": [
    "Verif.Unicode.utf8_codepoint_roundtrip",
    "Verif.Unicode.encode_rejects_non_scalar"
   ],
   "note": "For every scalar value and any trailing bytes, for char and char8_t."
  },
  {
   "property": "C120",
   "status": "partial",
   "theorems": [
    "Verif.Logger.Default.default_logger",
    "Verif.Logger.Default.exit_exact",
    "Verif.Logger.Default.exit_safe_partial",
    "Verif.Logger.Default.exit_violated"
   ],
   "note": "The first part (target and lifetime of the default logger) is proved in full. The last part is false of the code: a logger kept in a static variable constructed before the first use of the logging system is destroyed after the registry, whose map and mutex its destructor then uses (exit_violated); exit_exact gives the exact condition."
  },
  {
   "property": "C121",
   "status": "partial",
   "theorems": [
    "Verif.Json.reverse_iterator_reads",
    "Verif.Json.reverse_iterator_steps",
    "Verif.Json.reverse_iterator_offsets_partial",
    "Verif.Json.reverse_iterator_order",
    "Verif.Json.reverse_object_iterators",
    "Verif.Json.reverse_iterator_ends",
    "Verif.Json.reverse_iterator_null",
    "Verif.Json.reverse_iterator_offset_violated"
   ],
   "note": "Proved except for the offset -2^63, whose negation is undefined (reverse_iterator_offset_violated)."
  },
  {
   "property": "C122",
   "status": "partial",
   "theorems": [
    "Verif.Ini.ini_warning_lines_partial",
    "Verif.Ini.ini_warning_lines_violated",
    "Verif.Ini.firstBad_unique",
    "Verif.Ini.parseLog_parse"
   ],
   "note": "The code breaks the claim: getline() has already consumed the newline, so warnings name the next line unless the wrong line is the last of the text (ini_warning_lines_violated); ini_warning_lines_partial gives the exact number, and proves that there are warnings exactly for unreadable lines."
  },
  {
   "property": "C123",
   "status": "partial",
   "theorems": [
    "Verif.Json.json_parser_with_log",
    "Verif.Json.json_warnings_partial",
    "Verif.Json.json_warnings_violated"
   ],
   "note": "Proved: every warning names a place where it is true; silent refusals are at the end of the text; accepted texts warn about comment starts at most, and never when comments are off. Violated by the code: the column is one too high on every line but the first, and the text [1,/x2] is accepted with a warning when comments are allowed. Warning wording is left out, the arguments are kept."
  },
  {
   "property": "C124",
   "status": "proved",
   "theorems": [
    "Verif.PathMonitor.inotify_batches",
    "Verif.PathMonitor.inotify_batches_dispatch"
   ],
   "note": "File names are mapped to numbers by an arbitrary function; an inotify queue overflow event has no name and is skipped like all nameless events."
  },
  {
   "property": "C125",
   "status": "partial",
   "theorems": [
    "Verif.PathMonitor.win_polls_partial",
    "Verif.PathMonitor.win_call",
    "Verif.PathMonitor.win_poll_removed",
    "Verif.PathMonitor.win_polls_violated"
   ],
   "note": "Proved as long as the system never reports an overflow. Violated otherwise: the byte count is ignored, so the previous entries are delivered again, or an array never filled is taken apart (read outside it). What the system leaves in the buffer at an overflow is taken to be the old content."
  },
  {
   "property": "C126",
   "status": "partial",
   "theorems": [
    "Verif.Styler.Win.win_styler_partial",
    "Verif.Styler.Win.win_look",
    "Verif.Styler.Win.win_cursor_partial",
    "Verif.Styler.Win.win_styler_violated"
   ],
   "note": "Proved for properly nested stylers and movements that stay on the screen; violated: two stylers destroyed in the order of their creation leave a look behind for ever, and a movement past the edge is dropped with all movements of its styler. Stream buffering is left out."
  },
  {
   "property": "C127",
   "status": "partial",
   "theorems": [
    "Verif.Format.StreamFloat.stream_format_partial",
    "Verif.Format.StreamFloat.stream_state",
    "Verif.Format.StreamFloat.stream_format_violated"
   ],
   "note": "Holds for calls without allocation failure, in the classic locale, with hexadecimal only without precision and zero padding, and with a space for the sign only when no other + is in the text; each exclusion is shown to be needed by the _violated theorem (real defects of the code). The state of the stream is restored in all cases (stream_state)."
  },
  {
   "property": "C128",
   "status": "partial",
   "theorems": [
    "Verif.Assert.assert_holds",
    "Verif.Assert.assert_report_partial",
    "Verif.Assert.assert_message",
    "Verif.Assert.assert_message_violated"
   ],
   "note": "Defect found: the terminating zero of the message literal is written to the report (StringLiteral keeps the whole array). Everything else of the report is proved, with and without message."
  },
  {
   "property": "C129",
   "status": "partial",
   "theorems": [
    "Verif.System.Signals.signal_handler_partial",
    "Verif.System.Signals.signal_install",
    "Verif.System.Signals.signal_handler_violated",
    "Verif.System.Signals.signal_reset"
   ],
   "note": "Proved between calls and during the first installation, on systems that keep the disposition. Refuted while a handler is removed (empty function called) or replaced, and where the disposition is reset on arrival (Windows)."
  },
  {
   "property": "C13",
   "status": "proved",
   "theorems": [
    "Verif.Unicode.utf8_validate_iff"
   ],
   "note": "Exact against the RFC 3629 grammar, every byte string."
  },
  {
   "property": "C130",
   "status": "partial",
   "theorems": [
    "Verif.System.windows_usage_partial",
    "Verif.System.windows_usage_violated",
    "Verif.System.mac_usage_partial",
    "Verif.System.mac_usage_violated",
    "Verif.System.mac_system_usage_partial",
    "Verif.System.other_memory_exact",
    "Verif.System.windows_no_processors_violated"
   ],
   "note": "Proved for histories in which the clock ticks between readings; refuted for the cases listed in windows_usage_violated and mac_usage_violated."
  },
  {
   "property": "C131",
   "status": "proved",
   "theorems": [
    "Verif.System.Text.local_time_text",
    "Verif.System.Text.local_time_injective",
    "Verif.System.Text.error_string_text"
   ],
   "note": "The calendar (localtime) and the texts of errors are the operating system's and inputs of the model."
  },
  {
   "property": "C132",
   "status": "partial",
   "theorems": [
    "Verif.Socket.Winsock.winsock_up_partial",
    "Verif.Socket.Winsock.winsock_down_only_while_starting",
    "Verif.Socket.Winsock.winsock_up_violated",
    "Verif.Socket.Winsock.winsock_accounting"
   ],
   "note": "Proved at rest and without failures of WSAStartup; refuted during the first constructor and after a failure."
  },
  {
   "property": "C133",
   "status": "proved",
   "theorems": [
    "Verif.Socket.Mode.io_mode_truthful"
   ],
   "note": "POSIX implementation."
  },
  {
   "property": "C134",
   "status": "partial",
   "theorems": [
    "Verif.Socket.Mode.by_name_partial",
    "Verif.Socket.Mode.by_name_violated"
   ],
   "note": "Proved for names without a zero character, refuted for the others. The resolver is an input."
  },
  {
   "property": "C135",
   "status": "partial",
   "theorems": [
    "Verif.Socket.Win.win_send_all",
    "Verif.Socket.Win.win_send_to_partial",
    "Verif.Socket.Win.win_send_to_violated",
    "Verif.Socket.Win.win_recv_partial",
    "Verif.Socket.Win.win_recv_violated"
   ],
   "note": "Proved for send without bound; for send_to and recv for packet sizes below 2 GiB, refuted above (the size is converted to int)."
  },
  {
   "property": "C136",
   "status": "partial",
   "theorems": [
    "Verif.Socket.Win.win_select_partial",
    "Verif.Socket.Win.win_select_violated",
    "Verif.Socket.Win.win_poll_starves_violated"
   ],
   "note": "Holds for up to 64 handles per direction; beyond that the handles after the first 64 are dropped by FD_SET and never reported."
  },
  {
   "property": "C137",
   "status": "partial",
   "theorems": [
    "Verif.Config.ini_settings_partial",
    "Verif.Config.ini_boolean_violated",
    "Verif.Config.json_settings_partial",
    "Verif.Config.json_settings_violated",
    "Verif.Config.settings_default",
    "Verif.Config.ini_zero_chunk_size",
    "Verif.Config.ini_documented_settings"
   ],
   "note": "Proved for numbers in INI files, and for numbers of the type and truth values in JSON files. Refuted: compress_log_files = false in an INI file means true; JSON numbers out of range wrap around or are undefined."
  },
  {
   "property": "C138",
   "status": "partial",
   "theorems": [
    "Verif.Str.Floats.float_from_chars_exact",
    "Verif.Str.Floats.float_stof_exact",
    "Verif.Str.Floats.float_versions_agree_partial",
    "Verif.Str.Floats.float_versions_agree_violated"
   ],
   "note": "Exact (iff) for both versions of the converter; independence of compiler and locale is refuted: std::stof skips blanks, takes a plus, hexadecimal numbers and the decimal point of the locale. Rounding to the type is an input."
  },
  {
   "property": "C139",
   "status": "partial",
   "theorems": [
    "Verif.Json.OldFloats.json_stold_partial",
    "Verif.Json.OldFloats.json_stold_extra",
    "Verif.Json.OldFloats.json_stold_violated"
   ],
   "note": "RFC numbers keep their value in the C locale; what is accepted beyond them is hexadecimal floating-point text (refutation: 0x1.8 is accepted); a decimal comma makes 1.5 unreadable."
  },
  {
   "property": "C14",
   "status": "proved",
   "theorems": [
    "Verif.Unicode.utf16_validate_iff",
    "Verif.Unicode.utf16_codepoint_roundtrip"
   ],
   "note": "Every unit sequence and every scalar value."
  },
  {
   "property": "C140",
   "status": "partial",
   "theorems": [
    "Verif.Format.Arguments.text_arguments_partial",
    "Verif.Format.Arguments.array_shown",
    "Verif.Format.Arguments.pointer_text",
    "Verif.Format.Arguments.integer_arguments",
    "Verif.Format.Arguments.buffer_shown_violated"
   ],
   "note": "Proved for integers, strings, views, literals, full arrays and pointers. Refuted for every character buffer larger than the text in it: the zero and what follows are shown."
  },
  {
   "property": "C141",
   "status": "partial",
   "theorems": [
    "Verif.Task.Lifecycle.lifecycle_partial",
    "Verif.Task.Lifecycle.stop_in_task_hangs",
    "Verif.Task.Lifecycle.start_during_stop_violated"
   ],
   "note": "lifecycle_partial: no overlapping use of the futures, stop that returns has waited for all threads, stop can always go on, for programs whose calls do not overlap and whose tasks do not call stop. stop_in_task_hangs: a task that stops its manager never returns. start_during_stop_violated: a start during another thread's stop succeeds, races on the vector, and that stop does not return until somebody stops again; a second stop returns at once with all threads still running."
  },
  {
   "property": "C142",
   "status": "partial",
   "theorems": [
    "Verif.Task.Locks.no_deadlock",
    "Verif.Task.Locks.captures_partial",
    "Verif.Task.Locks.captures_violated",
    "Verif.Task.Locks.sequence_captures_violated"
   ],
   "note": "no_deadlock: full first clause, when captured objects' destructors do not call the library. captures_partial: the exact circumstances in which destruction happens without a lock, and that posting destructors are then harmless. captures_violated: a dropped task is destroyed under the queue's, the delayed tasks' or a runner's lock, and a posting destructor then waits for its own thread. sequence_captures_violated: the captured objects of a sequenced task outlive the handing over of the next task."
  },
  {
   "property": "C143",
   "status": "partial",
   "theorems": [
    "Verif.PathMonitor.Mac.mac_watched_partial",
    "Verif.PathMonitor.Mac.mac_dispatch_partial",
    "Verif.PathMonitor.Mac.mac_reported_partial",
    "Verif.PathMonitor.Mac.mac_poll_idle",
    "Verif.PathMonitor.Mac.mac_refresh_violated",
    "Verif.PathMonitor.Mac.mac_unserved_violated",
    "Verif.PathMonitor.Mac.mac_same_directory_violated",
    "Verif.PathMonitor.Mac.mac_rename_violated",
    "Verif.PathMonitor.Mac.mac_destroy_violated",
    "Verif.PathMonitor.Mac.mac_poll_violated",
    "Verif.PathMonitor.Mac.mac_registrations"
   ],
   "note": "Proved: what is watched, dispatch, and exactly-once in-order reporting between registrations. Violated: changes not yet passed on are lost when a directory is added or removed; a registration succeeds without a stream; of two spellings of a directory one is not served; moved files are not reported; destroying a monitor with registrations uses destroyed members; quick events make a poll endless. Return values and registrations over any history are exact (mac_registrations)."
  },
  {
   "property": "C144",
   "status": "partial",
   "theorems": [
    "Verif.PathMonitor.Win.handles_closed_once",
    "Verif.PathMonitor.Win.registration_served_partial",
    "Verif.PathMonitor.Win.poll_removes_only_refused",
    "Verif.PathMonitor.Win.failed_never_served",
    "Verif.PathMonitor.Win.registration_lost_violated",
    "Verif.PathMonitor.Win.registration_dead_violated",
    "Verif.PathMonitor.Win.win_returns",
    "Verif.PathMonitor.Win.destroyed_silent"
   ],
   "note": "Handles proved in full. Service of registrations is proved when the registration is made while no poll is between its critical sections, and refuted otherwise: the poll removes a directory that was removed and added again meanwhile. Refuted too for a directory whose request the system failed: it stays registered, adding it again succeeds, and it is never served."
  },
  {
   "property": "C145",
   "status": "partial",
   "theorems": [
    "Verif.Socket.WinConnect.win_connect_callbacks",
    "Verif.Socket.WinConnect.win_connect_success_partial",
    "Verif.Socket.WinConnect.win_connect_failure_violated",
    "Verif.Socket.WinConnect.win_connect_short_buffer_violated",
    "Verif.Socket.WinConnect.win_error_byte"
   ],
   "note": "Callbacks are never invoked twice or out of order; success is reported if getsockopt takes the short buffer. The claim is false for failed attempts (never reported: select is called without exceptfds), and for all attempts if getsockopt refuses a one-byte buffer."
  },
  {
   "property": "C146",
   "status": "partial",
   "theorems": [
    "Verif.Socket.Identity.socket_ids_unique",
    "Verif.Socket.Identity.socket_id_follows",
    "Verif.Socket.Identity.receive_defined_iff",
    "Verif.Socket.Identity.moved_from_receive_violated",
    "Verif.Socket.Identity.moved_async_violated",
    "Verif.Socket.Identity.calls_defined_partial",
    "Verif.Socket.Identity.socket_created"
   ],
   "note": "Uniqueness and following of identifiers, and when calls are defined, proved for all programs; the claims about moved-from sockets and moved asynchronous sockets are false (null m_config dereferenced; std::bad_weak_ptr)."
  },
  {
   "property": "C147",
   "status": "partial",
   "theorems": [
    "Verif.Json.Alias.assign_copy_exact",
    "Verif.Json.Alias.assign_move_partial",
    "Verif.Json.Alias.take_part",
    "Verif.Json.Alias.assign_move_violated",
    "Verif.Json.Alias.push_copy_partial",
    "Verif.Json.Alias.push_copy_violated",
    "Verif.Json.Alias.push_move_partial",
    "Verif.Json.Alias.push_element_moved",
    "Verif.Json.Alias.push_move_violated",
    "Verif.Json.Alias.swap_partial",
    "Verif.Json.Alias.swap_violated",
    "Verif.Json.Alias.subscript_self",
    "Verif.Json.Alias.self_move_violated",
    "Verif.Json.Parts.merge_parts_partial",
    "Verif.Json.Parts.merge_parts_types",
    "Verif.Json.Parts.merge_parts_violated"
   ],
   "note": "Assignments of copies and x = std::move(part of x) are right for all documents; x[key] = x and x[key] = std::move(x) too. False for: moving or swapping with something the destination is inside of (lost), push_back(std::move(self)) (undefined), push_back(self) of null, insert(key, std::move(self)), insert_or_assign of self over an existing entry. merge: right unless the destination is inside an entry that is handed over, in which case it is lost with everything handed over."
  },
  {
   "property": "C148",
   "status": "proved",
   "theorems": [
    "Verif.Huffman.Memory.encoder_memory"
   ],
   "note": "The codes are then the subject of the other Huffman properties, which are about the recursive model."
  },
  {
   "property": "C149",
   "status": "proved",
   "theorems": [
    "Verif.Huffman.Reference.decoder_is_reference"
   ],
   "note": "First clause: every byte string. Second clause: the answer is unique when no word left by an earlier chunk is longer than the chunk's own greatest length."
  },
  {
   "property": "C15",
   "status": "proved",
   "theorems": [
    "Verif.Unicode.convert_roundtrip"
   ],
   "note": "All pairs of encodings, every string."
  },
  {
   "property": "C150",
   "status": "partial",
   "theorems": [
    "Verif.Json.iterator_throws",
    "Verif.Json.reverse_iterator_throws",
    "Verif.Json.range_exception_text",
    "Verif.Json.iterator_throws_violated"
   ],
   "note": "Offsets whose negation overflows are undefined behaviour (see C104) and excluded (ItOp.Ok). Proved for every offset but -2^63 (ItOp.Ok); refuted for that one: its negation and magnitude overflow, undefined behaviour instead of an exception."
  },
  {
   "property": "C151",
   "status": "proved",
   "theorems": [
    "Verif.Json.Capacity.size_le_capacity",
    "Verif.Json.Capacity.capacity_unsized",
    "Verif.Json.Capacity.reserve_spec",
    "Verif.Json.Capacity.reserved_stays"
   ],
   "note": "The behaviour of std::vector and std::string (reallocation only above the capacity) is assumed; how much they grow is arbitrary."
  },
  {
   "property": "C152",
   "status": "partial",
   "theorems": [
    "Verif.Json.Capacity.take_out",
    "Verif.Json.Capacity.move_is_copy_partial",
    "Verif.Json.Capacity.move_is_copy_violated"
   ],
   "note": "The last sentence is false for numbers: a copied number converts to text, a moved one throws."
  },
  {
   "property": "C153",
   "status": "partial",
   "theorems": [
    "Verif.Config.Lifetime.manager_lifetime",
    "Verif.Config.Lifetime.one_poll",
    "Verif.Config.Lifetime.changes_reread",
    "Verif.Config.Lifetime.release_completes_partial",
    "Verif.Config.Lifetime.release_in_callback_violated",
    "Verif.Config.Lifetime.release_hangs",
    "Verif.Config.Lifetime.hangs_only_in_callback",
    "Verif.Config.Lifetime.runner_gone",
    "Verif.Config.Lifetime.destructor_waits_for_poll"
   ],
   "note": "Lifetime, single poll and accounting hold in every history. Completion is proved unless the last reference is released while the callback runs, and refuted then (for every continuation): the callback's reference is the last one, and the destructor waits for the path monitor's mutex that its own thread holds. Completion means that the threads can finish on their own from every such state; fairness is not modelled."
  },
  {
   "property": "C154",
   "status": "partial",
   "theorems": [
    "Verif.Logger.Threads.async_logger",
    "Verif.Logger.Threads.async_stops",
    "Verif.Logger.Threads.sync_serial_partial",
    "Verif.Logger.Threads.sync_violated"
   ],
   "note": "Holds for asynchronous loggers, for all interleavings; synchronous loggers violate it as soon as two calls overlap (sync_violated), the calls of one thread, or serialised ones, are fine (sync_serial_partial)."
  },
  {
   "property": "C155",
   "status": "partial",
   "theorems": [
    "Verif.Json.json_accessors_partial",
    "Verif.Json.json_accessors_violated"
   ],
   "note": "The property fails where a failing emplace or emplace_back on a null value leaves an empty object or array (json_accessors_violated) and for the calls of C35 listed there; json_accessors_partial covers every other history."
  },
  {
   "property": "C156",
   "status": "partial",
   "theorems": [
    "Verif.System.windows_monitor_reports",
    "Verif.System.mac_monitor_reports_partial",
    "Verif.System.mac_monitor_reports_violated"
   ],
   "note": "Complete for Windows. On macOS it fails when the system once names no processors (mac_monitor_reports_violated: count zero, no further polls) and holds otherwise."
  },
  {
   "property": "C157",
   "status": "partial",
   "theorems": [
    "Verif.Socket.Bind.bind_modes_partial",
    "Verif.Socket.Bind.bind_exclusive",
    "Verif.Socket.Bind.bind_modes_violated"
   ],
   "note": "Holds on Linux for programs that use one mode per socket; fails when a call of bind with AllowReuse fails (the flag stays set) and on Windows, where SO_REUSEADDR takes the endpoint of any socket. The rule of the operating system is an assumption of the model."
  },
  {
   "property": "C158",
   "status": "partial",
   "theorems": [
    "Verif.BitStream.bitstream_segments",
    "Verif.BitStream.bitstream_unfinished",
    "Verif.BitStream.bitstream_crash_prefix",
    "Verif.BitStream.bitstream_last_segment",
    "Verif.BitStream.bitstream_finish_twice",
    "Verif.BitStream.bitstream_append_violated",
    "Verif.BitStream.bitstream_stale_violated"
   ],
   "note": "The content of the stream is characterised for every history and every earlier content. False in general: writes after finish replace what was finished, and a longer earlier content is read as data. Assumes a memory stream that takes every byte and the histories without the undefined shift of C01."
  },
  {
   "property": "C159",
   "status": "partial",
   "theorems": [
    "Verif.Huffman.huffman_decoder_history",
    "Verif.Huffman.huffman_decoder_history_roundtrip",
    "Verif.Huffman.huffman_kraft_encoded",
    "Verif.Huffman.huffman_kraft_defined_partial",
    "Verif.Huffman.huffman_kraft_violated"
   ],
   "note": "The answers never depend on the history (proved), the constant after decoding encoder output is the scaled Kraft sum of the last chunk's codes (proved). Defined after any single use and after any history in which no stream decodes to nothing; fails (negative shift) when a stream without chunks and a smaller maximum follows one with codes."
  },
  {
   "property": "C16",
   "status": "proved",
   "theorems": [
    "Verif.Unicode.escape_codepoint_roundtrip",
    "Verif.Unicode.escape_format"
   ],
   "note": "Every scalar value, both prefixes, any trailing text."
  },
  {
   "property": "C160",
   "status": "partial",
   "theorems": [
    "Verif.Net.v4_octets",
    "Verif.Net.net_constants",
    "Verif.Net.v4_compare",
    "Verif.Net.v6_compare",
    "Verif.Net.endpoint4_compare",
    "Verif.Net.endpoint6_compare",
    "Verif.Net.endpoint_equal_iff_text",
    "Verif.Net.endpoint_mac_operators_partial",
    "Verif.Net.endpoint_mac_operators_violated"
   ],
   "note": "Everything proved where the compiler makes the comparison; the operators written out for macOS are proved right when address and port are ordered the same way and refuted otherwise."
  },
  {
   "property": "C161",
   "status": "proved",
   "theorems": [
    "Verif.Unicode.Memory.codepoint_in_bounds",
    "Verif.Unicode.Memory.text_in_bounds"
   ],
   "note": "Strictest reading: the unit after the end (a terminator in std::string) may not be read either. The value parts refer to the functions of C12-C17 and C87, which are specified there."
  },
  {
   "property": "C162",
   "status": "partial",
   "theorems": [
    "Verif.Json.InPlace.json_string_in_place",
    "Verif.Json.InPlace.json_string_write_partial",
    "Verif.Json.InPlace.json_string_write_violated"
   ],
   "note": "Construction: every byte string. Writing: proved for UTF-8; the code violates it for strings that are not (an empty optional is dereferenced), exactly then."
  },
  {
   "property": "C163",
   "status": "proved",
   "theorems": [
    "Verif.Net.Arrays.v4_arrays",
    "Verif.Net.Arrays.v6_arrays",
    "Verif.Net.Arrays.v6_format_arrays",
    "Verif.Net.Arrays.endpoint_arrays"
   ],
   "note": "for every text of bytes and every address; texts shorter than npos for endpoints"
  },
  {
   "property": "C164",
   "status": "partial",
   "theorems": [
    "Verif.Str.Memory.split_memory",
    "Verif.Str.Memory.trim_memory",
    "Verif.Str.Memory.wildcard_memory",
    "Verif.Str.Memory.replace_memory",
    "Verif.Str.Memory.replace_memory_ends",
    "Verif.Str.Memory.replace_self_violated"
   ],
   "note": "replace_all with a search view into the target never ends (replace_self_violated); the bounds of replace_all are proved for replacements no longer than the search string, whose result cannot outgrow a string"
  },
  {
   "property": "C165",
   "status": "partial",
   "theorems": [
    "Verif.Json.Depth.json_depth_partial",
    "Verif.Json.Depth.json_depth_violated",
    "Verif.Json.Depth.json_open_violated",
    "Verif.Json.Depth.json_write_depth_partial",
    "Verif.Json.Depth.json_read_then_written",
    "Verif.Json.Depth.json_write_depth_violated",
    "Verif.Json.Depth.json_use_depth_partial",
    "Verif.Json.Depth.json_read_then_destroyed",
    "Verif.Json.Depth.json_use_depth_violated"
   ],
   "note": "false as stated: for every stack size a valid array of twice that many bytes overflows it, and so do opening brackets alone. Proved: with a level for each opening bracket or brace and one more, and whenever the parser comes back, the result is that of the unlimited parser. False as stated: for every stack size a valid array of twice that many bytes overflows the parser, opening brackets alone do, a value nested that deep cannot be written, and one built by moving cannot be copied, compared with itself or destroyed. Proved: whatever comes back is the answer of the unlimited functions, each needs at most one level per level of nesting, and what could be read can be written, copied and destroyed on the same stack."
  },
  {
   "property": "C166",
   "status": "partial",
   "theorems": [
    "Verif.Json.Cost.json_equal_cost",
    "Verif.Json.Cost.json_less_cost_partial",
    "Verif.Json.Cost.json_less_cost_violated"
   ],
   "note": "Proved for == and the hash (at most, respectively exactly, one call per value), and for < when the depth is bounded; refuted for <: std::map and std::vector ask a < b and then b < a of every pair of elements, so each level of nesting doubles the number of calls, and 2n brackets cost 2^n - 1. Steps are calls of the JSON operators; comparisons of strings and keys count nothing."
  },
  {
   "property": "C167",
   "status": "partial",
   "theorems": [
    "Verif.Task.Release.destroyed_only_unused",
    "Verif.Task.Release.release_after_stop_partial",
    "Verif.Task.Release.release_without_stop_violated"
   ],
   "note": "Safety (destroyed at most once, after all threads were waited for) holds in every history; destruction is proved for managers that were stopped and refuted for all others: each thread holds a reference to the manager, so a manager that is released without stop lives, and its threads poll, until the process ends. References captured by tasks count as references of the program."
  },
  {
   "property": "C168",
   "status": "proved",
   "theorems": [
    "Verif.Socket.Release.one_fate",
    "Verif.Socket.Release.released_socket_silent",
    "Verif.Socket.Release.released_service_silent",
    "Verif.Socket.Release.closed_socket_silent",
    "Verif.Socket.Release.program_references"
   ],
   "note": "Any request may be served at any time during a poll (over-approximation); a service reference captured by a callback counts as one the program holds until it releases it. closed_socket_silent: after close and its removal task, without further calls, nothing of the socket is left or invoked."
  },
  {
   "property": "C17",
   "status": "partial",
   "theorems": [
    "Verif.Unicode.escape_all_inverse_iff",
    "Verif.Unicode.escape_all_inverse_partial",
    "Verif.Unicode.escape_all_inverse_violated",
    "Verif.Unicode.escape_all_rejects"
   ],
   "note": "Fails in the code for text containing a literal backslash-u; the strings that survive are characterised exactly (iff)."
  },
  {
   "property": "C18",
   "status": "proved",
   "theorems": [
    "Verif.Str.split_pieces",
    "Verif.Str.split_limited",
    "Verif.Str.split_at_most",
    "Verif.Str.pieces_unique"
   ],
   "note": "all strings, delimiters and counts"
  },
  {
   "property": "C19",
   "status": "proved",
   "theorems": [
    "Verif.Str.trim_decomposition",
    "Verif.Str.trim_unique"
   ],
   "note": ""
  },
  {
   "property": "C20",
   "status": "partial",
   "theorems": [
    "Verif.Str.replace_all_none_left",
    "Verif.Str.replace_all_empty_search",
    "Verif.Str.replace_all_diverges_violated",
    "Verif.Str.replace_all_terminates_partial",
    "Verif.Str.remove_all_terminates",
    "Verif.Str.replace_all_char",
    "Verif.Str.replace_all_clear_partial",
    "Verif.Str.clear_of_disjoint",
    "Verif.Str.replace_all_again_violated"
   ],
   "note": "false as stated: replace_all loops forever when the replacement contains the search string; partial correctness holds always, termination when the replacement is no longer than (and different from) the search string or the search string is one character absent from the replacement. false as stated: replace_all loops forever when the replacement contains the search string; partial correctness holds always, termination when the replacement is no longer than (and different from) the search string, or when no occurrence of the search string can touch the replacement (then the result is the left-to-right replacement, exactly), in particular when the two share no character. Missing: longer replacements that run into the search string, a string-rewriting question."
  },
  {
   "property": "C21",
   "status": "partial",
   "theorems": [
    "Verif.Str.wildcard_exact_violated",
    "Verif.Str.wildcard_complete_partial",
    "Verif.Str.wildcard_one_segment_partial",
    "Verif.Str.wildcard_two_segments_partial",
    "Verif.Str.wildcard_exact"
   ],
   "note": "false as stated (a*a matches a; a matches aba); no false negatives; exact on one-segment patterns with a star and on x*y for long enough sources. wildcard_exact says on every source and pattern what is answered."
  },
  {
   "property": "C22",
   "status": "partial",
   "theorems": [
    "Verif.Str.classify_letters",
    "Verif.Str.classify_digits",
    "Verif.Str.classify_digits_partial",
    "Verif.Str.classify_digits_violated"
   ],
   "note": "letters, case and space exact everywhere; is_digit and is_x_digit accept every negative char/wchar_t"
  },
  {
   "property": "C23",
   "status": "partial",
   "theorems": [
    "Verif.Str.consume_number_run",
    "Verif.Str.consume_hex_number_run",
    "Verif.Str.consume_number_exact_partial",
    "Verif.Str.consume_number_violated",
    "Verif.Str.lexer_bounds",
    "Verif.Str.consume_number_exact",
    "Verif.Str.consume_hex_number_exact"
   ],
   "note": "consumes exactly the maximal run; the value wraps modulo 2^64 and negative characters count as digits. The *_exact theorems say on every text what is consumed and returned."
  },
  {
   "property": "C24",
   "status": "partial",
   "theorems": [
    "Verif.Format.format_text_partial",
    "Verif.Format.format_accepts_partial",
    "Verif.Format.format_never_ub",
    "Verif.Format.format_escaped",
    "Verif.Format.parseFormat_iff",
    "Verif.Format.confused_field_violated"
   ],
   "note": "Accepted strings are exactly the renderings of well-formed trees with a meaning, and the output is the literal text, single braces and field texts; escaped text is always printed verbatim; no UB. Refuted in general: '{:}' followed by an alignment character is rejected."
  },
  {
   "property": "C25",
   "status": "partial",
   "theorems": [
    "Verif.Format.format_positions_partial",
    "Verif.Format.position_overflow_violated"
   ],
   "note": "In range and unmixed always; positions are the numbers written below 2^64. Refuted: positions wrap modulo 2^64."
  },
  {
   "property": "C26",
   "status": "proved",
   "theorems": [
    "Verif.Format.format_integer",
    "Verif.Format.width_is",
    "Verif.Format.format_text_partial"
   ],
   "note": "All integer presentation types except 'c' (which shows a character, covered by ShowsParam in format_text_partial)."
  },
  {
   "property": "C27",
   "status": "partial",
   "theorems": [
    "Verif.Format.format_string_partial",
    "Verif.Format.precision_is",
    "Verif.Format.foreign_width_violated"
   ],
   "note": "Proved for strings of the character type of the format string; refuted for strings of another character type (width and precision count source units)."
  },
  {
   "property": "C28",
   "status": "proved",
   "theorems": [
    "Verif.Json.json_roundtrip",
    "Verif.Json.json_roundtrip_floats"
   ],
   "note": "All values without floats, any depth; floats whose text reads back equal also covered. Floats are excluded in the statement: the default format has 6 significant digits."
  },
  {
   "property": "C29",
   "status": "partial",
   "theorems": [
    "Verif.Json.serialize_rfc_partial",
    "Verif.Json.serialize_resize_violated",
    "Verif.Json.serialize_inf_violated",
    "Verif.Json.serialize_text"
   ],
   "note": "Holds for UTF-8 strings and floats that print as numbers. The code violates it: resize can cut a UTF-8 string (serialize then dereferences an empty optional), and infinities/NaN print as inf/nan."
  },
  {
   "property": "C30",
   "status": "proved",
   "theorems": [
    "Verif.Json.json_string_iff"
   ],
   "note": "Exact: accepted iff UTF-8 and RFC 8259 characters, stores what they denote."
  },
  {
   "property": "C31",
   "status": "partial",
   "theorems": [
    "Verif.Json.json_string_restore_iff",
    "Verif.Json.json_string_restore_shorter",
    "Verif.Json.json_string_restore_partial",
    "Verif.Json.json_string_restore_violated"
   ],
   "note": "The code violates it: stored strings are un-escaped a second time, control characters and quotes are rejected. The strings that are restored are characterised exactly: those without quotes, reverse solidi and control characters."
  },
  {
   "property": "C32",
   "status": "partial",
   "theorems": [
    "Verif.Json.json_eq_equivalence_partial",
    "Verif.Json.json_eq_trans_violated",
    "Verif.Json.json_eq_trans_floats_violated",
    "Verif.Json.json_eq_refl_violated"
   ],
   "note": "Symmetric for all values; reflexive without inf/NaN; transitive without floats. Not transitive across kinds of numbers or within epsilon; inf and NaN differ from themselves."
  },
  {
   "property": "C33",
   "status": "partial",
   "theorems": [
    "Verif.Json.json_order_partial",
    "Verif.Json.json_order_operators",
    "Verif.Json.json_order_violated",
    "Verif.Json.json_order_meaning"
   ],
   "note": "Strict total order consistent with == when the integers are of one kind (or all in 0..2^63-1) and there are no floats. Signed -1 and unsigned 0 are each less than the other."
  },
  {
   "property": "C34",
   "status": "partial",
   "theorems": [
    "Verif.Json.json_hash_partial",
    "Verif.Json.json_hash_violated"
   ],
   "note": "Holds without floats and with one kind of integers. Json(1) signed == Json(1) unsigned but the hashes differ."
  },
  {
   "property": "C35",
   "status": "partial",
   "theorems": [
    "Verif.Json.json_containers_partial",
    "Verif.Json.json_containers_violated"
   ],
   "note": "Every history refines finite map / sequence semantics except the listed deviating calls, which throw but change the value."
  },
  {
   "property": "C36",
   "status": "partial",
   "theorems": [
    "Verif.Json.json_iterators_partial",
    "Verif.Json.json_iterators_violated"
   ],
   "note": "Exact cursor semantics for all sequences of operations, except offset -2^63 (std::abs/negation overflow)."
  },
  {
   "property": "C37",
   "status": "partial",
   "theorems": [
    "Verif.Json.json_parser_strict_partial",
    "Verif.Json.json_parser_flags",
    "Verif.Json.json_parser_strict_violated"
   ],
   "note": "Exact RFC 8259 for texts without vertical tabs; vertical tab is accepted as white space."
  },
  {
   "property": "C38",
   "status": "proved",
   "theorems": [
    "Verif.Json.json_parser_all_input",
    "Verif.Json.json_parser_duplicate"
   ],
   "note": "Whole input accounted for by the grammar with last-wins maps, value unique."
  },
  {
   "property": "C39",
   "status": "proved",
   "theorems": [
    "Verif.Ini.ini_render",
    "Verif.Ini.ini_roundtrip"
   ],
   "note": "INI parser modelled line by line, on top of Str.trim/split and Json string parsing. ini_render: the rendering of a configuration is read as exactly its declarations; ini_roundtrip: with distinct (sorted) names it parses back to the very configuration."
  },
  {
   "property": "C40",
   "status": "partial",
   "theorems": [
    "Verif.Ini.ini_language",
    "Verif.Ini.ini_rejects",
    "Verif.Ini.ini_keeps_settings_partial",
    "Verif.Ini.ini_lost_setting_violated",
    "Verif.Ini.ini_missing_name_violated",
    "Verif.Ini.ini_lone_quote_violated"
   ],
   "note": "Exact language of the parser (iff) and rejection of any meaningless line proved. Settings are kept unless the section is declared again later: a repeated section header drops the settings of the earlier one (counterexample). '=x=1' and a value of one lone quote are accepted (counterexamples)."
  },
  {
   "property": "C41",
   "status": "partial",
   "theorems": [
    "Verif.Parser.bom_transcoding_partial",
    "Verif.Parser.no_bom_is_utf8",
    "Verif.Parser.bom_ill_formed",
    "Verif.Parser.bom_utf16le_nul_violated",
    "Verif.Parser.bom_truncated_unit_violated"
   ],
   "note": "Proved for all texts and all five marks except a UTF-16LE text beginning with NUL, which is taken for UTF-32LE (counterexample proved). A truncated last unit is dropped silently (proved)."
  },
  {
   "property": "C42",
   "status": "proved",
   "theorems": [
    "Verif.Conc.queue_linearizable",
    "Verif.Conc.queue_fifo",
    "Verif.Conc.container_mutual_exclusion"
   ],
   "note": "every interleaving of any number of threads; lock, condition variable and container accesses are separate steps"
  },
  {
   "property": "C43",
   "status": "proved",
   "theorems": [
    "Verif.Conc.stack_linearizable",
    "Verif.Conc.stack_conserves",
    "Verif.Conc.container_mutual_exclusion"
   ],
   "note": "same model with push on top"
  },
  {
   "property": "C44",
   "status": "proved",
   "theorems": [
    "Verif.Conc.timed_pop_fails_only_on_empty",
    "Verif.Conc.no_lost_wakeup",
    "Verif.Conc.no_stuck_waiter"
   ],
   "note": "wake-up accounting invariant and absence of stuck states (safety form; fairness of the scheduler is not modelled)"
  },
  {
   "property": "C45",
   "status": "proved",
   "theorems": [
    "Verif.Task.sequenced_no_overlap",
    "Verif.Task.sequenced_in_order",
    "Verif.Task.sequenced_executes_prefix"
   ],
   "note": "All reachable states of the task-manager transition system, any number of workers and runners."
  },
  {
   "property": "C46",
   "status": "partial",
   "theorems": [
    "Verif.Task.accepted_held_once",
    "Verif.Task.executed_at_most_once",
    "Verif.Task.sequenced_progress_partial",
    "Verif.Task.dropped_only_without_owner_partial",
    "Verif.Task.restart_wedges_runner_violated",
    "Verif.Task.rejected_only_without_manager"
   ],
   "note": "Held once and executed at most once: proved. Progress: proved while stop was never called; after a stop/start cycle it is false of the code (a task dropped by a stopping worker leaves its sequenced runner waiting for ever), proved as a refutation."
  },
  {
   "property": "C47",
   "status": "proved",
   "theorems": [
    "Verif.Task.delayed_never_early",
    "Verif.Task.delayed_handed_once",
    "Verif.Task.timer_pass_complete",
    "Verif.Task.delayed_discarded_only_released",
    "Verif.Task.discarded_runner_is_gone"
   ],
   "note": "Discarded only when nobody owns the runner, not even a worker executing another of its tasks."
  },
  {
   "property": "C48",
   "status": "proved",
   "theorems": [
    "Verif.Task.start_stop_alternate",
    "Verif.Task.stop_is_final",
    "Verif.Task.stop_waits",
    "Verif.Task.off_threads_gone",
    "Verif.Task.stop_abandons_queue"
   ],
   "note": "start not called while a stop is in progress (unsynchronised m_futures)."
  },
  {
   "property": "C49",
   "status": "proved",
   "theorems": [
    "Verif.Task.reply_after_task",
    "Verif.Task.replied_at_most_once",
    "Verif.Task.never_without_owner",
    "Verif.Task.reply_posted"
   ],
   "note": ""
  },
  {
   "property": "C50",
   "status": "partial",
   "theorems": [
    "Verif.Config.config_reflects_file_partial",
    "Verif.Config.config_reflects_file_violated",
    "Verif.Config.unparsable_file_resets",
    "Verif.Config.ini_files_are_key_value",
    "Verif.Config.ini_config_end_to_end"
   ],
   "note": "Proved for every history in which each file read is an object or unparsable (so for every INI file); refuted for a JSON file whose top level is not an object: live objects keep the values of an older file."
  },
  {
   "property": "C51",
   "status": "proved",
   "theorems": [
    "Verif.Config.create_returns_live",
    "Verif.Config.create_makes_new",
    "Verif.Config.prune_counts_live",
    "Verif.Config.json_files_are_well_formed"
   ],
   "note": "For every history of creations, releases, prunes and updates."
  },
  {
   "property": "C52",
   "status": "partial",
   "theorems": [
    "Verif.PathMonitor.dispatch_partial",
    "Verif.PathMonitor.only_registered_called",
    "Verif.PathMonitor.results_partial",
    "Verif.PathMonitor.convert_to_event_spec",
    "Verif.PathMonitor.registration_served_recreated_violated",
    "Verif.PathMonitor.concurrent_registration_violated"
   ],
   "note": "dispatch_partial: all histories without directory aliases, removal of monitored directories, or registrations racing with a pruning remove_file (those cases are refuted under C53, C54). only_registered_called holds for every history."
  },
  {
   "property": "C53",
   "status": "partial",
   "theorems": [
    "Verif.PathMonitor.concurrent_registration_violated",
    "Verif.PathMonitor.concurrent_registration_partial"
   ],
   "note": "False of the code: remove_file prunes in a second critical section; the proved part excludes registrations in a directory with a pending prune."
  },
  {
   "property": "C54",
   "status": "partial",
   "theorems": [
    "Verif.PathMonitor.registration_served_aliases_violated",
    "Verif.PathMonitor.registration_served_recreated_violated",
    "Verif.PathMonitor.registration_served_partial"
   ],
   "note": "False of the code for two spellings of a directory and for a directory that was removed and created again; proved otherwise."
  },
  {
   "property": "C55",
   "status": "partial",
   "theorems": [
    "Verif.PathMonitor.Lock.callback_uses_monitor_violated",
    "Verif.PathMonitor.Lock.config_manager_released_violated",
    "Verif.PathMonitor.Lock.dispatch_completes_partial"
   ],
   "note": "False of the code: callbacks run with the non-recursive mutex held. Proved for callbacks that do not use the monitor, with any number of threads."
  },
  {
   "property": "C56",
   "status": "proved",
   "theorems": [
    "Verif.Net.v4_round_trip",
    "Verif.Net.v4_format_octets",
    "Verif.Net.v4_from_dotted"
   ],
   "note": "all 2^32 addresses"
  },
  {
   "property": "C57",
   "status": "partial",
   "theorems": [
    "Verif.Net.v4_parse_exact_partial",
    "Verif.Net.v4_parse_violated",
    "Verif.Net.v4_parse_exact"
   ],
   "note": "Exact (iff) for ASCII texts whose digit runs stay below 2^64; refuted beyond: numbers wrap modulo 2^64, and bytes >= 0x80 can count as digits. v4_parse_exact is an iff on every byte string."
  },
  {
   "property": "C58",
   "status": "proved",
   "theorems": [
    "Verif.Net.v6_round_trip",
    "Verif.Net.v6_format_text"
   ],
   "note": "all 2^128 addresses; the printed text is an RFC 4291 text"
  },
  {
   "property": "C59",
   "status": "partial",
   "theorems": [
    "Verif.Net.v6_parse_complete",
    "Verif.Net.v6_parse_sound_partial",
    "Verif.Net.v6_parse_violated",
    "Verif.Net.v6_parse_exact"
   ],
   "note": "Every RFC 4291 text is accepted with the right value; accepted texts are characterised; stray colons (leading, trailing, after ::) are accepted, which refutes strictness. v6_parse_exact is an iff on every byte string."
  },
  {
   "property": "C60",
   "status": "partial",
   "theorems": [
    "Verif.Net.endpoint4_round_trip",
    "Verif.Net.endpoint6_round_trip",
    "Verif.Net.endpoint4_iff",
    "Verif.Net.endpoint6_iff",
    "Verif.Net.endpoint_port_violated",
    "Verif.Net.endpoint4_exact",
    "Verif.Net.endpoint6_exact",
    "Verif.Net.endpoint6_read"
   ],
   "note": "Round trip for all endpoints; exact characterisation of the accepted texts; a port text of 2^64+1 wraps to 1 (refuted). The *_exact theorems are iffs on every byte string."
  },
  {
   "property": "C61",
   "status": "proved",
   "theorems": [
    "Verif.Numeric.endian_swap_bytes",
    "Verif.Numeric.endian_swap_involutive",
    "Verif.Numeric.endian_swap_if_non_native_memory"
   ],
   "note": "byte reversal for 1,2,4,8-byte integers"
  },
  {
   "property": "C62",
   "status": "partial",
   "theorems": [
    "Verif.Numeric.literal_denotes",
    "Verif.Numeric.literal_signed_exact",
    "Verif.Numeric.literal_unsigned_partial",
    "Verif.Numeric.literal_unsigned_violated"
   ],
   "note": "Unsigned literals of 2^64 and above wrap silently (refuted); exact below 2^64 and for signed targets."
  },
  {
   "property": "C63",
   "status": "partial",
   "theorems": [
    "Verif.Logger.get_correct",
    "Verif.Logger.name_kept",
    "Verif.Logger.names_partial",
    "Verif.Logger.create_free_name",
    "Verif.Logger.get_lost_violated",
    "Verif.Logger.unique_names_violated",
    "Verif.Logger.default_name_violated",
    "Verif.Logger.late_destructor_violated"
   ],
   "note": "Holds for executions that register a name only when no logger object of that name exists; refuted otherwise: a refused create unregisters the logger that owns the name, the reserved name is never freed, late destructors remove newer entries."
  },
  {
   "property": "C64",
   "status": "partial",
   "theorems": [
    "Verif.Logger.file_sink_partial",
    "Verif.Logger.file_sink_rotation_partial",
    "Verif.Logger.fill_meaning",
    "Verif.Logger.lost_record_violated",
    "Verif.Logger.compressed_log_lost_violated",
    "Verif.Logger.default_logger_rotation_violated"
   ],
   "note": "Holds when the OS writes completely what is handed to it and the sink is not that of the synchronous default logger; refuted for failed writes, failed writes of the encoder and the synchronous default logger."
  },
  {
   "property": "C65",
   "status": "proved",
   "theorems": [
    "Verif.Logger.logger_order",
    "Verif.Logger.logger_records",
    "Verif.Logger.logger_complete"
   ],
   "note": "Every history of synchronous and asynchronous loggers, every sink answer, changing configuration."
  },
  {
   "property": "C66",
   "status": "partial",
   "theorems": [
    "Verif.Logger.log_readback_partial",
    "Verif.Logger.fields_index",
    "Verif.Logger.trace_determined",
    "Verif.Logger.log_readback_violated"
   ],
   "note": "Messages containing 0x1e make files ambiguous (refuted)."
  },
  {
   "property": "C67",
   "status": "partial",
   "theorems": [
    "Verif.System.cpu_usage_percentage_partial",
    "Verif.System.cpu_usage_value_partial",
    "Verif.System.cpu_usage_percentage_violated",
    "Verif.System.cpu_usage_rounding_violated"
   ],
   "note": "Proved for every history in which the counters do not stand still (and grow by at most 2^46 per sample); refuted for two equal samples (0/0 is not a number).; for counters growing by 2^50 or more rounding can give more than 100 (refuted for every rounding to nearest)"
  },
  {
   "property": "C68",
   "status": "partial",
   "theorems": [
    "Verif.Socket.handles_closed_at_most_once",
    "Verif.Socket.close_closes_own",
    "Verif.Socket.handles_closed_exactly_once_partial",
    "Verif.Socket.handles_closed_exactly_once_violated",
    "Verif.Socket.self_move_leaks"
   ],
   "note": "No handle is closed twice or while another socket owns it, for every history. Exactly-once fails: move assignment over an open socket (or itself) leaks the handle it held; proved for histories without such assignments."
  },
  {
   "property": "C69",
   "status": "partial",
   "theorems": [
    "Verif.Socket.connected_is_open_partial",
    "Verif.Socket.connected_is_open_violated",
    "Verif.Socket.connected_was_connected"
   ],
   "note": "False in the code: close() and failing I/O leave the connected state; proved for histories of connect/finish/moves and I/O that does not close."
  },
  {
   "property": "C70",
   "status": "proved",
   "theorems": [
    "Verif.Socket.async_send_accounting",
    "Verif.Socket.async_send_no_error",
    "Verif.Socket.async_send_progress",
    "Verif.Socket.datagrams_fit",
    "Verif.Socket.sync_send_accounting"
   ],
   "note": "For every message and every sequence of OS answers."
  },
  {
   "property": "C71",
   "status": "proved",
   "theorems": [
    "Verif.Socket.requests_once_in_order",
    "Verif.Socket.requests_at_most_once",
    "Verif.Socket.requests_only_when_ready",
    "Verif.Socket.ready_requests_are_served",
    "Verif.Socket.removed_requests_never_invoked"
   ],
   "note": "For every execution of the service."
  },
  {
   "property": "C72",
   "status": "partial",
   "theorems": [
    "Verif.Socket.polling_armed",
    "Verif.Socket.polling_once_partial",
    "Verif.Socket.polling_once_violated"
   ],
   "note": "Armed: proved. At most one: false after remove_socket (unbounded number of polls); proved without remove_socket."
  },
  {
   "property": "C73",
   "status": "partial",
   "theorems": [
    "Verif.Socket.select_handles_partial",
    "Verif.Socket.select_handles_violated"
   ],
   "note": "False: an asynchronous operation on a closed socket passes -1 to select. Proved: only requested handles are passed."
  },
  {
   "property": "C74",
   "status": "partial",
   "theorems": [
    "Verif.Str.split_keeps_rest_violated",
    "Verif.Str.split_keeps_rest_partial"
   ],
   "note": "false as stated; holds when no two delimiters are adjacent"
  },
  {
   "property": "C75",
   "status": "partial",
   "theorems": [
    "Verif.Net.endpoint_order_default",
    "Verif.Net.endpoint_order_partial",
    "Verif.Net.endpoint_order_violated"
   ],
   "note": "Strict total order off macOS; the macOS operator< is not asymmetric (refuted)."
  },
  {
   "property": "C76",
   "status": "partial",
   "theorems": [
    "Verif.Json.json_parser_language",
    "Verif.Json.json_parser_comment_violated"
   ],
   "note": "Exact accepted language for all flags; a malformed comment after a comma is tolerated ([1,/x2])."
  },
  {
   "property": "C77",
   "status": "partial",
   "theorems": [
    "Verif.Format.format_float_partial",
    "Verif.Format.format_float_alt_partial",
    "Verif.Format.alt_general_digits",
    "Verif.Format.float_buffer_violated",
    "Verif.Format.float_alt_leading_zeros_violated",
    "Verif.Format.float_alt_infinity_violated"
   ],
   "note": "Proved for both forms when the digits fit the buffer; the alternate form keeps the point and pads to the precision for mantissas without leading zeros. Refuted: the 53-character buffer overflows and its previous content is printed; leading zeros are counted as significant digits; infinity is shown as inf.000."
  },
  {
   "property": "C78",
   "status": "partial",
   "theorems": [
    "Verif.Socket.stream_order_partial",
    "Verif.Socket.stream_order_violated"
   ],
   "note": "False: the remainder of a partially sent message is queued behind later messages."
  },
  {
   "property": "C79",
   "status": "proved",
   "theorems": [
    "Verif.Socket.async_receive_delivers"
   ],
   "note": "For every sequence of OS answers."
  },
  {
   "property": "C80",
   "status": "partial",
   "theorems": [
    "Verif.Socket.async_send_no_error",
    "Verif.Socket.sync_send_closes_healthy_socket_violated",
    "Verif.Socket.empty_datagram_closes_violated",
    "Verif.Socket.sync_receive_would_block_closes_violated",
    "Verif.Socket.sync_close_exact"
   ],
   "note": "False for synchronous calls and empty datagrams; proved for asynchronous sends. sync_close_exact says exactly when a synchronous call closes the socket."
  },
  {
   "property": "C81",
   "status": "partial",
   "theorems": [
    "Verif.Config.existing_file_not_read_violated",
    "Verif.Config.existing_file_seen_partial"
   ],
   "note": "The property is false of the code: the file is not read before its first change event. The proved theorem is the refutation. Proved: the file is seen from the first change event on."
  },
  {
   "property": "C82",
   "status": "proved",
   "theorems": [
    "Verif.System.process_usage_percentage",
    "Verif.System.cpu_count_positive",
    "Verif.System.process_usage_history",
    "Verif.System.process_usage_value"
   ],
   "note": "For any rounding that is monotone and exact on integers up to 2^53 (IEEE double in every mode)."
  },
  {
   "property": "C83",
   "status": "proved",
   "theorems": [
    "Verif.System.memory_usage_exact",
    "Verif.System.cpu_count_exact",
    "Verif.System.cpu_count_positive"
   ],
   "note": ""
  },
  {
   "property": "C84",
   "status": "proved",
   "theorems": [
    "Verif.Huffman.huffman_accepts_wellformed"
   ],
   "note": "Full inversion of the decoder; the code words of incomplete tables are only bounded in length (the decoder reuses stale table entries there)."
  },
  {
   "property": "C85",
   "status": "proved",
   "theorems": [
    "Verif.Huffman.huffman_optimal",
    "Verif.Huffman.huffman_optimal_small"
   ],
   "note": "For every tie-breaking of the queue and every rival prefix-free code; the hypothesis is that the tree is no deeper than the maximum code length."
  },
  {
   "property": "C86",
   "status": "proved",
   "theorems": [
    "Verif.Huffman.decode_no_fuel"
   ],
   "note": "The model's iteration budget, one round per input byte plus one, is never exhausted."
  },
  {
   "property": "C87",
   "status": "proved",
   "theorems": [
    "Verif.Unicode.unescape_codepoint_iff",
    "Verif.Unicode.unescape_all_iff",
    "Verif.Unicode.unescape_all_fails_iff"
   ],
   "note": "Exact characterisation (iff) of accepted escape sequences, of the result for whole strings and of the failures."
  },
  {
   "property": "C88",
   "status": "partial",
   "theorems": [
    "Verif.Str.lexer_cursor",
    "Verif.Str.lexer_past_end",
    "Verif.Str.lexer_history",
    "Verif.Str.lexer_calls_partial",
    "Verif.Str.lexer_peek_exact",
    "Verif.Str.lexer_calls_violated"
   ],
   "note": "Proved for every sequence of public calls (set_position past the end and peek with an offset included) on non-negative texts as long as positions and offsets stay below 2^63; refuted for offsets carrying past 2^64: the bounds check of peek adds without care, and peek(-1) shows the character before the cursor. What negative characters do to numbers is C23."
  },
  {
   "property": "C89",
   "status": "proved",
   "theorems": [
    "Verif.Conc.container_schedules_bounded",
    "Verif.Conc.container_no_deadlock",
    "Verif.Conc.container_completes"
   ],
   "note": "The mutex and condition variable are those of the model (mutual exclusion; notify_one wakes a waiter if there is one); fairness of the OS scheduler is what turns the bound into termination."
  },
  {
   "property": "C90",
   "status": "partial",
   "theorems": [
    "Verif.Task.workers_terminate",
    "Verif.Task.workers_done_all_executed_partial",
    "Verif.Task.accepted_tasks_get_executed_partial",
    "Verif.Task.no_workers_nothing_begun",
    "Verif.Task.accepted_tasks_get_executed_violated"
   ],
   "note": "Proved for managers with at least one worker. With thread_count 0 the manager is created and accepts tasks that nothing ever executes (proved as a refutation). User functions are one step: they are assumed to return. Restart after stop is excluded (a sequenced runner may stay blocked after a restart)."
  },
  {
   "property": "C91",
   "status": "proved",
   "theorems": [
    "Verif.Task.stop_bounded",
    "Verif.Task.stop_no_deadlock",
    "Verif.Task.stop_completes"
   ],
   "note": "User functions that are running are assumed to return (a task that itself calls stop waits for its own thread and does not: C141); a timed pop on an empty queue is assumed to time out."
  },
  {
   "property": "C92",
   "status": "partial",
   "theorems": [
    "Verif.Json.json_integer_exact",
    "Verif.Json.json_number_exact_partial",
    "Verif.Json.json_number_exact_violated",
    "Verif.Json.json_text_to_integer",
    "Verif.Json.json_integer_text_round_trip",
    "Verif.Json.json_to_bool",
    "Verif.Json.json_array_round_trip",
    "Verif.Json.json_to_sequence",
    "Verif.Json.json_to_wide",
    "Verif.Json.json_to_wide_violated",
    "Verif.Json.json_object_round_trip",
    "Verif.Json.json_sequence",
    "Verif.Json.json_set",
    "Verif.Json.json_multiset"
   ],
   "note": "The code violates the full statement: an integer outside the target type wraps silently, a float outside it is undefined behaviour, a string cut by resize is dereferenced from an empty optional (json_number_exact_violated, json_to_wide_violated). Proved: exactness for all representable values, iff for texts, element-wise containers. Sequence containers, sets and multisets each with their own append."
  },
  {
   "property": "C93",
   "status": "proved",
   "theorems": [
    "Verif.Json.json_built_wf",
    "Verif.Json.json_built_round_trip",
    "Verif.Json.json_parse_serialize_parse",
    "Verif.Json.json_built_cut_violated",
    "Verif.Json.json_made_wf",
    "Verif.Json.json_made_round_trip"
   ],
   "note": "For every value in the inductive set Built. json_built_cut_violated shows why shortening a string is excluded."
  },
  {
   "property": "C94",
   "status": "partial",
   "theorems": [
    "Verif.Logger.file_logger_partial",
    "Verif.Logger.lost_record_violated",
    "Verif.Logger.log_readback_violated"
   ],
   "note": "Composition of C64-C66 (Verif/Logger/EndToEnd.lean): the sink's answers are computed by the sink model. Partial only where C64/C66 are violated by the code: half-written records, a compressor that reports success after failing, messages containing 0x1e."
  },
  {
   "property": "C95",
   "status": "partial",
   "theorems": [
    "Verif.Socket.connections_once_in_order",
    "Verif.Socket.accept_callbacks_once",
    "Verif.Socket.accept_served",
    "Verif.Socket.accept_error_closes_violated",
    "Verif.Socket.accept_would_block_closes_violated"
   ],
   "note": "Order and at-most-once for every history, nothing lost while the socket is open. Refuted in full: any failing accept (ECONNABORTED, EMFILE) and accept() with no connection waiting close the listening socket, so waiting connections are lost and other callbacks never invoked."
  },
  {
   "property": "C96",
   "status": "partial",
   "theorems": [
    "Verif.Socket.listening_was_asked",
    "Verif.Socket.listening_is_open_partial",
    "Verif.Socket.moved_from_listener",
    "Verif.Socket.listening_after_close_violated"
   ],
   "note": "listen() did succeed, for every history; open while nothing closed the socket; a moved-from socket is neither. Refuted: is_listening() stays true after close() and after a failed accept."
  },
  {
   "property": "C97",
   "status": "partial",
   "theorems": [
    "Verif.Styler.styler_scope_partial",
    "Verif.Styler.styler_programs_partial",
    "Verif.Styler.styler_other_streams",
    "Verif.Styler.styler_nested_violated",
    "Verif.Styler.styler_restream_violated",
    "Verif.Styler.styler_hex_violated",
    "Verif.Styler.styler_programs_exact",
    "Verif.Styler.styler_padded",
    "Verif.Styler.styler_width_violated",
    "Verif.Styler.styler_left_violated"
   ],
   "note": "Holds for all programs that stream each styler at most once with at most one in force per standard stream, in the stream's decimal format. Refuted: an inner styler's end cancels the outer look; streaming a held styler again switches it off; stream flags such as std::hex corrupt colours. styler_programs_exact says what every program displays (texts without escape characters, streams in their usual format), also with nested and restreamed stylers; with at most one styler in force at a time, each streamed once, that is what the documentation promises (styler_programs_partial). Refuted: an inner styler's end cancels the outer look; streaming a held styler again switches it off; std::hex corrupts colours; a field width is spent on the styler, and with left adjustment the padding destroys the control sequence."
  },
  {
   "property": "C98",
   "status": "partial",
   "theorems": [
    "Verif.Styler.console_lines_partial",
    "Verif.Styler.console_injection_violated"
   ],
   "note": "All sequences of records without escape characters; refuted otherwise."
  },
  {
   "property": "C99",
   "status": "partial",
   "theorems": [
    "Verif.Str.join_texts_partial",
    "Verif.Str.split_join",
    "Verif.Str.join_negative_separator_violated"
   ],
   "note": "Proved for every separator that is not negative as its character type; refuted for separators >= 0x80 in char strings, which are left out."
  }
 ]
}