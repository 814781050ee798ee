# Axioms each manifest theorem depends on

Generated with `#print axioms` over every theorem named in MANIFEST.json.

* `propext, Classical.choice, Quot.sound`: 428 theorems
* `propext, Quot.sound`: 165 theorems
* `propext`: 68 theorems
* `none`: 11 theorems

| property | theorem | axioms |
|---|---|---|
| C01 | `Verif.BitStream.bitstream_roundtrip_partial` | propext, Classical.choice, Quot.sound |
| C01 | `Verif.BitStream.bitstream_roundtrip_violated` | propext |
| C01 | `Verif.BitStream.not_overshift_of_lt` | propext, Quot.sound |
| C02 | `Verif.BitStream.bitstream_layout_partial` | propext, Quot.sound |
| C02 | `Verif.BitStream.bitstream_write_ub_iff` | propext, Quot.sound |
| C02 | `Verif.BitStream.bitstream_roundtrip_violated` | propext |
| C03 | `Verif.BitStream.bitstream_reads_exact` | propext, Classical.choice, Quot.sound |
| C03 | `Verif.BitStream.bitstream_reads_bounded` | propext, Classical.choice, Quot.sound |
| C03 | `Verif.BitStream.bitstream_bad_header` | propext, Classical.choice, Quot.sound |
| C03 | `Verif.BitStream.bitstream_fully_consumed_iff` | propext, Classical.choice, Quot.sound |
| C04 | `Verif.Base64.base64_roundtrip_partial` | propext, Classical.choice, Quot.sound |
| C04 | `Verif.Base64.base64_roundtrip_violated` | propext, Classical.choice, Quot.sound |
| C04 | `Verif.Base64.base64_decode_boundary_violated` | propext, Classical.choice, Quot.sound |
| C05 | `Verif.Base64.base64_encode_rfc_partial` | propext, Classical.choice, Quot.sound |
| C05 | `Verif.Base64.base64_rfc_shape` | propext, Quot.sound |
| C05 | `Verif.Base64.base64_roundtrip_violated` | propext, Classical.choice, Quot.sound |
| C06 | `Verif.Base64.base64_decode_sound` | propext, Classical.choice, Quot.sound |
| C06 | `Verif.Base64.base64_decode_strict_partial` | propext, Classical.choice, Quot.sound |
| C06 | `Verif.Base64.base64_decode_boundary_violated` | propext, Classical.choice, Quot.sound |
| C07 | `Verif.Base64.base64_memory_safety_partial` | propext, Classical.choice, Quot.sound |
| C07 | `Verif.Base64.base64_encode_ub_iff` | propext, Classical.choice, Quot.sound |
| C07 | `Verif.Base64.base64_memory_safety_encode_violated` | propext, Classical.choice, Quot.sound |
| C07 | `Verif.Base64.base64_memory_safety_decode_violated` | propext, Quot.sound |
| C08 | `Verif.Huffman.huffman_roundtrip` | propext, Classical.choice, Quot.sound |
| C08 | `Verif.Huffman.valid_of_eight` | propext, Quot.sound |
| C09 | `Verif.Huffman.huffman_prefix_code` | propext, Classical.choice, Quot.sound |
| C09 | `Verif.Huffman.huffman_tree_exists` | propext, Quot.sound |
| C10 | `Verif.Huffman.huffman_decoder_safe_violated` | propext |
| C10 | `Verif.Huffman.huffman_decoder_safe_partial` | propext, Classical.choice, Quot.sound |
| C10 | `Verif.Huffman.decode_no_fuel` | propext, Classical.choice, Quot.sound |
| C10 | `Verif.Huffman.prefix_table_exact` | propext, Classical.choice, Quot.sound |
| C10 | `Verif.Huffman.Reference.decoder_is_reference` | propext, Classical.choice, Quot.sound |
| C100 | `Verif.Str.convert_integer` | propext, Classical.choice, Quot.sound |
| C100 | `Verif.Str.format_convert_roundtrip` | propext, Classical.choice, Quot.sound |
| C100 | `Verif.Json.parser_integers` | propext, Classical.choice, Quot.sound |
| C101 | `Verif.Str.random_string` | propext, Classical.choice, Quot.sound |
| C101 | `Verif.Str.random_string_onto` | propext, Classical.choice, Quot.sound |
| C102 | `Verif.Logger.crash_keeps_records` | propext, Classical.choice, Quot.sound |
| C102 | `Verif.Logger.stream_effects` | propext, Quot.sound |
| C103 | `Verif.Json.json_iterators_safe_partial` | propext, Classical.choice, Quot.sound |
| C103 | `Verif.Json.json_foreign_iterators_rejected` | propext, Classical.choice, Quot.sound |
| C103 | `Verif.Json.json_iterators_unchecked_violated` | propext, Classical.choice, Quot.sound |
| C104 | `Verif.Json.json_iterator_positions` | propext, Classical.choice, Quot.sound |
| C104 | `Verif.Json.json_object_iterator_positions` | propext, Classical.choice, Quot.sound |
| C104 | `Verif.Json.json_iterator_reads` | propext, Classical.choice, Quot.sound |
| C104 | `Verif.Json.json_traversal` | propext, Classical.choice, Quot.sound |
| C104 | `Verif.Json.json_assign_front_back` | propext, Classical.choice, Quot.sound |
| C105 | `Verif.Json.json_erase_range` | propext, Classical.choice, Quot.sound |
| C105 | `Verif.Json.json_erase_one` | propext, Classical.choice, Quot.sound |
| C105 | `Verif.Json.json_insert_values` | propext, Classical.choice, Quot.sound |
| C105 | `Verif.Json.json_insert_entries` | propext, Classical.choice, Quot.sound |
| C105 | `Verif.Json.json_find_insert` | propext, Classical.choice, Quot.sound |
| C105 | `Verif.Json.json_erase_loop` | propext, Classical.choice, Quot.sound |
| C106 | `Verif.System.system_monitor_alive` | propext, Classical.choice, Quot.sound |
| C106 | `Verif.System.system_monitor_reports` | propext, Classical.choice, Quot.sound |
| C106 | `Verif.System.system_monitor_failed_readings` | propext, Classical.choice, Quot.sound |
| C107 | `Verif.Socket.endpoint4_given_to_os` | propext, Classical.choice, Quot.sound |
| C107 | `Verif.Socket.endpoint6_given_to_os` | propext, Classical.choice, Quot.sound |
| C107 | `Verif.Socket.endpoint_round_trip_os` | propext, Classical.choice, Quot.sound |
| C107 | `Verif.Socket.endpoint_reply_partial` | propext, Classical.choice, Quot.sound |
| C107 | `Verif.Socket.endpoint_reply_violated` | none |
| C108 | `Verif.Socket.select_exact_partial` | propext, Quot.sound |
| C108 | `Verif.Socket.poll_serves_exactly_ready` | propext, Classical.choice, Quot.sound |
| C108 | `Verif.Socket.select_large_handle_violated` | propext, Quot.sound |
| C109 | `Verif.Socket.udp_delivery_partial` | propext, Quot.sound |
| C109 | `Verif.Socket.udp_message_whole` | propext, Quot.sound |
| C109 | `Verif.Socket.udp_delivery_violated` | propext |
| C11 | `Verif.Huffman.huffman_lossless_violated` | propext, Quot.sound |
| C11 | `Verif.Huffman.huffman_lossless_violated_room` | propext, Quot.sound |
| C11 | `Verif.Huffman.huffman_lossless_partial` | propext, Classical.choice, Quot.sound |
| C110 | `Verif.Socket.tcp_delivery` | propext, Quot.sound |
| C110 | `Verif.Socket.tcp_delivery_complete` | propext, Quot.sound |
| C110 | `Verif.Socket.tcp_zero_packet_violated` | propext |
| C111 | `Verif.Socket.async_send_view_partial` | propext, Quot.sound |
| C111 | `Verif.Socket.async_send_view_violated` | none |
| C111 | `Verif.Socket.async_send_view_dangles` | none |
| C112 | `Verif.Format.format_standard_types` | propext, Classical.choice, Quot.sound |
| C112 | `Verif.Format.format_user_never_ub` | propext, Classical.choice, Quot.sound |
| C112 | `Verif.Format.user_types_partial` | propext, Classical.choice, Quot.sound |
| C112 | `Verif.Format.own_parser` | propext, Classical.choice, Quot.sound |
| C112 | `Verif.Format.derived_options_violated` | propext, Classical.choice, Quot.sound |
| C112 | `Verif.Format.derived_lookahead_violated` | propext, Classical.choice, Quot.sound |
| C112 | `Verif.Format.derived_integer_violated` | propext, Classical.choice, Quot.sound |
| C113 | `Verif.Coder.other_files_untouched` | propext, Quot.sound |
| C113 | `Verif.Coder.success_means_coded` | propext, Quot.sound |
| C113 | `Verif.Coder.coded_if_possible` | propext, Classical.choice, Quot.sound |
| C113 | `Verif.Coder.base64_file_roundtrip_partial` | propext, Classical.choice, Quot.sound |
| C113 | `Verif.Coder.huffman_file_roundtrip_partial` | propext, Classical.choice, Quot.sound |
| C113 | `Verif.Coder.base64_decode_file_sound` | propext, Classical.choice, Quot.sound |
| C113 | `Verif.Coder.huffman_encode_file_refused` | propext, Quot.sound |
| C113 | `Verif.Coder.unopened_refused` | propext |
| C113 | `Verif.Coder.encode_in_place_violated` | propext, Classical.choice, Quot.sound |
| C113 | `Verif.Coder.failed_call_truncates_violated` | none |
| C113 | `Verif.Coder.full_device_success_violated` | propext, Classical.choice, Quot.sound |
| C113 | `Verif.Coder.late_write_violated` | propext, Classical.choice, Quot.sound |
| C114 | `Verif.Json.braced_list` | propext, Classical.choice, Quot.sound |
| C114 | `Verif.Json.braced_list_complete` | propext, Classical.choice, Quot.sound |
| C114 | `Verif.Json.braced_list_no_array_of_pairs` | propext |
| C115 | `Verif.Json.swap_exchanges` | propext |
| C115 | `Verif.Json.swap_array` | propext, Quot.sound |
| C115 | `Verif.Json.swap_string_plain` | propext, Classical.choice, Quot.sound |
| C115 | `Verif.Json.swap_loses_violated` | propext, Classical.choice, Quot.sound |
| C115 | `Verif.Json.swap_twice_violated` | propext, Classical.choice, Quot.sound |
| C115 | `Verif.Json.merge_moves` | propext, Classical.choice, Quot.sound |
| C115 | `Verif.Json.merge_keeps` | propext, Classical.choice, Quot.sound |
| C115 | `Verif.Json.merge_loses_violated` | propext, Classical.choice, Quot.sound |
| C115 | `Verif.Json.merge_given_away` | propext, Classical.choice, Quot.sound |
| C116 | `Verif.Json.exception_text` | propext, Classical.choice, Quot.sound |
| C116 | `Verif.Json.exception_plain` | propext, Classical.choice, Quot.sound |
| C116 | `Verif.Json.iterator_exception_text` | propext, Classical.choice, Quot.sound |
| C116 | `Verif.Json.exception_cut_violated` | propext, Classical.choice, Quot.sound |
| C116 | `Verif.Json.missing_key_text_partial` | propext, Classical.choice, Quot.sound |
| C116 | `Verif.Json.missing_key_text_violated` | propext, Classical.choice, Quot.sound |
| C116 | `Verif.Json.range_exception_text` | propext, Classical.choice, Quot.sound |
| C117 | `Verif.Socket.connect_callbacks` | propext, Quot.sound |
| C117 | `Verif.Socket.connect_callback_once` | propext, Quot.sound |
| C117 | `Verif.Socket.connect_callback_truth` | propext |
| C117 | `Verif.Socket.connect_completes_partial` | propext |
| C117 | `Verif.Socket.connect_served` | propext, Quot.sound |
| C117 | `Verif.Socket.connect_callback_dropped_violated` | none |
| C117 | `Verif.Socket.connect_closes_connected_violated` | none |
| C118 | `Verif.PathMonitor.Destroy.destroy_closes_own` | propext, Quot.sound |
| C118 | `Verif.PathMonitor.Destroy.destroy_silences_other_violated` | propext, Quot.sound |
| C118 | `Verif.PathMonitor.Destroy.destroy_spares_others_partial` | propext, Quot.sound |
| C119 | `Verif.Socket.Reuse.reuse_loses_nothing` | propext, Classical.choice, Quot.sound |
| C119 | `Verif.Socket.Reuse.reuse_callbacks_partial` | propext, Classical.choice, Quot.sound |
| C119 | `Verif.Socket.Reuse.reuse_callbacks_violated` | propext, Quot.sound |
| C12 | `Verif.Unicode.utf8_codepoint_roundtrip` | propext, Classical.choice, Quot.sound |
| C12 | `Verif.Unicode.encode_rejects_non_scalar` | propext, Classical.choice, Quot.sound |
| C120 | `Verif.Logger.Default.default_logger` | propext, Quot.sound |
| C120 | `Verif.Logger.Default.exit_exact` | propext, Classical.choice, Quot.sound |
| C120 | `Verif.Logger.Default.exit_safe_partial` | propext, Classical.choice, Quot.sound |
| C120 | `Verif.Logger.Default.exit_violated` | propext, Quot.sound |
| C121 | `Verif.Json.reverse_iterator_reads` | propext, Classical.choice, Quot.sound |
| C121 | `Verif.Json.reverse_iterator_steps` | propext, Classical.choice, Quot.sound |
| C121 | `Verif.Json.reverse_iterator_offsets_partial` | propext, Classical.choice, Quot.sound |
| C121 | `Verif.Json.reverse_iterator_order` | propext, Classical.choice, Quot.sound |
| C121 | `Verif.Json.reverse_object_iterators` | propext, Classical.choice, Quot.sound |
| C121 | `Verif.Json.reverse_iterator_ends` | propext |
| C121 | `Verif.Json.reverse_iterator_null` | propext, Quot.sound |
| C121 | `Verif.Json.reverse_iterator_offset_violated` | propext |
| C122 | `Verif.Ini.ini_warning_lines_partial` | propext, Classical.choice, Quot.sound |
| C122 | `Verif.Ini.ini_warning_lines_violated` | propext, Classical.choice, Quot.sound |
| C122 | `Verif.Ini.firstBad_unique` | propext, Classical.choice, Quot.sound |
| C122 | `Verif.Ini.parseLog_parse` | propext, Classical.choice, Quot.sound |
| C123 | `Verif.Json.json_parser_with_log` | propext, Classical.choice, Quot.sound |
| C123 | `Verif.Json.json_warnings_partial` | propext, Classical.choice, Quot.sound |
| C123 | `Verif.Json.json_warnings_violated` | propext, Classical.choice, Quot.sound |
| C124 | `Verif.PathMonitor.inotify_batches` | propext, Quot.sound |
| C124 | `Verif.PathMonitor.inotify_batches_dispatch` | propext, Quot.sound |
| C125 | `Verif.PathMonitor.win_polls_partial` | propext, Quot.sound |
| C125 | `Verif.PathMonitor.win_call` | propext, Quot.sound |
| C125 | `Verif.PathMonitor.win_poll_removed` | propext, Quot.sound |
| C125 | `Verif.PathMonitor.win_polls_violated` | propext, Quot.sound |
| C126 | `Verif.Styler.Win.win_styler_partial` | propext, Classical.choice, Quot.sound |
| C126 | `Verif.Styler.Win.win_look` | propext, Classical.choice, Quot.sound |
| C126 | `Verif.Styler.Win.win_cursor_partial` | propext, Classical.choice, Quot.sound |
| C126 | `Verif.Styler.Win.win_styler_violated` | propext |
| C127 | `Verif.Format.StreamFloat.stream_format_partial` | propext, Classical.choice, Quot.sound |
| C127 | `Verif.Format.StreamFloat.stream_state` | propext, Quot.sound |
| C127 | `Verif.Format.StreamFloat.stream_format_violated` | propext, Classical.choice, Quot.sound |
| C128 | `Verif.Assert.assert_holds` | propext, Classical.choice, Quot.sound |
| C128 | `Verif.Assert.assert_report_partial` | propext, Classical.choice, Quot.sound |
| C128 | `Verif.Assert.assert_message` | propext, Classical.choice, Quot.sound |
| C128 | `Verif.Assert.assert_message_violated` | propext, Classical.choice, Quot.sound |
| C129 | `Verif.System.Signals.signal_handler_partial` | propext, Quot.sound |
| C129 | `Verif.System.Signals.signal_install` | propext, Quot.sound |
| C129 | `Verif.System.Signals.signal_handler_violated` | propext, Quot.sound |
| C129 | `Verif.System.Signals.signal_reset` | propext, Quot.sound |
| C13 | `Verif.Unicode.utf8_validate_iff` | propext, Classical.choice, Quot.sound |
| C130 | `Verif.System.windows_usage_partial` | propext, Classical.choice, Quot.sound |
| C130 | `Verif.System.windows_usage_violated` | propext, Classical.choice, Quot.sound |
| C130 | `Verif.System.mac_usage_partial` | propext, Classical.choice, Quot.sound |
| C130 | `Verif.System.mac_usage_violated` | propext, Classical.choice, Quot.sound |
| C130 | `Verif.System.mac_system_usage_partial` | propext, Classical.choice, Quot.sound |
| C130 | `Verif.System.other_memory_exact` | propext, Quot.sound |
| C130 | `Verif.System.windows_no_processors_violated` | propext, Classical.choice, Quot.sound |
| C131 | `Verif.System.Text.local_time_text` | propext, Classical.choice, Quot.sound |
| C131 | `Verif.System.Text.local_time_injective` | propext, Classical.choice, Quot.sound |
| C131 | `Verif.System.Text.error_string_text` | propext, Classical.choice, Quot.sound |
| C132 | `Verif.Socket.Winsock.winsock_up_partial` | propext, Classical.choice, Quot.sound |
| C132 | `Verif.Socket.Winsock.winsock_down_only_while_starting` | propext, Classical.choice, Quot.sound |
| C132 | `Verif.Socket.Winsock.winsock_up_violated` | propext |
| C132 | `Verif.Socket.Winsock.winsock_accounting` | propext, Classical.choice, Quot.sound |
| C133 | `Verif.Socket.Mode.io_mode_truthful` | propext, Classical.choice, Quot.sound |
| C134 | `Verif.Socket.Mode.by_name_partial` | propext |
| C134 | `Verif.Socket.Mode.by_name_violated` | propext |
| C135 | `Verif.Socket.Win.win_send_all` | propext, Quot.sound |
| C135 | `Verif.Socket.Win.win_send_to_partial` | propext, Quot.sound |
| C135 | `Verif.Socket.Win.win_send_to_violated` | propext, Quot.sound |
| C135 | `Verif.Socket.Win.win_recv_partial` | propext, Quot.sound |
| C135 | `Verif.Socket.Win.win_recv_violated` | propext, Quot.sound |
| C136 | `Verif.Socket.Win.win_select_partial` | propext, Quot.sound |
| C136 | `Verif.Socket.Win.win_select_violated` | propext, Quot.sound |
| C136 | `Verif.Socket.Win.win_poll_starves_violated` | propext, Classical.choice, Quot.sound |
| C137 | `Verif.Config.ini_settings_partial` | propext, Classical.choice, Quot.sound |
| C137 | `Verif.Config.ini_boolean_violated` | propext, Classical.choice, Quot.sound |
| C137 | `Verif.Config.json_settings_partial` | propext, Classical.choice, Quot.sound |
| C137 | `Verif.Config.json_settings_violated` | propext, Classical.choice, Quot.sound |
| C137 | `Verif.Config.settings_default` | propext, Classical.choice, Quot.sound |
| C137 | `Verif.Config.ini_zero_chunk_size` | propext, Classical.choice, Quot.sound |
| C137 | `Verif.Config.ini_documented_settings` | propext, Classical.choice, Quot.sound |
| C138 | `Verif.Str.Floats.float_from_chars_exact` | propext, Classical.choice, Quot.sound |
| C138 | `Verif.Str.Floats.float_stof_exact` | propext, Classical.choice, Quot.sound |
| C138 | `Verif.Str.Floats.float_versions_agree_partial` | propext, Classical.choice, Quot.sound |
| C138 | `Verif.Str.Floats.float_versions_agree_violated` | none |
| C139 | `Verif.Json.OldFloats.json_stold_partial` | propext, Classical.choice, Quot.sound |
| C139 | `Verif.Json.OldFloats.json_stold_extra` | propext, Classical.choice, Quot.sound |
| C139 | `Verif.Json.OldFloats.json_stold_violated` | propext, Quot.sound |
| C14 | `Verif.Unicode.utf16_validate_iff` | propext, Classical.choice, Quot.sound |
| C14 | `Verif.Unicode.utf16_codepoint_roundtrip` | propext, Classical.choice, Quot.sound |
| C140 | `Verif.Format.Arguments.text_arguments_partial` | propext, Classical.choice, Quot.sound |
| C140 | `Verif.Format.Arguments.array_shown` | propext, Classical.choice, Quot.sound |
| C140 | `Verif.Format.Arguments.pointer_text` | propext, Quot.sound |
| C140 | `Verif.Format.Arguments.integer_arguments` | propext, Quot.sound |
| C140 | `Verif.Format.Arguments.buffer_shown_violated` | propext, Classical.choice, Quot.sound |
| C141 | `Verif.Task.Lifecycle.lifecycle_partial` | propext, Quot.sound |
| C141 | `Verif.Task.Lifecycle.stop_in_task_hangs` | propext, Classical.choice, Quot.sound |
| C141 | `Verif.Task.Lifecycle.start_during_stop_violated` | propext, Quot.sound |
| C142 | `Verif.Task.Locks.no_deadlock` | propext, Classical.choice, Quot.sound |
| C142 | `Verif.Task.Locks.captures_partial` | propext, Classical.choice, Quot.sound |
| C142 | `Verif.Task.Locks.captures_violated` | propext, Quot.sound |
| C142 | `Verif.Task.Locks.sequence_captures_violated` | propext, Quot.sound |
| C143 | `Verif.PathMonitor.Mac.mac_watched_partial` | propext, Classical.choice, Quot.sound |
| C143 | `Verif.PathMonitor.Mac.mac_dispatch_partial` | propext, Classical.choice, Quot.sound |
| C143 | `Verif.PathMonitor.Mac.mac_reported_partial` | propext, Classical.choice, Quot.sound |
| C143 | `Verif.PathMonitor.Mac.mac_poll_idle` | propext, Quot.sound |
| C143 | `Verif.PathMonitor.Mac.mac_refresh_violated` | propext |
| C143 | `Verif.PathMonitor.Mac.mac_unserved_violated` | propext, Quot.sound |
| C143 | `Verif.PathMonitor.Mac.mac_same_directory_violated` | propext |
| C143 | `Verif.PathMonitor.Mac.mac_rename_violated` | propext |
| C143 | `Verif.PathMonitor.Mac.mac_destroy_violated` | propext, Classical.choice, Quot.sound |
| C143 | `Verif.PathMonitor.Mac.mac_poll_violated` | propext, Quot.sound |
| C143 | `Verif.PathMonitor.Mac.mac_registrations` | propext, Classical.choice, Quot.sound |
| C144 | `Verif.PathMonitor.Win.handles_closed_once` | propext, Quot.sound |
| C144 | `Verif.PathMonitor.Win.registration_served_partial` | propext, Classical.choice, Quot.sound |
| C144 | `Verif.PathMonitor.Win.poll_removes_only_refused` | propext, Quot.sound |
| C144 | `Verif.PathMonitor.Win.failed_never_served` | propext, Classical.choice, Quot.sound |
| C144 | `Verif.PathMonitor.Win.registration_lost_violated` | propext |
| C144 | `Verif.PathMonitor.Win.registration_dead_violated` | propext, Classical.choice, Quot.sound |
| C144 | `Verif.PathMonitor.Win.win_returns` | propext, Quot.sound |
| C144 | `Verif.PathMonitor.Win.destroyed_silent` | propext |
| C145 | `Verif.Socket.WinConnect.win_connect_callbacks` | propext, Quot.sound |
| C145 | `Verif.Socket.WinConnect.win_connect_success_partial` | propext, Classical.choice, Quot.sound |
| C145 | `Verif.Socket.WinConnect.win_connect_failure_violated` | propext, Quot.sound |
| C145 | `Verif.Socket.WinConnect.win_connect_short_buffer_violated` | propext |
| C145 | `Verif.Socket.WinConnect.win_error_byte` | propext, Quot.sound |
| C146 | `Verif.Socket.Identity.socket_ids_unique` | propext, Quot.sound |
| C146 | `Verif.Socket.Identity.socket_id_follows` | propext, Quot.sound |
| C146 | `Verif.Socket.Identity.receive_defined_iff` | propext |
| C146 | `Verif.Socket.Identity.moved_from_receive_violated` | propext |
| C146 | `Verif.Socket.Identity.moved_async_violated` | propext |
| C146 | `Verif.Socket.Identity.calls_defined_partial` | propext |
| C146 | `Verif.Socket.Identity.socket_created` | propext, Quot.sound |
| C147 | `Verif.Json.Alias.assign_copy_exact` | propext, Classical.choice, Quot.sound |
| C147 | `Verif.Json.Alias.assign_move_partial` | propext, Classical.choice, Quot.sound |
| C147 | `Verif.Json.Alias.take_part` | propext, Quot.sound |
| C147 | `Verif.Json.Alias.assign_move_violated` | propext, Classical.choice, Quot.sound |
| C147 | `Verif.Json.Alias.push_copy_partial` | propext, Classical.choice, Quot.sound |
| C147 | `Verif.Json.Alias.push_copy_violated` | propext, Classical.choice, Quot.sound |
| C147 | `Verif.Json.Alias.push_move_partial` | propext, Classical.choice, Quot.sound |
| C147 | `Verif.Json.Alias.push_element_moved` | propext, Classical.choice, Quot.sound |
| C147 | `Verif.Json.Alias.push_move_violated` | propext, Classical.choice, Quot.sound |
| C147 | `Verif.Json.Alias.swap_partial` | propext, Classical.choice, Quot.sound |
| C147 | `Verif.Json.Alias.swap_violated` | propext, Classical.choice, Quot.sound |
| C147 | `Verif.Json.Alias.subscript_self` | propext, Classical.choice, Quot.sound |
| C147 | `Verif.Json.Alias.self_move_violated` | propext, Classical.choice, Quot.sound |
| C147 | `Verif.Json.Parts.merge_parts_partial` | propext, Classical.choice, Quot.sound |
| C147 | `Verif.Json.Parts.merge_parts_types` | propext, Classical.choice, Quot.sound |
| C147 | `Verif.Json.Parts.merge_parts_violated` | propext, Classical.choice, Quot.sound |
| C148 | `Verif.Huffman.Memory.encoder_memory` | propext, Classical.choice, Quot.sound |
| C149 | `Verif.Huffman.Reference.decoder_is_reference` | propext, Classical.choice, Quot.sound |
| C15 | `Verif.Unicode.convert_roundtrip` | propext, Classical.choice, Quot.sound |
| C150 | `Verif.Json.iterator_throws` | propext, Classical.choice, Quot.sound |
| C150 | `Verif.Json.reverse_iterator_throws` | propext, Classical.choice, Quot.sound |
| C150 | `Verif.Json.range_exception_text` | propext, Classical.choice, Quot.sound |
| C150 | `Verif.Json.iterator_throws_violated` | propext |
| C151 | `Verif.Json.Capacity.size_le_capacity` | propext, Classical.choice, Quot.sound |
| C151 | `Verif.Json.Capacity.capacity_unsized` | propext |
| C151 | `Verif.Json.Capacity.reserve_spec` | propext, Classical.choice, Quot.sound |
| C151 | `Verif.Json.Capacity.reserved_stays` | propext, Classical.choice, Quot.sound |
| C152 | `Verif.Json.Capacity.take_out` | propext |
| C152 | `Verif.Json.Capacity.move_is_copy_partial` | propext, Quot.sound |
| C152 | `Verif.Json.Capacity.move_is_copy_violated` | propext, Quot.sound |
| C153 | `Verif.Config.Lifetime.manager_lifetime` | propext, Classical.choice, Quot.sound |
| C153 | `Verif.Config.Lifetime.one_poll` | propext, Classical.choice, Quot.sound |
| C153 | `Verif.Config.Lifetime.changes_reread` | propext, Classical.choice, Quot.sound |
| C153 | `Verif.Config.Lifetime.release_completes_partial` | propext, Classical.choice, Quot.sound |
| C153 | `Verif.Config.Lifetime.release_in_callback_violated` | propext, Classical.choice, Quot.sound |
| C153 | `Verif.Config.Lifetime.release_hangs` | propext |
| C153 | `Verif.Config.Lifetime.hangs_only_in_callback` | propext, Classical.choice, Quot.sound |
| C153 | `Verif.Config.Lifetime.runner_gone` | propext, Quot.sound |
| C153 | `Verif.Config.Lifetime.destructor_waits_for_poll` | propext, Quot.sound |
| C154 | `Verif.Logger.Threads.async_logger` | propext, Quot.sound |
| C154 | `Verif.Logger.Threads.async_stops` | propext, Quot.sound |
| C154 | `Verif.Logger.Threads.sync_serial_partial` | propext, Quot.sound |
| C154 | `Verif.Logger.Threads.sync_violated` | propext, Quot.sound |
| C155 | `Verif.Json.json_accessors_partial` | propext, Classical.choice, Quot.sound |
| C155 | `Verif.Json.json_accessors_violated` | propext, Classical.choice, Quot.sound |
| C156 | `Verif.System.windows_monitor_reports` | propext, Classical.choice, Quot.sound |
| C156 | `Verif.System.mac_monitor_reports_partial` | propext, Classical.choice, Quot.sound |
| C156 | `Verif.System.mac_monitor_reports_violated` | propext, Classical.choice, Quot.sound |
| C157 | `Verif.Socket.Bind.bind_modes_partial` | propext, Classical.choice, Quot.sound |
| C157 | `Verif.Socket.Bind.bind_exclusive` | propext, Classical.choice, Quot.sound |
| C157 | `Verif.Socket.Bind.bind_modes_violated` | propext, Classical.choice, Quot.sound |
| C158 | `Verif.BitStream.bitstream_segments` | propext, Quot.sound |
| C158 | `Verif.BitStream.bitstream_unfinished` | propext, Quot.sound |
| C158 | `Verif.BitStream.bitstream_crash_prefix` | propext, Quot.sound |
| C158 | `Verif.BitStream.bitstream_last_segment` | propext, Quot.sound |
| C158 | `Verif.BitStream.bitstream_finish_twice` | propext |
| C158 | `Verif.BitStream.bitstream_append_violated` | propext |
| C158 | `Verif.BitStream.bitstream_stale_violated` | propext |
| C159 | `Verif.Huffman.huffman_decoder_history` | propext, Quot.sound |
| C159 | `Verif.Huffman.huffman_decoder_history_roundtrip` | propext, Classical.choice, Quot.sound |
| C159 | `Verif.Huffman.huffman_kraft_encoded` | propext, Classical.choice, Quot.sound |
| C159 | `Verif.Huffman.huffman_kraft_defined_partial` | propext, Quot.sound |
| C159 | `Verif.Huffman.huffman_kraft_violated` | propext, Quot.sound |
| C16 | `Verif.Unicode.escape_codepoint_roundtrip` | propext, Classical.choice, Quot.sound |
| C16 | `Verif.Unicode.escape_format` | propext, Classical.choice, Quot.sound |
| C160 | `Verif.Net.v4_octets` | propext, Classical.choice, Quot.sound |
| C160 | `Verif.Net.net_constants` | propext, Classical.choice, Quot.sound |
| C160 | `Verif.Net.v4_compare` | propext, Quot.sound |
| C160 | `Verif.Net.v6_compare` | propext, Classical.choice, Quot.sound |
| C160 | `Verif.Net.endpoint4_compare` | propext, Quot.sound |
| C160 | `Verif.Net.endpoint6_compare` | propext, Classical.choice, Quot.sound |
| C160 | `Verif.Net.endpoint_equal_iff_text` | propext, Classical.choice, Quot.sound |
| C160 | `Verif.Net.endpoint_mac_operators_partial` | propext, Classical.choice, Quot.sound |
| C160 | `Verif.Net.endpoint_mac_operators_violated` | none |
| C161 | `Verif.Unicode.Memory.codepoint_in_bounds` | propext, Classical.choice, Quot.sound |
| C161 | `Verif.Unicode.Memory.text_in_bounds` | propext, Classical.choice, Quot.sound |
| C162 | `Verif.Json.InPlace.json_string_in_place` | propext, Classical.choice, Quot.sound |
| C162 | `Verif.Json.InPlace.json_string_write_partial` | propext, Classical.choice, Quot.sound |
| C162 | `Verif.Json.InPlace.json_string_write_violated` | propext, Classical.choice, Quot.sound |
| C163 | `Verif.Net.Arrays.v4_arrays` | propext, Classical.choice, Quot.sound |
| C163 | `Verif.Net.Arrays.v6_arrays` | propext, Classical.choice, Quot.sound |
| C163 | `Verif.Net.Arrays.v6_format_arrays` | propext, Classical.choice, Quot.sound |
| C163 | `Verif.Net.Arrays.endpoint_arrays` | propext, Classical.choice, Quot.sound |
| C164 | `Verif.Str.Memory.split_memory` | propext, Classical.choice, Quot.sound |
| C164 | `Verif.Str.Memory.trim_memory` | propext, Classical.choice, Quot.sound |
| C164 | `Verif.Str.Memory.wildcard_memory` | propext, Classical.choice, Quot.sound |
| C164 | `Verif.Str.Memory.replace_memory` | propext, Quot.sound |
| C164 | `Verif.Str.Memory.replace_memory_ends` | propext, Quot.sound |
| C164 | `Verif.Str.Memory.replace_self_violated` | propext, Quot.sound |
| C165 | `Verif.Json.Depth.json_depth_partial` | propext, Classical.choice, Quot.sound |
| C165 | `Verif.Json.Depth.json_depth_violated` | propext, Classical.choice, Quot.sound |
| C165 | `Verif.Json.Depth.json_open_violated` | propext, Classical.choice, Quot.sound |
| C165 | `Verif.Json.Depth.json_write_depth_partial` | propext, Classical.choice, Quot.sound |
| C165 | `Verif.Json.Depth.json_read_then_written` | propext, Classical.choice, Quot.sound |
| C165 | `Verif.Json.Depth.json_write_depth_violated` | propext, Classical.choice, Quot.sound |
| C165 | `Verif.Json.Depth.json_use_depth_partial` | propext, Classical.choice, Quot.sound |
| C165 | `Verif.Json.Depth.json_read_then_destroyed` | propext, Classical.choice, Quot.sound |
| C165 | `Verif.Json.Depth.json_use_depth_violated` | propext, Classical.choice, Quot.sound |
| C166 | `Verif.Json.Cost.json_equal_cost` | propext, Classical.choice, Quot.sound |
| C166 | `Verif.Json.Cost.json_less_cost_partial` | propext, Quot.sound |
| C166 | `Verif.Json.Cost.json_less_cost_violated` | propext, Quot.sound |
| C167 | `Verif.Task.Release.destroyed_only_unused` | propext, Classical.choice, Quot.sound |
| C167 | `Verif.Task.Release.release_after_stop_partial` | propext, Classical.choice, Quot.sound |
| C167 | `Verif.Task.Release.release_without_stop_violated` | propext, Classical.choice, Quot.sound |
| C168 | `Verif.Socket.Release.one_fate` | propext, Classical.choice, Quot.sound |
| C168 | `Verif.Socket.Release.released_socket_silent` | propext, Classical.choice, Quot.sound |
| C168 | `Verif.Socket.Release.released_service_silent` | propext, Classical.choice, Quot.sound |
| C168 | `Verif.Socket.Release.closed_socket_silent` | propext, Classical.choice, Quot.sound |
| C168 | `Verif.Socket.Release.program_references` | propext, Classical.choice, Quot.sound |
| C17 | `Verif.Unicode.escape_all_inverse_iff` | propext, Classical.choice, Quot.sound |
| C17 | `Verif.Unicode.escape_all_inverse_partial` | propext, Classical.choice, Quot.sound |
| C17 | `Verif.Unicode.escape_all_inverse_violated` | propext, Classical.choice, Quot.sound |
| C17 | `Verif.Unicode.escape_all_rejects` | propext, Classical.choice, Quot.sound |
| C18 | `Verif.Str.split_pieces` | propext, Classical.choice, Quot.sound |
| C18 | `Verif.Str.split_limited` | propext, Classical.choice, Quot.sound |
| C18 | `Verif.Str.split_at_most` | propext, Classical.choice, Quot.sound |
| C18 | `Verif.Str.pieces_unique` | propext |
| C19 | `Verif.Str.trim_decomposition` | propext, Classical.choice, Quot.sound |
| C19 | `Verif.Str.trim_unique` | propext, Classical.choice, Quot.sound |
| C20 | `Verif.Str.replace_all_none_left` | propext, Quot.sound |
| C20 | `Verif.Str.replace_all_empty_search` | propext |
| C20 | `Verif.Str.replace_all_diverges_violated` | propext, Quot.sound |
| C20 | `Verif.Str.replace_all_terminates_partial` | propext, Quot.sound |
| C20 | `Verif.Str.remove_all_terminates` | propext, Quot.sound |
| C20 | `Verif.Str.replace_all_char` | propext, Quot.sound |
| C20 | `Verif.Str.replace_all_clear_partial` | propext, Quot.sound |
| C20 | `Verif.Str.clear_of_disjoint` | propext, Quot.sound |
| C20 | `Verif.Str.replace_all_again_violated` | propext |
| C21 | `Verif.Str.wildcard_exact_violated` | propext, Classical.choice, Quot.sound |
| C21 | `Verif.Str.wildcard_complete_partial` | propext, Classical.choice, Quot.sound |
| C21 | `Verif.Str.wildcard_one_segment_partial` | propext, Classical.choice, Quot.sound |
| C21 | `Verif.Str.wildcard_two_segments_partial` | propext, Classical.choice, Quot.sound |
| C21 | `Verif.Str.wildcard_exact` | propext, Classical.choice, Quot.sound |
| C22 | `Verif.Str.classify_letters` | propext, Classical.choice, Quot.sound |
| C22 | `Verif.Str.classify_digits` | propext, Classical.choice, Quot.sound |
| C22 | `Verif.Str.classify_digits_partial` | propext, Classical.choice, Quot.sound |
| C22 | `Verif.Str.classify_digits_violated` | propext, Classical.choice, Quot.sound |
| C23 | `Verif.Str.consume_number_run` | propext, Classical.choice, Quot.sound |
| C23 | `Verif.Str.consume_hex_number_run` | propext, Classical.choice, Quot.sound |
| C23 | `Verif.Str.consume_number_exact_partial` | propext, Classical.choice, Quot.sound |
| C23 | `Verif.Str.consume_number_violated` | propext, Classical.choice, Quot.sound |
| C23 | `Verif.Str.lexer_bounds` | propext |
| C23 | `Verif.Str.consume_number_exact` | propext, Classical.choice, Quot.sound |
| C23 | `Verif.Str.consume_hex_number_exact` | propext, Classical.choice, Quot.sound |
| C24 | `Verif.Format.format_text_partial` | propext, Classical.choice, Quot.sound |
| C24 | `Verif.Format.format_accepts_partial` | propext, Classical.choice, Quot.sound |
| C24 | `Verif.Format.format_never_ub` | propext, Classical.choice, Quot.sound |
| C24 | `Verif.Format.format_escaped` | propext, Classical.choice, Quot.sound |
| C24 | `Verif.Format.parseFormat_iff` | propext, Classical.choice, Quot.sound |
| C24 | `Verif.Format.confused_field_violated` | propext, Classical.choice, Quot.sound |
| C25 | `Verif.Format.format_positions_partial` | propext, Classical.choice, Quot.sound |
| C25 | `Verif.Format.position_overflow_violated` | propext, Classical.choice, Quot.sound |
| C26 | `Verif.Format.format_integer` | propext, Classical.choice, Quot.sound |
| C26 | `Verif.Format.width_is` | propext, Quot.sound |
| C26 | `Verif.Format.format_text_partial` | propext, Classical.choice, Quot.sound |
| C27 | `Verif.Format.format_string_partial` | propext, Classical.choice, Quot.sound |
| C27 | `Verif.Format.precision_is` | propext, Quot.sound |
| C27 | `Verif.Format.foreign_width_violated` | propext, Classical.choice, Quot.sound |
| C28 | `Verif.Json.json_roundtrip` | propext, Classical.choice, Quot.sound |
| C28 | `Verif.Json.json_roundtrip_floats` | propext, Classical.choice, Quot.sound |
| C29 | `Verif.Json.serialize_rfc_partial` | propext, Classical.choice, Quot.sound |
| C29 | `Verif.Json.serialize_resize_violated` | propext, Classical.choice, Quot.sound |
| C29 | `Verif.Json.serialize_inf_violated` | propext, Classical.choice, Quot.sound |
| C29 | `Verif.Json.serialize_text` | propext, Classical.choice, Quot.sound |
| C30 | `Verif.Json.json_string_iff` | propext, Classical.choice, Quot.sound |
| C31 | `Verif.Json.json_string_restore_iff` | propext, Classical.choice, Quot.sound |
| C31 | `Verif.Json.json_string_restore_shorter` | propext, Classical.choice, Quot.sound |
| C31 | `Verif.Json.json_string_restore_partial` | propext, Classical.choice, Quot.sound |
| C31 | `Verif.Json.json_string_restore_violated` | propext, Classical.choice, Quot.sound |
| C32 | `Verif.Json.json_eq_equivalence_partial` | propext, Classical.choice, Quot.sound |
| C32 | `Verif.Json.json_eq_trans_violated` | propext |
| C32 | `Verif.Json.json_eq_trans_floats_violated` | propext |
| C32 | `Verif.Json.json_eq_refl_violated` | propext |
| C33 | `Verif.Json.json_order_partial` | propext, Classical.choice, Quot.sound |
| C33 | `Verif.Json.json_order_operators` | propext, Quot.sound |
| C33 | `Verif.Json.json_order_violated` | propext, Quot.sound |
| C33 | `Verif.Json.json_order_meaning` | propext, Classical.choice, Quot.sound |
| C34 | `Verif.Json.json_hash_partial` | propext, Quot.sound |
| C34 | `Verif.Json.json_hash_violated` | propext |
| C35 | `Verif.Json.json_containers_partial` | propext, Classical.choice, Quot.sound |
| C35 | `Verif.Json.json_containers_violated` | propext, Classical.choice, Quot.sound |
| C36 | `Verif.Json.json_iterators_partial` | propext, Quot.sound |
| C36 | `Verif.Json.json_iterators_violated` | propext |
| C37 | `Verif.Json.json_parser_strict_partial` | propext, Classical.choice, Quot.sound |
| C37 | `Verif.Json.json_parser_flags` | propext, Classical.choice, Quot.sound |
| C37 | `Verif.Json.json_parser_strict_violated` | propext, Classical.choice, Quot.sound |
| C38 | `Verif.Json.json_parser_all_input` | propext, Classical.choice, Quot.sound |
| C38 | `Verif.Json.json_parser_duplicate` | propext, Classical.choice, Quot.sound |
| C39 | `Verif.Ini.ini_render` | propext, Classical.choice, Quot.sound |
| C39 | `Verif.Ini.ini_roundtrip` | propext, Classical.choice, Quot.sound |
| C40 | `Verif.Ini.ini_language` | propext, Classical.choice, Quot.sound |
| C40 | `Verif.Ini.ini_rejects` | propext, Classical.choice, Quot.sound |
| C40 | `Verif.Ini.ini_keeps_settings_partial` | propext, Classical.choice, Quot.sound |
| C40 | `Verif.Ini.ini_lost_setting_violated` | propext, Classical.choice, Quot.sound |
| C40 | `Verif.Ini.ini_missing_name_violated` | propext, Classical.choice, Quot.sound |
| C40 | `Verif.Ini.ini_lone_quote_violated` | propext, Classical.choice, Quot.sound |
| C41 | `Verif.Parser.bom_transcoding_partial` | propext, Classical.choice, Quot.sound |
| C41 | `Verif.Parser.no_bom_is_utf8` | propext, Classical.choice, Quot.sound |
| C41 | `Verif.Parser.bom_ill_formed` | propext, Classical.choice, Quot.sound |
| C41 | `Verif.Parser.bom_utf16le_nul_violated` | propext, Classical.choice, Quot.sound |
| C41 | `Verif.Parser.bom_truncated_unit_violated` | propext, Classical.choice, Quot.sound |
| C42 | `Verif.Conc.queue_linearizable` | propext, Classical.choice, Quot.sound |
| C42 | `Verif.Conc.queue_fifo` | propext |
| C42 | `Verif.Conc.container_mutual_exclusion` | propext |
| C43 | `Verif.Conc.stack_linearizable` | propext, Classical.choice, Quot.sound |
| C43 | `Verif.Conc.stack_conserves` | propext |
| C43 | `Verif.Conc.container_mutual_exclusion` | propext |
| C44 | `Verif.Conc.timed_pop_fails_only_on_empty` | propext |
| C44 | `Verif.Conc.no_lost_wakeup` | propext, Classical.choice, Quot.sound |
| C44 | `Verif.Conc.no_stuck_waiter` | propext, Classical.choice, Quot.sound |
| C45 | `Verif.Task.sequenced_no_overlap` | propext, Classical.choice, Quot.sound |
| C45 | `Verif.Task.sequenced_in_order` | propext, Classical.choice, Quot.sound |
| C45 | `Verif.Task.sequenced_executes_prefix` | propext, Classical.choice, Quot.sound |
| C46 | `Verif.Task.accepted_held_once` | propext, Classical.choice, Quot.sound |
| C46 | `Verif.Task.executed_at_most_once` | propext, Classical.choice, Quot.sound |
| C46 | `Verif.Task.sequenced_progress_partial` | propext, Classical.choice, Quot.sound |
| C46 | `Verif.Task.dropped_only_without_owner_partial` | propext, Quot.sound |
| C46 | `Verif.Task.restart_wedges_runner_violated` | propext, Classical.choice, Quot.sound |
| C46 | `Verif.Task.rejected_only_without_manager` | propext, Quot.sound |
| C47 | `Verif.Task.delayed_never_early` | propext, Classical.choice, Quot.sound |
| C47 | `Verif.Task.delayed_handed_once` | propext, Classical.choice, Quot.sound |
| C47 | `Verif.Task.timer_pass_complete` | propext, Classical.choice, Quot.sound |
| C47 | `Verif.Task.delayed_discarded_only_released` | propext, Quot.sound |
| C47 | `Verif.Task.discarded_runner_is_gone` | propext, Classical.choice, Quot.sound |
| C48 | `Verif.Task.start_stop_alternate` | propext, Classical.choice, Quot.sound |
| C48 | `Verif.Task.stop_is_final` | propext, Classical.choice, Quot.sound |
| C48 | `Verif.Task.stop_waits` | propext, Classical.choice, Quot.sound |
| C48 | `Verif.Task.off_threads_gone` | propext, Quot.sound |
| C48 | `Verif.Task.stop_abandons_queue` | propext, Classical.choice, Quot.sound |
| C49 | `Verif.Task.reply_after_task` | propext, Classical.choice, Quot.sound |
| C49 | `Verif.Task.replied_at_most_once` | propext, Classical.choice, Quot.sound |
| C49 | `Verif.Task.never_without_owner` | propext, Classical.choice, Quot.sound |
| C49 | `Verif.Task.reply_posted` | propext, Quot.sound |
| C50 | `Verif.Config.config_reflects_file_partial` | propext, Classical.choice, Quot.sound |
| C50 | `Verif.Config.config_reflects_file_violated` | propext |
| C50 | `Verif.Config.unparsable_file_resets` | propext, Classical.choice, Quot.sound |
| C50 | `Verif.Config.ini_files_are_key_value` | propext, Classical.choice, Quot.sound |
| C50 | `Verif.Config.ini_config_end_to_end` | propext, Classical.choice, Quot.sound |
| C51 | `Verif.Config.create_returns_live` | propext, Classical.choice, Quot.sound |
| C51 | `Verif.Config.create_makes_new` | propext, Classical.choice, Quot.sound |
| C51 | `Verif.Config.prune_counts_live` | propext, Classical.choice, Quot.sound |
| C51 | `Verif.Config.json_files_are_well_formed` | propext, Classical.choice, Quot.sound |
| C52 | `Verif.PathMonitor.dispatch_partial` | propext, Classical.choice, Quot.sound |
| C52 | `Verif.PathMonitor.only_registered_called` | propext, Quot.sound |
| C52 | `Verif.PathMonitor.results_partial` | propext, Classical.choice, Quot.sound |
| C52 | `Verif.PathMonitor.convert_to_event_spec` | propext, Classical.choice, Quot.sound |
| C52 | `Verif.PathMonitor.registration_served_recreated_violated` | propext, Quot.sound |
| C52 | `Verif.PathMonitor.concurrent_registration_violated` | propext, Quot.sound |
| C53 | `Verif.PathMonitor.concurrent_registration_violated` | propext, Quot.sound |
| C53 | `Verif.PathMonitor.concurrent_registration_partial` | propext, Classical.choice, Quot.sound |
| C54 | `Verif.PathMonitor.registration_served_aliases_violated` | propext |
| C54 | `Verif.PathMonitor.registration_served_recreated_violated` | propext, Quot.sound |
| C54 | `Verif.PathMonitor.registration_served_partial` | propext, Classical.choice, Quot.sound |
| C55 | `Verif.PathMonitor.Lock.callback_uses_monitor_violated` | propext |
| C55 | `Verif.PathMonitor.Lock.config_manager_released_violated` | propext |
| C55 | `Verif.PathMonitor.Lock.dispatch_completes_partial` | propext, Classical.choice, Quot.sound |
| C56 | `Verif.Net.v4_round_trip` | propext, Classical.choice, Quot.sound |
| C56 | `Verif.Net.v4_format_octets` | propext, Classical.choice, Quot.sound |
| C56 | `Verif.Net.v4_from_dotted` | propext, Classical.choice, Quot.sound |
| C57 | `Verif.Net.v4_parse_exact_partial` | propext, Classical.choice, Quot.sound |
| C57 | `Verif.Net.v4_parse_violated` | propext, Quot.sound |
| C57 | `Verif.Net.v4_parse_exact` | propext, Classical.choice, Quot.sound |
| C58 | `Verif.Net.v6_round_trip` | propext, Classical.choice, Quot.sound |
| C58 | `Verif.Net.v6_format_text` | propext, Classical.choice, Quot.sound |
| C59 | `Verif.Net.v6_parse_complete` | propext, Classical.choice, Quot.sound |
| C59 | `Verif.Net.v6_parse_sound_partial` | propext, Classical.choice, Quot.sound |
| C59 | `Verif.Net.v6_parse_violated` | propext, Classical.choice, Quot.sound |
| C59 | `Verif.Net.v6_parse_exact` | propext, Classical.choice, Quot.sound |
| C60 | `Verif.Net.endpoint4_round_trip` | propext, Classical.choice, Quot.sound |
| C60 | `Verif.Net.endpoint6_round_trip` | propext, Classical.choice, Quot.sound |
| C60 | `Verif.Net.endpoint4_iff` | propext, Classical.choice, Quot.sound |
| C60 | `Verif.Net.endpoint6_iff` | propext, Classical.choice, Quot.sound |
| C60 | `Verif.Net.endpoint_port_violated` | propext, Classical.choice, Quot.sound |
| C60 | `Verif.Net.endpoint4_exact` | propext, Classical.choice, Quot.sound |
| C60 | `Verif.Net.endpoint6_exact` | propext, Classical.choice, Quot.sound |
| C60 | `Verif.Net.endpoint6_read` | propext, Classical.choice, Quot.sound |
| C61 | `Verif.Numeric.endian_swap_bytes` | propext, Classical.choice, Quot.sound |
| C61 | `Verif.Numeric.endian_swap_involutive` | propext, Classical.choice, Quot.sound |
| C61 | `Verif.Numeric.endian_swap_if_non_native_memory` | propext, Classical.choice, Quot.sound |
| C62 | `Verif.Numeric.literal_denotes` | propext, Classical.choice, Quot.sound |
| C62 | `Verif.Numeric.literal_signed_exact` | propext, Classical.choice, Quot.sound |
| C62 | `Verif.Numeric.literal_unsigned_partial` | propext, Classical.choice, Quot.sound |
| C62 | `Verif.Numeric.literal_unsigned_violated` | propext, Classical.choice, Quot.sound |
| C63 | `Verif.Logger.get_correct` | propext, Quot.sound |
| C63 | `Verif.Logger.name_kept` | propext, Quot.sound |
| C63 | `Verif.Logger.names_partial` | propext, Quot.sound |
| C63 | `Verif.Logger.create_free_name` | propext, Quot.sound |
| C63 | `Verif.Logger.get_lost_violated` | propext |
| C63 | `Verif.Logger.unique_names_violated` | propext |
| C63 | `Verif.Logger.default_name_violated` | propext |
| C63 | `Verif.Logger.late_destructor_violated` | propext |
| C64 | `Verif.Logger.file_sink_partial` | propext, Classical.choice, Quot.sound |
| C64 | `Verif.Logger.file_sink_rotation_partial` | propext, Classical.choice, Quot.sound |
| C64 | `Verif.Logger.fill_meaning` | propext, Quot.sound |
| C64 | `Verif.Logger.lost_record_violated` | propext, Quot.sound |
| C64 | `Verif.Logger.compressed_log_lost_violated` | propext, Quot.sound |
| C64 | `Verif.Logger.default_logger_rotation_violated` | propext, Classical.choice, Quot.sound |
| C65 | `Verif.Logger.logger_order` | propext, Quot.sound |
| C65 | `Verif.Logger.logger_records` | propext, Classical.choice, Quot.sound |
| C65 | `Verif.Logger.logger_complete` | propext, Quot.sound |
| C66 | `Verif.Logger.log_readback_partial` | propext, Classical.choice, Quot.sound |
| C66 | `Verif.Logger.fields_index` | propext, Quot.sound |
| C66 | `Verif.Logger.trace_determined` | propext, Classical.choice, Quot.sound |
| C66 | `Verif.Logger.log_readback_violated` | propext, Quot.sound |
| C67 | `Verif.System.cpu_usage_percentage_partial` | propext, Classical.choice, Quot.sound |
| C67 | `Verif.System.cpu_usage_value_partial` | propext, Classical.choice, Quot.sound |
| C67 | `Verif.System.cpu_usage_percentage_violated` | propext, Classical.choice, Quot.sound |
| C67 | `Verif.System.cpu_usage_rounding_violated` | propext, Classical.choice, Quot.sound |
| C68 | `Verif.Socket.handles_closed_at_most_once` | propext, Classical.choice, Quot.sound |
| C68 | `Verif.Socket.close_closes_own` | propext, Classical.choice, Quot.sound |
| C68 | `Verif.Socket.handles_closed_exactly_once_partial` | propext, Classical.choice, Quot.sound |
| C68 | `Verif.Socket.handles_closed_exactly_once_violated` | propext, Quot.sound |
| C68 | `Verif.Socket.self_move_leaks` | propext, Quot.sound |
| C69 | `Verif.Socket.connected_is_open_partial` | propext |
| C69 | `Verif.Socket.connected_is_open_violated` | propext |
| C69 | `Verif.Socket.connected_was_connected` | propext |
| C70 | `Verif.Socket.async_send_accounting` | propext, Quot.sound |
| C70 | `Verif.Socket.async_send_no_error` | propext, Quot.sound |
| C70 | `Verif.Socket.async_send_progress` | propext, Quot.sound |
| C70 | `Verif.Socket.datagrams_fit` | propext, Quot.sound |
| C70 | `Verif.Socket.sync_send_accounting` | propext, Quot.sound |
| C71 | `Verif.Socket.requests_once_in_order` | propext, Classical.choice, Quot.sound |
| C71 | `Verif.Socket.requests_at_most_once` | propext, Classical.choice, Quot.sound |
| C71 | `Verif.Socket.requests_only_when_ready` | propext, Classical.choice, Quot.sound |
| C71 | `Verif.Socket.ready_requests_are_served` | propext, Classical.choice, Quot.sound |
| C71 | `Verif.Socket.removed_requests_never_invoked` | propext, Classical.choice, Quot.sound |
| C72 | `Verif.Socket.polling_armed` | propext, Quot.sound |
| C72 | `Verif.Socket.polling_once_partial` | propext, Quot.sound |
| C72 | `Verif.Socket.polling_once_violated` | propext, Classical.choice, Quot.sound |
| C73 | `Verif.Socket.select_handles_partial` | propext, Quot.sound |
| C73 | `Verif.Socket.select_handles_violated` | propext, Quot.sound |
| C74 | `Verif.Str.split_keeps_rest_violated` | propext, Classical.choice, Quot.sound |
| C74 | `Verif.Str.split_keeps_rest_partial` | propext, Classical.choice, Quot.sound |
| C75 | `Verif.Net.endpoint_order_default` | propext, Classical.choice, Quot.sound |
| C75 | `Verif.Net.endpoint_order_partial` | propext |
| C75 | `Verif.Net.endpoint_order_violated` | none |
| C76 | `Verif.Json.json_parser_language` | propext, Classical.choice, Quot.sound |
| C76 | `Verif.Json.json_parser_comment_violated` | propext, Classical.choice, Quot.sound |
| C77 | `Verif.Format.format_float_partial` | propext, Classical.choice, Quot.sound |
| C77 | `Verif.Format.format_float_alt_partial` | propext, Classical.choice, Quot.sound |
| C77 | `Verif.Format.alt_general_digits` | propext, Classical.choice, Quot.sound |
| C77 | `Verif.Format.float_buffer_violated` | propext, Quot.sound |
| C77 | `Verif.Format.float_alt_leading_zeros_violated` | propext, Quot.sound |
| C77 | `Verif.Format.float_alt_infinity_violated` | propext, Quot.sound |
| C78 | `Verif.Socket.stream_order_partial` | propext, Classical.choice, Quot.sound |
| C78 | `Verif.Socket.stream_order_violated` | propext |
| C79 | `Verif.Socket.async_receive_delivers` | propext, Quot.sound |
| C80 | `Verif.Socket.async_send_no_error` | propext, Quot.sound |
| C80 | `Verif.Socket.sync_send_closes_healthy_socket_violated` | propext |
| C80 | `Verif.Socket.empty_datagram_closes_violated` | none |
| C80 | `Verif.Socket.sync_receive_would_block_closes_violated` | none |
| C80 | `Verif.Socket.sync_close_exact` | propext, Classical.choice, Quot.sound |
| C81 | `Verif.Config.existing_file_not_read_violated` | propext, Classical.choice, Quot.sound |
| C81 | `Verif.Config.existing_file_seen_partial` | propext, Classical.choice, Quot.sound |
| C82 | `Verif.System.process_usage_percentage` | propext, Classical.choice, Quot.sound |
| C82 | `Verif.System.cpu_count_positive` | propext, Quot.sound |
| C82 | `Verif.System.process_usage_history` | propext, Classical.choice, Quot.sound |
| C82 | `Verif.System.process_usage_value` | propext, Classical.choice, Quot.sound |
| C83 | `Verif.System.memory_usage_exact` | propext, Quot.sound |
| C83 | `Verif.System.cpu_count_exact` | propext, Classical.choice, Quot.sound |
| C83 | `Verif.System.cpu_count_positive` | propext, Quot.sound |
| C84 | `Verif.Huffman.huffman_accepts_wellformed` | propext, Classical.choice, Quot.sound |
| C85 | `Verif.Huffman.huffman_optimal` | propext, Classical.choice, Quot.sound |
| C85 | `Verif.Huffman.huffman_optimal_small` | propext, Classical.choice, Quot.sound |
| C86 | `Verif.Huffman.decode_no_fuel` | propext, Classical.choice, Quot.sound |
| C87 | `Verif.Unicode.unescape_codepoint_iff` | propext, Classical.choice, Quot.sound |
| C87 | `Verif.Unicode.unescape_all_iff` | propext, Classical.choice, Quot.sound |
| C87 | `Verif.Unicode.unescape_all_fails_iff` | propext, Classical.choice, Quot.sound |
| C88 | `Verif.Str.lexer_cursor` | propext, Quot.sound |
| C88 | `Verif.Str.lexer_past_end` | propext |
| C88 | `Verif.Str.lexer_history` | propext, Quot.sound |
| C88 | `Verif.Str.lexer_calls_partial` | propext, Classical.choice, Quot.sound |
| C88 | `Verif.Str.lexer_peek_exact` | propext |
| C88 | `Verif.Str.lexer_calls_violated` | propext, Quot.sound |
| C89 | `Verif.Conc.container_schedules_bounded` | propext, Quot.sound |
| C89 | `Verif.Conc.container_no_deadlock` | propext, Classical.choice, Quot.sound |
| C89 | `Verif.Conc.container_completes` | propext, Classical.choice, Quot.sound |
| C90 | `Verif.Task.workers_terminate` | propext, Classical.choice, Quot.sound |
| C90 | `Verif.Task.workers_done_all_executed_partial` | propext, Classical.choice, Quot.sound |
| C90 | `Verif.Task.accepted_tasks_get_executed_partial` | propext, Classical.choice, Quot.sound |
| C90 | `Verif.Task.no_workers_nothing_begun` | propext, Quot.sound |
| C90 | `Verif.Task.accepted_tasks_get_executed_violated` | propext, Quot.sound |
| C91 | `Verif.Task.stop_bounded` | propext, Quot.sound |
| C91 | `Verif.Task.stop_no_deadlock` | propext, Classical.choice, Quot.sound |
| C91 | `Verif.Task.stop_completes` | propext, Classical.choice, Quot.sound |
| C92 | `Verif.Json.json_integer_exact` | propext, Quot.sound |
| C92 | `Verif.Json.json_number_exact_partial` | propext, Classical.choice, Quot.sound |
| C92 | `Verif.Json.json_number_exact_violated` | propext |
| C92 | `Verif.Json.json_text_to_integer` | propext, Classical.choice, Quot.sound |
| C92 | `Verif.Json.json_integer_text_round_trip` | propext, Classical.choice, Quot.sound |
| C92 | `Verif.Json.json_to_bool` | propext, Quot.sound |
| C92 | `Verif.Json.json_array_round_trip` | propext, Quot.sound |
| C92 | `Verif.Json.json_to_sequence` | propext |
| C92 | `Verif.Json.json_to_wide` | propext, Classical.choice, Quot.sound |
| C92 | `Verif.Json.json_to_wide_violated` | propext, Classical.choice, Quot.sound |
| C92 | `Verif.Json.json_object_round_trip` | propext, Classical.choice, Quot.sound |
| C92 | `Verif.Json.json_sequence` | propext, Quot.sound |
| C92 | `Verif.Json.json_set` | propext, Quot.sound |
| C92 | `Verif.Json.json_multiset` | propext, Quot.sound |
| C93 | `Verif.Json.json_built_wf` | propext, Classical.choice, Quot.sound |
| C93 | `Verif.Json.json_built_round_trip` | propext, Classical.choice, Quot.sound |
| C93 | `Verif.Json.json_parse_serialize_parse` | propext, Classical.choice, Quot.sound |
| C93 | `Verif.Json.json_built_cut_violated` | propext, Classical.choice, Quot.sound |
| C93 | `Verif.Json.json_made_wf` | propext, Classical.choice, Quot.sound |
| C93 | `Verif.Json.json_made_round_trip` | propext, Classical.choice, Quot.sound |
| C94 | `Verif.Logger.file_logger_partial` | propext, Classical.choice, Quot.sound |
| C94 | `Verif.Logger.lost_record_violated` | propext, Quot.sound |
| C94 | `Verif.Logger.log_readback_violated` | propext, Quot.sound |
| C95 | `Verif.Socket.connections_once_in_order` | propext |
| C95 | `Verif.Socket.accept_callbacks_once` | propext, Quot.sound |
| C95 | `Verif.Socket.accept_served` | propext |
| C95 | `Verif.Socket.accept_error_closes_violated` | propext, Quot.sound |
| C95 | `Verif.Socket.accept_would_block_closes_violated` | propext |
| C96 | `Verif.Socket.listening_was_asked` | propext, Classical.choice, Quot.sound |
| C96 | `Verif.Socket.listening_is_open_partial` | propext, Quot.sound |
| C96 | `Verif.Socket.moved_from_listener` | propext |
| C96 | `Verif.Socket.listening_after_close_violated` | propext |
| C97 | `Verif.Styler.styler_scope_partial` | propext, Classical.choice, Quot.sound |
| C97 | `Verif.Styler.styler_programs_partial` | propext, Classical.choice, Quot.sound |
| C97 | `Verif.Styler.styler_other_streams` | propext, Quot.sound |
| C97 | `Verif.Styler.styler_nested_violated` | propext, Quot.sound |
| C97 | `Verif.Styler.styler_restream_violated` | propext, Quot.sound |
| C97 | `Verif.Styler.styler_hex_violated` | propext, Quot.sound |
| C97 | `Verif.Styler.styler_programs_exact` | propext, Classical.choice, Quot.sound |
| C97 | `Verif.Styler.styler_padded` | propext, Classical.choice, Quot.sound |
| C97 | `Verif.Styler.styler_width_violated` | propext, Quot.sound |
| C97 | `Verif.Styler.styler_left_violated` | propext, Quot.sound |
| C98 | `Verif.Styler.console_lines_partial` | propext, Classical.choice, Quot.sound |
| C98 | `Verif.Styler.console_injection_violated` | propext, Quot.sound |
| C99 | `Verif.Str.join_texts_partial` | propext, Classical.choice, Quot.sound |
| C99 | `Verif.Str.split_join` | propext, Classical.choice, Quot.sound |
| C99 | `Verif.Str.join_negative_separator_violated` | propext, Classical.choice, Quot.sound |
