{
 "claims": [
  {
   "property": "C01",
   "status": "proved",
   "theorems": [
    "Verif.Wire.C01_encode_decode",
    "Verif.Wire.C01_encode_positional",
    "Verif.Wire.C01_all_kinds",
    "Verif.Wire.C01_mixed"
   ],
   "note": "All integer kinds and both byte orders; floats and booleans as IEEE bit patterns, not real arithmetic."
  },
  {
   "property": "C02",
   "status": "proved",
   "theorems": [
    "Verif.Wire.C02_decode_encode",
    "Verif.Wire.C02_orders",
    "Verif.Wire.C02_encode_injective",
    "Verif.Wire.C02_decode_hasKind"
   ],
   "note": ""
  },
  {
   "property": "C03",
   "status": "proved",
   "theorems": [
    "Verif.Prim.C03_value_in_range",
    "Verif.Prim.C03_sets_and_increments"
   ],
   "note": ""
  },
  {
   "property": "C04",
   "status": "proved",
   "theorems": [
    "Verif.Prim.C04_callbacks_exact",
    "Verif.Prim.C04_once_at_most_once",
    "Verif.Prim.C04_removed_never_runs",
    "Verif.Prim.C04_raising_callback",
    "Verif.Prim.C04_toggle"
   ],
   "note": ""
  },
  {
   "property": "C05",
   "status": "proved",
   "theorems": [
    "Verif.Prim.C05_fresh_identifiers",
    "Verif.Prim.C05_stale_remove"
   ],
   "note": ""
  },
  {
   "property": "C06",
   "status": "partial",
   "theorems": [
    "Verif.Prim.C06_reported_value_partial",
    "Verif.Prim.C06_reported_value_fails"
   ],
   "note": "Callbacks see the stored value whenever the assigned value is in range; C06_reported_value_fails shows the out-of-range case, where ctypes wraps but the callback gets the unwrapped value."
  },
  {
   "property": "C07",
   "status": "partial",
   "theorems": [
    "Verif.Scaling.C07_float_get_set",
    "Verif.Scaling.C07_float_single_fails",
    "Verif.Scaling.C07_float_narrow",
    "Verif.Scaling.C07_wide_fails",
    "Verif.Scaling.C07_offset_fails",
    "Verif.Scaling.C07_apply_polynomial",
    "Verif.Scaling.C07_invert_apply",
    "Verif.Scaling.C07_scaled_set_best",
    "Verif.Scaling.C07_scaled_get_set",
    "Verif.Scaling.C07_errors",
    "Verif.Scaling.C07_single_term_fails"
   ],
   "note": "Exact arithmetic, and doubles (unbounded exponent) for types up to 32 bits. C07_single_term_fails: a scaling with one coefficient is not inverted; C07_wide_fails, C07_offset_fails: 64-bit values and large offsets are lost to rounding."
  },
  {
   "property": "C08",
   "status": "proved",
   "theorems": [
    "Verif.Wire.C08_bounds",
    "Verif.Wire.C08_create",
    "Verif.Wire.C08_clamp_nearest"
   ],
   "note": ""
  },
  {
   "property": "C09",
   "status": "proved",
   "theorems": [
    "Verif.Eval.C09_evaluate",
    "Verif.Eval.C09_compare_success",
    "Verif.Eval.C09_operators",
    "Verif.Eval.C09_momentary_success_fails"
   ],
   "note": "C09_momentary_success_fails records that a success between polls is not reported."
  },
  {
   "property": "C10",
   "status": "proved",
   "theorems": [
    "Verif.Eval.C10_sample_for",
    "Verif.Eval.C10_prefix"
   ],
   "note": ""
  },
  {
   "property": "C11",
   "status": "proved",
   "theorems": [
    "Verif.Bits.C11_write_read",
    "Verif.Bits.C11_read_value",
    "Verif.Bits.C11_write_bits",
    "Verif.Bits.C11_overhanging_field_fails",
    "Verif.Bits.C11_where"
   ],
   "note": "For fields inside their primitive, which every group guarantees (C13); C11_overhanging_field_fails: a stand-alone field may stick out."
  },
  {
   "property": "C12",
   "status": "proved",
   "theorems": [
    "Verif.Bits.C12_invert",
    "Verif.Bits.C12_flag"
   ],
   "note": ""
  },
  {
   "property": "C13",
   "status": "proved",
   "theorems": [
    "Verif.Bits.C13_field_accepted",
    "Verif.Bits.C13_flag_accepted",
    "Verif.Bits.C13_pad_accepted",
    "Verif.Bits.C13_failed_call_leaks_fails",
    "Verif.Bits.C13_duplicate_flag_fails",
    "Verif.Bits.C13_default_position",
    "Verif.Bits.C13_default_is_next",
    "Verif.Bits.C13_finalized",
    "Verif.Bits.C13_no_overlap",
    "Verif.Bits.C13_position"
   ],
   "note": "No overlap holds for every history. The exact acceptance criterion holds for histories without failed calls; C13_failed_call_leaks_fails and C13_duplicate_flag_fails show the code's exceptions."
  },
  {
   "property": "C14",
   "status": "proved",
   "theorems": [
    "Verif.Bits.C14_independent",
    "Verif.Bits.C14_rest_zero"
   ],
   "note": ""
  },
  {
   "property": "C15",
   "status": "partial",
   "theorems": [
    "Verif.Bits.C15_export_import",
    "Verif.Bits.C15_reachable_partial",
    "Verif.Bits.C15_nonzero_padding_fails",
    "Verif.Bits.C15_zero_width_fails",
    "Verif.Bits.C15_empty_name",
    "Verif.Bits.C15_padding_refused",
    "Verif.Bits.C15_layout"
   ],
   "note": "Holds for all histories with positive widths and zero padding; C15_nonzero_padding_fails and C15_zero_width_fails show that the code loses the rest."
  },
  {
   "property": "C16",
   "status": "proved",
   "theorems": [
    "Verif.Registry.C16_pairing",
    "Verif.Registry.C16_load",
    "Verif.Registry.C16_construct",
    "Verif.Registry.C16_construct_accepts",
    "Verif.Registry.C16_refused_pairing_fails",
    "Verif.Registry.C16_boolean_register"
   ],
   "note": "Every mapping that was constructed or loaded without an exception; C16_refused_pairing_fails shows that a mapping kept in use after a refused load is no bijection."
  },
  {
   "property": "C17",
   "status": "proved",
   "theorems": [
    "Verif.Registry.C17_register",
    "Verif.Registry.C17_bindings",
    "Verif.Registry.C17_stable",
    "Verif.Registry.C17_auto_above",
    "Verif.Registry.C17_auto_increasing"
   ],
   "note": ""
  },
  {
   "property": "C18",
   "status": "proved",
   "theorems": [
    "Verif.Registry.C18_create",
    "Verif.Registry.C18_lookups_agree",
    "Verif.Registry.C18_items_stay",
    "Verif.Registry.C18_report",
    "Verif.Registry.C18_accepts",
    "Verif.Registry.C18_failed_creation_leaks_fails"
   ],
   "note": "C18_failed_creation_leaks_fails: a creation from data that raises leaves its name bound without an item."
  },
  {
   "property": "C19",
   "status": "partial",
   "theorems": [
    "Verif.Registry.C19_integer",
    "Verif.Registry.C19_boolean_partial",
    "Verif.Registry.C19_boolean_words_fails",
    "Verif.Registry.C19_members"
   ],
   "note": "Integer enumerations in full. Boolean ones except for the general boolean words, which are accepted although they are no members (C19_boolean_words_fails)."
  },
  {
   "property": "C20",
   "status": "proved",
   "theorems": [
    "Verif.Serial.C20_bytes",
    "Verif.Serial.C20_update_restores",
    "Verif.Serial.C20_update_length",
    "Verif.Serial.C20_native_fails",
    "Verif.Serial.C20_reachable"
   ],
   "note": "Proved for little, big and network order; native order adds alignment bytes, so the size differs: C20_native_fails."
  },
  {
   "property": "C21",
   "status": "proved",
   "theorems": [
    "Verif.Serial.C21_positions",
    "Verif.Serial.C21_fragment_bytes",
    "Verif.Serial.C21_fragment_update",
    "Verif.Serial.C21_fragment_created",
    "Verif.Serial.C21_open_end",
    "Verif.Serial.C21_all_positions",
    "Verif.Serial.C21_inside_repeated_fails"
   ],
   "note": "C21_inside_repeated_fails: positions inside a run added with array_length are not recorded, so looking up such a position or starting a fragment there raises KeyError."
  },
  {
   "property": "C22",
   "status": "proved",
   "theorems": [
    "Verif.Serial.C22_round_trip",
    "Verif.Serial.C22_into_copy"
   ],
   "note": "For chains whose arrays do not use native order and whose prefixed chunks have a matching prefix. A prefixed chunk's prefix primitive is private to it in the model."
  },
  {
   "property": "C23",
   "status": "proved",
   "theorems": [
    "Verif.Serial.C23_original_changes",
    "Verif.Serial.C23_copy_changes",
    "Verif.Serial.C23_append",
    "Verif.Serial.C23_append_array",
    "Verif.Serial.C23_copy"
   ],
   "note": "Copy, append, and independence of copy and original over arbitrary later operation histories."
  },
  {
   "property": "C24",
   "status": "proved",
   "theorems": [
    "Verif.Serial.C24_update",
    "Verif.Serial.C24_new",
    "Verif.Serial.C24_round_trip",
    "Verif.Serial.C24_truncated",
    "Verif.Serial.C24_refused_update_fails"
   ],
   "note": "C24_refused_update_fails: an update refused for length after the prefix changed leaves the chunk inconsistent."
  },
  {
   "property": "C25",
   "status": "partial",
   "theorems": [
    "Verif.Serial.C25_ascii_partial",
    "Verif.Serial.C25_assigned_partial",
    "Verif.Serial.C25_round_trip_iff",
    "Verif.Serial.C25_non_ascii_fails",
    "Verif.Serial.C25_too_long_fails"
   ],
   "note": "Holds for ASCII text that fits the length prefix; C25_round_trip_iff is the exact characterisation, C25_non_ascii_fails and C25_too_long_fails the code's exceptions (the prefix counts characters, not bytes)."
  },
  {
   "property": "C26",
   "status": "proved",
   "theorems": [
    "Verif.Serial.C26_frames",
    "Verif.Serial.C26_full",
    "Verif.Serial.C26_flush",
    "Verif.Serial.C26_chain_fails",
    "Verif.Serial.C26_set_mtu_drops_fails"
   ],
   "note": "For unchained instances. C26_chain_fails: a chained instance is framed with its head only. C26_set_mtu_drops_fails: changing the MTU discards pending samples."
  },
  {
   "property": "C27",
   "status": "proved",
   "theorems": [
    "Verif.Serial.C27_delivery",
    "Verif.Serial.C27_reject",
    "Verif.Serial.C27_accept",
    "Verif.Serial.C27_poll",
    "Verif.Serial.C27_sequence"
   ],
   "note": "Structs without native order; loss or reordering of datagrams by the network is outside the model."
  },
  {
   "property": "C28",
   "status": "proved",
   "theorems": [
    "Verif.Protocol.C28_groups_ok",
    "Verif.Protocol.C28_set_get_field",
    "Verif.Protocol.C28_set_get_bits",
    "Verif.Protocol.C28_set_get_chunk",
    "Verif.Protocol.C28_array_shows_field_fails",
    "Verif.Protocol.C28_round_trip",
    "Verif.Protocol.C28_set"
   ],
   "note": "Round trip between two instances built by any steps in any worlds, for every name; independence of set, and reading back, for fields, bit-fields and chunks. Names of arrays added as serializables show the fields added behind them (C28_array_shows_field_fails)."
  },
  {
   "property": "C29",
   "status": "partial",
   "theorems": [
    "Verif.Protocol.C29_second_copy_fails",
    "Verif.Protocol.C29_second_copy_size_fails",
    "Verif.Protocol.C29_repeated_serializable_fails",
    "Verif.Protocol.C29_array_doubled_fails",
    "Verif.Protocol.C29_array_length_fails",
    "Verif.Protocol.C29_copy_partial",
    "Verif.Protocol.C29_json_partial",
    "Verif.Protocol.C29_json_serializable_fails",
    "Verif.Protocol.C29_json_array_length_fails"
   ],
   "note": "C29_copy_partial and C29_json_partial hold for protocols built by any sequence of additions within stated conditions. The unrestricted statement is false of the code and refuted by the _fails theorems: the copy of a copy has no regular fields, a repeated serializable name cannot be copied, fields behind an array serializable are doubled, the array length of a serializable is dropped, and JSON refuses serializables and drops array lengths."
  },
  {
   "property": "C30",
   "status": "proved",
   "theorems": [
    "Verif.Message.C30_cut_independent",
    "Verif.Message.C30_received",
    "Verif.Message.C30_all_received",
    "Verif.Message.C30_overlong_fails"
   ],
   "note": "For every unsigned prefix kind, byte order, list of messages whose lengths the prefix can hold and chunking of a prefix of the stream (C30_received, C30_all_received); chunk independence for arbitrary bytes (C30_cut_independent). A message of 2^width bytes is announced as empty (C30_overlong_fails)."
  },
  {
   "property": "C31",
   "status": "partial",
   "theorems": [
    "Verif.Message.C31_abandoned_fails",
    "Verif.Message.C31_abandoned_witness_fails",
    "Verif.Message.C31_unstarted_fails",
    "Verif.Message.C31_exhausted_partial"
   ],
   "note": "False of the code: after a consumer stops right after a message, the next bytes are taken for a message of the same length (C31_abandoned_fails, for all messages), and an unstarted generator drops its data (C31_unstarted_fails). What holds: a consumer that lets the generator finish (C31_exhausted_partial)."
  },
  {
   "property": "C32",
   "status": "proved",
   "theorems": [
    "Verif.Event.C32_history",
    "Verif.Event.C32_every_change",
    "Verif.Event.C32_abort_fails",
    "Verif.Event.C32_parse"
   ],
   "note": "Refinement of the callback/byte model to an abstract record of changes for all histories of registrations, changes and periods (C32_history); every change is recorded without periods (C32_every_change); leaving by exception leaks (C32_abort_fails)."
  },
  {
   "property": "C33",
   "status": "partial",
   "theorems": [
    "Verif.Event.C33_cut_partial",
    "Verif.Event.C33_cut_in_value_fails",
    "Verif.Event.C33_abandoned_fails"
   ],
   "note": "Cut independence for all cuts outside (end of header, end of value) (C33_cut_partial); at the other cuts, and after an abandoned iteration, the parser is stuck for ever (C33_cut_in_value_fails, C33_abandoned_fails)."
  },
  {
   "property": "C34",
   "status": "proved",
   "theorems": [
    "Verif.Event.C34_rate",
    "Verif.Event.C34_first_fails"
   ],
   "note": "C34_rate, for all histories between registration and leaving; the first value is not recorded if the clock is below the period (C34_first_fails)."
  },
  {
   "property": "C35",
   "status": "proved",
   "theorems": [
    "Verif.Environment.C35_frame",
    "Verif.Environment.C35_name_or_id",
    "Verif.Environment.C35_unknown",
    "Verif.Environment.C35_field_int",
    "Verif.Environment.C35_field_float",
    "Verif.Environment.C35_field_enum",
    "Verif.Environment.C35_channel_int",
    "Verif.Environment.C35_channel_bool",
    "Verif.Environment.C35_channel_float",
    "Verif.Environment.C35_channel_scaled",
    "Verif.Environment.C35_channel_enum",
    "Verif.Environment.C35_channel_bool_enum",
    "Verif.Environment.C35_channel_text",
    "Verif.Environment.C35_shadowed_fails"
   ],
   "note": "Read-back for every kind (integers in range exactly, saturating through the scaled setter and wrapping through the raw one; truth values; floats up to storage rounding; linear scalings to the nearest representable value; enumerated names; fields modulo 2^width), by name or identifier, and a frame theorem for every key that shares no storage bit. Float arithmetic is exact rational arithmetic with an abstract storage rounding."
  },
  {
   "property": "C36",
   "status": "partial",
   "theorems": [
    "Verif.Environment.C36_restore_partial",
    "Verif.Environment.C36_stops",
    "Verif.Environment.C36_history_partial",
    "Verif.Environment.C36_nan_fails",
    "Verif.Environment.C36_constant_scaling_fails",
    "Verif.Environment.C36_polynomial_fails",
    "Verif.Environment.C36_bool_int_enum_fails"
   ],
   "note": "C36_restore_partial/C36_history_partial: after any history applying an export restores every key whose exported value was not NaN, for channels without scaling or with an invertible linear one, whatever primitives are shared. The unrestricted statement is false: NaN channels, constant scalings, polynomials of degree two and more, integer enumerations on boolean channels (the _fails theorems)."
  },
  {
   "property": "C37",
   "status": "partial",
   "theorems": [
    "Verif.Environment.C37_change_allowed",
    "Verif.Environment.C37_refused",
    "Verif.Environment.C37_failure",
    "Verif.Environment.C37_success",
    "Verif.Environment.C37_permitted",
    "Verif.Environment.C37_remote",
    "Verif.Environment.C37_get",
    "Verif.Environment.C37_toggle",
    "Verif.Environment.C37_line",
    "Verif.Environment.C37_only_target_partial",
    "Verif.Environment.C37_shadowed_fails"
   ],
   "note": "Proved for every environment, argument and hook list: refusal, failure, success, remote, get, toggle. C37_only_target_partial needs the name not to be both a channel and a field; when it is, the channel's flag is checked but the field is set (C37_shadowed_fails)."
  },
  {
   "property": "C38",
   "status": "proved",
   "theorems": [
    "Verif.Tftp.C38_chunks",
    "Verif.Tftp.C38_zero_fails"
   ],
   "note": "For every file and positive block size: blocks in order concatenate to the file, all full but the last, which is shorter; counts. Block size 0 never ends well (C38_zero_fails)."
  },
  {
   "property": "C39",
   "status": "proved",
   "theorems": [
    "Verif.Tftp.C39_read",
    "Verif.Tftp.C39_no_missing_block",
    "Verif.Tftp.C39_tidy",
    "Verif.Tftp.C39_leftover_fails",
    "Verif.Tftp.C39_large_fails",
    "Verif.Tftp.C39_server_once",
    "Verif.Tftp.C39_server_serves",
    "Verif.Tftp.C39_server_success_fails",
    "Verif.Tftp.C39_stale_fails",
    "Verif.Tftp.C39_completes"
   ],
   "note": "Arbitrary network (any sent datagram delivered any time, any number of times). Reader output always a prefix; success means the whole file; some schedule succeeds. Findings: server never reports success, >= 2^16 blocks never complete, a stale block of another transfer is accepted."
  },
  {
   "property": "C40",
   "status": "partial",
   "theorems": [
    "Verif.Tftp.C40_request",
    "Verif.Tftp.C40_data",
    "Verif.Tftp.C40_ack",
    "Verif.Tftp.C40_block_numbers",
    "Verif.Tftp.C40_error_partial",
    "Verif.Tftp.C40_error_fails",
    "Verif.Tftp.C40_nul_fails",
    "Verif.Tftp.C40_data_only",
    "Verif.Tftp.C40_short",
    "Verif.Tftp.C40_unterminated"
   ],
   "note": "Requests without NULs, data and acks round-trip for all inputs; error messages come back with the terminating NUL (C40_error_fails)."
  },
  {
   "property": "C41",
   "status": "partial",
   "theorems": [
    "Verif.Tftp.C41_inside_partial",
    "Verif.Tftp.C41_plain_partial",
    "Verif.Tftp.C41_absolute_fails",
    "Verif.Tftp.C41_parent_fails"
   ],
   "note": "False of the code: any place can be named by an absolute name or by parent components (C41_*_fails); relative names that never climb above their start stay inside."
  },
  {
   "property": "C42",
   "status": "proved",
   "theorems": [
    "Verif.Http.C42_bodiless",
    "Verif.Http.C42_bodiless_responses",
    "Verif.Http.C42_bad_request_fails",
    "Verif.Http.C42_cut_independent",
    "Verif.Http.C42_messages",
    "Verif.Http.C42_poisoned_fails",
    "Verif.Http.C42_length_fails",
    "Verif.Http.C42_stopped_fails"
   ],
   "note": "The received headers and bodies do not depend on how the stream is cut, for every byte stream and every header language; legal messages come back in order. Found: after a header that fails to parse, the collected lines stay and every later request is refused (C42_bad_request_fails), and a consumer that stops at a yield leaves the header in place (C42_stopped_fails)."
  },
  {
   "property": "C43",
   "status": "proved",
   "theorems": [
    "Verif.Http.C43_request_lines",
    "Verif.Http.C43_response_lines",
    "Verif.Http.C43_requests",
    "Verif.Http.C43_responses",
    "Verif.Http.C43_injection_fails",
    "Verif.Http.C43_non_ascii_fails"
   ],
   "note": "Requests and responses written by _send come back field for field with their bodies, for every method, accepted target, version, known status, legal reason and legal fields. Found: non-ASCII text cannot be read back (C43_non_ascii_fails) and line ends in a value are not refused (C43_injection_fails)."
  },
  {
   "property": "C44",
   "status": "partial",
   "theorems": [
    "Verif.Telnet.C44_items",
    "Verif.Telnet.C44_every_stream",
    "Verif.Telnet.C44_pieces_partial",
    "Verif.Telnet.C44_text",
    "Verif.Telnet.C44_reserved",
    "Verif.Telnet.C44_cut_fails",
    "Verif.Telnet.C44_escaped_fails"
   ],
   "note": "Every stream of elements is split as written and every byte stream is accounted for, within one call; pieces cut between elements add up. In full it is false: a command cut in two is lost (C44_cut_fails), and a restored 255 always raises (C44_escaped_fails)."
  },
  {
   "property": "C45",
   "status": "partial",
   "theorems": [
    "Verif.Json.C45_replies",
    "Verif.Json.C45_written",
    "Verif.Json.C45_leak_fails",
    "Verif.Json.C45_exchange",
    "Verif.Json.C45_collision_fails"
   ],
   "note": "For one end and any peer: a request is completed only by the first later message carrying its identifier, once, with its content, and never fails for want of bookkeeping; between a program and its peer process the content is what the other end's handlers returned for that very request. In full it is false: two network ends take each other's requests for replies (C45_collision_fails), and a time-out leaks its entry (C45_leak_fails)."
  },
  {
   "property": "C46",
   "status": "partial",
   "theorems": [
    "Verif.Json.C46_distinct",
    "Verif.Json.C46_subprocess",
    "Verif.Json.C46_network_fails"
   ],
   "note": "Distinctness for one interface and disjointness for subprocess peers; false for network connections (C46_network_fails)."
  },
  {
   "property": "C47",
   "status": "partial",
   "theorems": [
    "Verif.Json.C47_answered",
    "Verif.Json.C47_dies_out_partial",
    "Verif.Json.C47_bare_loopback_fails",
    "Verif.Json.C47_requests_finite",
    "Verif.Json.C47_stray_fails",
    "Verif.Json.C47_loopback_fails"
   ],
   "note": "Requests between subprocess peers cause at most two messages each, and messages without identifier die out unless they contain a loopback; a stray identifier or a bare loopback goes on for ever (C47_stray_fails, C47_loopback_fails, C47_bare_loopback_fails)."
  },
  {
   "property": "C48",
   "status": "partial",
   "theorems": [
    "Verif.Net.C48_consistent",
    "Verif.Net.C48_extras",
    "Verif.Net.C48_idempotent",
    "Verif.Net.C48_tasks_partial",
    "Verif.Net.C48_tasks_fails",
    "Verif.Net.C48_initialized_fails",
    "Verif.Net.C48_initialized",
    "Verif.Net.C48_own_tasks",
    "Verif.Net.C48_forced_fails"
   ],
   "note": "Agreement of flag and event, one run of the extra actions per enabled period, and idempotence, for every history. No task left running holds for orderly histories (no overlapping process calls): C48_tasks_fails. Further defects: initialised after a failed initialisation, and forced writes to the enabled channel break the agreement."
  },
  {
   "property": "C49",
   "status": "partial",
   "theorems": [
    "Verif.Net.C49_order",
    "Verif.Net.C49_exact",
    "Verif.Net.C49_progress",
    "Verif.Net.C49_interrupted_fails",
    "Verif.Net.C49_writer_dies_fails",
    "Verif.Net.C49_two_writers_fails"
   ],
   "note": "Order and at-most-once for every history with failed and interrupted sends; exactness and progress when no send is interrupted. False of the code otherwise: an interrupted send is lost, a raising send kills the writer, two overlapping process calls reorder (the _fails theorems)."
  },
  {
   "property": "C50",
   "status": "proved",
   "theorems": [
    "Verif.Net.C50_bounded",
    "Verif.Net.C50_counts",
    "Verif.Net.C50_exhausts",
    "Verif.Net.C50_published_fails",
    "Verif.Net.C50_restarts_enabled_fails"
   ],
   "note": "For every sequence of outcomes and stop times. Two defects are stated: the channel named restart_attempts publishes the number of restarts, and an attempt goes on when someone else has enabled the connection."
  },
  {
   "property": "C51",
   "status": "partial",
   "theorems": [
    "Verif.Net.C51_bounded",
    "Verif.Net.C51_growth_fails",
    "Verif.Net.C51_linear",
    "Verif.Net.C51_drops_fail"
   ],
   "note": "The bound for all parameters; growth is false of the code for every positive interval and maximum (C51_growth_fails, C51_drops_fail), and the growth there is is linear (C51_linear)."
  },
  {
   "property": "C52",
   "status": "partial",
   "theorems": [
    "Verif.Net.C52_dropped",
    "Verif.Net.C52_kept",
    "Verif.Net.C52_accepted",
    "Verif.Net.C52_started",
    "Verif.Net.C52_single_partial",
    "Verif.Net.C52_single_fails"
   ],
   "note": "Dropping, keeping, accepting and starting for every round and history. At most one task holds for calm histories (no round finds a managed auto-restart connection disabled while its task is alive) and is false otherwise (C52_single_fails)."
  },
  {
   "property": "C53",
   "status": "partial",
   "theorems": [
    "Verif.Task.C53_signal",
    "Verif.Task.C53_asleep",
    "Verif.Task.C53_raised",
    "Verif.Task.C53_false_partial",
    "Verif.Task.C53_paused",
    "Verif.Task.C53_false_fails",
    "Verif.Task.C53_disable_fails",
    "Verif.Task.C53_restart",
    "Verif.Task.C53_rerun_fails",
    "Verif.Task.C53_rerun_partial"
   ],
   "note": "Stop signal, stops during the sleep, raising dispatches and pauses for every sequence. A False result ends the task only when no stop signal was supplied, and a disable during a dispatch is overwritten (C53_false_fails, C53_disable_fails); after a raising dispatch the task cannot be started again (C53_rerun_fails)."
  },
  {
   "property": "C54",
   "status": "partial",
   "theorems": [
    "Verif.Task.C54_init",
    "Verif.Task.C54_limit_partial",
    "Verif.Task.C54_exact",
    "Verif.Task.C54_limit_fails",
    "Verif.Task.C54_disable_fails"
   ],
   "note": "At most, and exactly, the limit for limits up to 255; false above (C54_limit_fails)."
  },
  {
   "property": "C55",
   "status": "partial",
   "theorems": [
    "Verif.Arbiter.C55_order",
    "Verif.Arbiter.C55_recorded",
    "Verif.Arbiter.C55_results",
    "Verif.Arbiter.C55_summary",
    "Verif.Arbiter.C55_exit_partial",
    "Verif.Arbiter.C55_cancel_fails",
    "Verif.Arbiter.C55_blame_fails",
    "Verif.Arbiter.C55_check",
    "Verif.Arbiter.C55_main",
    "Verif.Arbiter.C55_unrecorded_fails"
   ],
   "note": "Order, stopping, recording and summary for every stage list and outcome. The exit code is right when no application returns a negative code, and false of the code when codes cancel (C55_cancel_fails). One raising application blames its whole stage; application stages go unrecorded when the initialisation fails."
  },
  {
   "property": "C56",
   "status": "proved",
   "theorems": [
    "Verif.CommandQueue.C56_order",
    "Verif.CommandQueue.C56_not_retried",
    "Verif.CommandQueue.C56_call",
    "Verif.CommandQueue.C56_calls",
    "Verif.CommandQueue.C56_drains",
    "Verif.CommandQueue.C56_raises",
    "Verif.CommandQueue.C56_join_fails"
   ],
   "note": "Order, each once and no retry, for every interleaving with any number of processors; what is behind a raising command is kept. A raising command leaves Queue.join waiting (C56_join_fails)."
  },
  {
   "property": "C57",
   "status": "proved",
   "theorems": [
    "Verif.Server.C57_present",
    "Verif.Server.C57_parts",
    "Verif.Server.C57_absent",
    "Verif.Server.C57_present_text"
   ],
   "note": "Path lookup decided exactly by the parts, for every path."
  },
  {
   "property": "C58",
   "status": "proved",
   "theorems": [
    "Verif.Server.C58_found",
    "Verif.Server.C58_missing",
    "Verif.Server.C58_total",
    "Verif.Server.C58_empty_key_fails",
    "Verif.Server.C58_ambiguous_fails",
    "Verif.Server.C58_request"
   ],
   "note": "Traversal finds exactly the value at a path, or names the first missing key, for every JSON document. Two code defects are stated: the empty key is unreachable and the error reply is ambiguous."
  },
  {
   "property": "C59",
   "status": "proved",
   "theorems": [
    "Verif.Metrics.C59_counters",
    "Verif.Metrics.C59_without_reset",
    "Verif.Metrics.C59_update",
    "Verif.Metrics.C59_reset_rate_fails",
    "Verif.Metrics.C59_poll_fails",
    "Verif.Metrics.C59_rates",
    "Verif.Metrics.C59_zero"
   ],
   "note": "Counters for every history of increments, polls and resets, and the copy by update. The message rate survives a reset and a poll publishes kbps without the factor eight (the _fails theorems)."
  },
  {
   "property": "C60",
   "status": "proved",
   "theorems": [
    "Verif.Finalize.C60_one_way",
    "Verif.Finalize.C60_bypass_ends",
    "Verif.Finalize.C60_bypass_hides",
    "Verif.Finalize.C60_no_nesting",
    "Verif.Finalize.C60_strict",
    "Verif.Finalize.C60_strict_fails",
    "Verif.Finalize.C60_exceptions",
    "Verif.Finalize.C60_finalises"
   ],
   "note": "For every program over the object, with nested contexts, failures and handlers. Inside a bypass a strict second finalisation succeeds (C60_strict_fails)."
  },
  {
   "property": "C61",
   "status": "partial",
   "theorems": [
    "Verif.Cursor.C61_inside_partial",
    "Verif.Cursor.C61_start",
    "Verif.Cursor.C61_move",
    "Verif.Cursor.C61_negative_fails",
    "Verif.Cursor.C61_shrink_fails",
    "Verif.Cursor.C61_stuck_fails",
    "Verif.Cursor.C61_reports"
   ],
   "note": "Inside for every history of fair operations (no negative targets, no window smaller than the position). False of the code otherwise (the _fails theorems)."
  },
  {
   "property": "C62",
   "status": "partial",
   "theorems": [
    "Verif.Http.C62_forms",
    "Verif.Http.C62_authority",
    "Verif.Http.C62_authority_refused",
    "Verif.Http.C62_origin",
    "Verif.Http.C62_path",
    "Verif.Http.C62_query_fails"
   ],
   "note": "Forms, authorities and origin forms with at most one question mark are recovered; the statement in full is false: a query is cut at a second question mark (C62_query_fails)."
  },
  {
   "property": "C63",
   "status": "proved",
   "theorems": [
    "Verif.Prim.C63_age"
   ],
   "note": ""
  },
  {
   "property": "C64",
   "status": "partial",
   "theorems": [
    "Verif.Tftp.Writes.C64_write_partial",
    "Verif.Tftp.Writes.C64_empty_fails",
    "Verif.Tftp.Writes.C64_duplicate_fails",
    "Verif.Tftp.Writes.C64_completes",
    "Verif.Tftp.Writes.C64_lost_fails"
   ],
   "note": "Proved for executions delivering the write request once; false in general (C64_lost_fails, C64_empty_fails)."
  },
  {
   "property": "C65",
   "status": "partial",
   "theorems": [
    "Verif.Np05b.C65_transcript",
    "Verif.Np05b.C65_latest",
    "Verif.Np05b.C65_agree",
    "Verif.Np05b.C65_too_many_fails",
    "Verif.Np05b.C65_prompt_fails",
    "Verif.Np05b.C65_cut_fails",
    "Verif.Np05b.C65_fresh_partial",
    "Verif.Np05b.C65_at_once_partial",
    "Verif.Np05b.C65_index_fails",
    "Verif.Np05b.C65_stale_fails",
    "Verif.Np05b.C65_noise_fails"
   ],
   "note": "Transcripts in every layout and cutting at line ends, and agreement of channels with known states for any text. False of the code: a prompt in front of an echo derails the pairing (C65_prompt_fails), a reply cut in two is taken for complete (C65_cut_fails), too many states raise and leave the query unsignalled (C65_too_many_fails), the index behind the last outlet raises (C65_index_fails), after a time-out the next command answers from stale states (C65_stale_fails), and after a marked line with an unknown code every later marked line raises (C65_noise_fails)."
  },
  {
   "property": "C66",
   "status": "partial",
   "theorems": [
    "Verif.Scpi.C66_conserved",
    "Verif.Scpi.C66_own_reply_partial",
    "Verif.Scpi.C66_late_fails",
    "Verif.Scpi.C66_unasked_fails",
    "Verif.Scpi.C66_items"
   ],
   "note": "Order and conservation for every history; the own reply for histories without time-outs whose device answers exactly what was asked. A late or unasked reply shifts all later ones (C66_late_fails, C66_unasked_fails)."
  },
  {
   "property": "C67",
   "status": "partial",
   "theorems": [
    "Verif.EnvArray.C67_when",
    "Verif.EnvArray.C67_refused",
    "Verif.EnvArray.C67_repeated_fails",
    "Verif.EnvArray.C67_once_partial"
   ],
   "note": "Acceptance is characterised exactly (C67_when) and every refusal is an assertion (C67_refused). That each bit-fields primitive occurs once is false of the code (C67_repeated_fails: k fields give k copies, since curr_fields is never assigned); it holds when no two names share a primitive (C67_once_partial)."
  },
  {
   "property": "C68",
   "status": "partial",
   "theorems": [
    "Verif.Environment.C68_round_trip_partial",
    "Verif.Environment.C68_grows_fails",
    "Verif.Environment.C68_no_scaling",
    "Verif.Environment.C68_scaling_fails",
    "Verif.Environment.C68_dangling_fails",
    "Verif.Environment.C68_overlap_fails",
    "Verif.Environment.C68_late_field_fails"
   ],
   "note": "Proved for histories of successful, apt calls and unscaled channels; scaled channels lose their scaling and their raw value (C68_scaling_fails, C68_no_scaling), NaN values are not exported, a channel whose enumeration is unknown stays after the exception and makes the export unloadable (C68_dangling_fails), add_field does not claim bits (C68_overlap_fails), a field added late is not found until export (C68_late_field_fails), and every export adds the waiting groups once more (C68_grows_fails)."
  },
  {
   "property": "C69",
   "status": "partial",
   "theorems": [
    "Verif.Tabs.C69_points_partial",
    "Verif.Tabs.C69_observers_partial",
    "Verif.Tabs.C69_current_partial",
    "Verif.Tabs.C69_stale_fails",
    "Verif.Tabs.C69_twice_fails",
    "Verif.Tabs.C69_enum_fails",
    "Verif.Tabs.C69_hidden_first_fails",
    "Verif.Tabs.C69_nan_fails"
   ],
   "note": "Delivery, observers and currency are proved for browsers that alternate between shown and hidden (currency also: fetch a frame before hiding) and for values that have a rendering and are not NaN. The five ways in which the code falls short are proved for every reachable state (C69_*_fails). Transport and the page's scripts are assumed to keep the last value received."
  },
  {
   "property": "C70",
   "status": "partial",
   "theorems": [
    "Verif.Server.Files.C70_inside_partial",
    "Verif.Server.Files.C70_serves_partial",
    "Verif.Server.Files.C70_absolute_fails",
    "Verif.Server.Files.C70_parent_fails",
    "Verif.Server.Files.C70_sibling_fails",
    "Verif.Server.Files.C70_shadow_fails",
    "Verif.Server.Files.C70_encoding_fails",
    "Verif.Server.Files.C70_favicon_fails",
    "Verif.Server.Files.C70_redirect_partial",
    "Verif.Server.Files.C70_fallback",
    "Verif.Server.Files.C70_other_forms",
    "Verif.Server.Files.C70_post_partial",
    "Verif.Server.Files.C70_post_dropped_fails",
    "Verif.Server.Files.C70_cases"
   ],
   "note": "Proved: requests without a second leading slash, with a name and with no '..' above their start depend only on files inside the search directories (two file systems agreeing there give the same answer); files inside are served with their contents; redirects, data, applications and the 404 redirect in order; POST commands. False in full, proved universally: a second leading slash serves any plain file on the machine, so do '..' components, '/' serves the markdown file beside the first search directory, name.md shadows every name.*, encoded files raise, no file under /favicon is reachable, empty and '.' components are dropped from POST commands."
  },
  {
   "property": "C71",
   "status": "partial",
   "theorems": [
    "Verif.Http.Client.C71_own_partial",
    "Verif.Http.Client.C71_order_partial",
    "Verif.Http.Client.C71_answered_partial",
    "Verif.Http.Client.C71_cancelled_fails",
    "Verif.Http.Client.C71_unexpected_fails",
    "Verif.Http.Client.C71_peer_fails",
    "Verif.Http.Client.C71_response_unparsed",
    "Verif.Http.Client.C71_request_unparsed",
    "Verif.Http.Client.C71_cases"
   ],
   "note": "Proved by induction over all event sequences in which the task awaiting a response is not cancelled and the peer sends no request meanwhile (cancelling tasks still waiting at the semaphore is allowed). False otherwise, proved from every reachable state: after cancelling an awaiting task every later request gets its predecessor's response for ever, or the unexpected response is parsed as a request and ends processing; a request of the peer arriving meanwhile ends processing. Every response is refused by the request parser and vice versa."
  },
  {
   "property": "C72",
   "status": "partial",
   "theorems": [
    "Verif.Net.Incoming.C72_order",
    "Verif.Net.Incoming.C72_exact_partial",
    "Verif.Net.Incoming.C72_progress_partial",
    "Verif.Net.Incoming.C72_raised_fails",
    "Verif.Net.Incoming.C72_disabled_fails",
    "Verif.Net.Incoming.C72_interrupted_fails",
    "Verif.Net.Incoming.C72_restart",
    "Verif.Net.Incoming.C72_refused",
    "Verif.Net.Incoming.C72_cases"
   ],
   "note": "Order and at-most-once hold over every history; exactly once and progress while handlers succeed and the connection is not disabled. In full false: a raising handler leaves an enabled connection nobody reads, and messages queued when the connection is disabled are never handled."
  },
  {
   "property": "C73",
   "status": "partial",
   "theorems": [
    "Verif.Codec.C73_add",
    "Verif.Codec.C73_sizes_partial",
    "Verif.Codec.C73_growth_fails",
    "Verif.Codec.C73_found_partial",
    "Verif.Codec.C73_unique_partial",
    "Verif.Codec.C73_primitive_name_fails",
    "Verif.Codec.C73_hidden_fails",
    "Verif.Codec.C73_refused_fails",
    "Verif.Codec.C73_byteOrder_fails",
    "Verif.Codec.C73_cases",
    "Verif.Codec.C73_cases_settled",
    "Verif.Codec.C73_resolve"
   ],
   "note": "C73_add over every history; sums with final sizes when types are complete before use (C73_sizes_partial); look-up and uniqueness for names proper that are no primitive's. In full false: a type used as a field and grown later, types named like a primitive below a root namespace (registered again and again, never found), global enumerations hiding namespaced types, refused enumerations keeping their name, a global type ByteOrder. Namespace.search of vcorelib is abstract (structure Search)."
  },
  {
   "property": "C74",
   "status": "partial",
   "theorems": [
    "Verif.Arbiter.Names.C74_registered",
    "Verif.Arbiter.Names.C74_start_partial",
    "Verif.Arbiter.Names.C74_clash_fails",
    "Verif.Arbiter.Names.C74_housekeeping_fails",
    "Verif.Arbiter.Names.C74_queued",
    "Verif.Arbiter.Names.C74_process",
    "Verif.Arbiter.Names.C74_cases"
   ],
   "note": "False as a whole: names are only checked within a kind, so start-up can raise after every registration was accepted (C74_clash_fails, C74_housekeeping_fails). C74_start_partial needs names unique across kinds; the characterisation is exact. Factories and the construction of the objects are not modelled."
  },
  {
   "property": "C75",
   "status": "partial",
   "theorems": [
    "Verif.Net.Pipes.C75_stdout",
    "Verif.Net.Pipes.C75_stderr_partial",
    "Verif.Net.Pipes.C75_servicing_partial",
    "Verif.Net.Pipes.C75_counted",
    "Verif.Net.Pipes.C75_cut_fails",
    "Verif.Net.Pipes.C75_stray_fails",
    "Verif.Net.Pipes.C75_early_fails",
    "Verif.Net.Pipes.C75_stderr_only_fails",
    "Verif.Net.Pipes.C75_dropped_fails",
    "Verif.Net.Pipes.C75_late_fails",
    "Verif.Net.Pipes.C75_stray_case",
    "Verif.Net.Pipes.C75_cases"
   ],
   "note": "C75_stdout and C75_counted hold outright. Events need chunks that do not end inside a value (C75_stderr_partial, C75_servicing_partial; C75_cut_fails shows what happens otherwise). False at the edges: C75_stray_fails, C75_early_fails, C75_dropped_fails, C75_late_fails, C75_stderr_only_fails."
  },
  {
   "property": "C76",
   "status": "partial",
   "theorems": [
    "Verif.LogCapture.C76_once",
    "Verif.LogCapture.C76_lines_partial",
    "Verif.LogCapture.C76_eventually",
    "Verif.LogCapture.C76_blank_fails",
    "Verif.LogCapture.C76_torn_fails",
    "Verif.LogCapture.C76_replaced_fails",
    "Verif.LogCapture.C76_cases"
   ],
   "note": "C76_once and C76_eventually hold outright for files that only grow. One line per dispatch holds only for whole non-blank lines (C76_lines_partial); C76_blank_fails, C76_torn_fails and C76_replaced_fails show the rest. Newline translation and decoding are not modelled."
  },
  {
   "property": "C77",
   "status": "partial",
   "theorems": [
    "Verif.Restart.C77_connected",
    "Verif.Restart.C77_elsewhere",
    "Verif.Restart.C77_remote",
    "Verif.Restart.C77_unconnected_partial",
    "Verif.Restart.C77_unconnected_fails",
    "Verif.Restart.C77_local",
    "Verif.Restart.C77_port_fails",
    "Verif.Restart.C77_order",
    "Verif.Restart.C77_left_fails",
    "Verif.Restart.C77_disabled",
    "Verif.Restart.C77_ends",
    "Verif.Restart.C77_tcp",
    "Verif.Restart.C77_late_fails",
    "Verif.Restart.C77_unclosed_fails",
    "Verif.Restart.C77_server_fails",
    "Verif.Restart.C77_cases"
   ],
   "note": "Connected sockets keep their peer through any history (C77_connected, C77_remote), a given local port stays (C77_local), messages are processed in order and once (C77_order) and C77_disabled lists every cause of a disable. False of the code: an unconnected UDP connection loses its remote address with its first restart and then counts what it does not send; a free port changes; waiting messages of a replaced transport are lost; the late end of a replaced TCP transport disables the restarted connection; a connection disabled before it is processed leaves its transport open; the server's side raises at every restart."
  },
  {
   "property": "C78",
   "status": "partial",
   "theorems": [
    "Verif.Stepper.C78_polls",
    "Verif.Stepper.C78_simulated",
    "Verif.Stepper.C78_source_partial",
    "Verif.Stepper.C78_refreshed",
    "Verif.Stepper.C78_source_fails",
    "Verif.Stepper.C78_time_fails",
    "Verif.Stepper.C78_nested_fails",
    "Verif.Stepper.C78_raise_fails",
    "Verif.Stepper.C78_cases"
   ],
   "note": "C78_polls and C78_simulated hold for any number of steppers whose structs neither raise nor are steppers; C78_source_partial holds with one stepper. False of the code: time_s is one step behind after a simulated iteration; two steppers lose the time source; a derived stepper polls itself without end; a raising struct cuts the iteration and the rest of the count. Assumed: vcorelib's SimulatedTime adds its step, set_simulated_source and restore_time_source replace one global source."
  },
  {
   "property": "C79",
   "status": "partial",
   "theorems": [
    "Verif.Datagram.C79_intact",
    "Verif.Datagram.C79_sent",
    "Verif.Datagram.C79_echo",
    "Verif.Datagram.C79_stream",
    "Verif.Datagram.C79_split_fails",
    "Verif.Datagram.C79_stray_fails",
    "Verif.Datagram.C79_refused",
    "Verif.Datagram.C79_raise_fails",
    "Verif.Datagram.C79_default_fails",
    "Verif.Datagram.C79_cases"
   ],
   "note": "For datagrams of whole messages and handlers that neither raise nor refuse the property holds (C79_intact, C79_sent, C79_echo); for arbitrary datagrams only the messages of the concatenated stream are right (C79_stream). The attribution fails for cut messages (C79_split_fails), a stray prefix silences all peers (C79_stray_fails), a raising handler ends the reader of an enabled connection (C79_raise_fails), and the default address is not the remote address (C79_default_fails)."
  },
  {
   "property": "C80",
   "status": "partial",
   "theorems": [
    "Verif.Telemetry.C80_lossy",
    "Verif.Telemetry.C80_sequence",
    "Verif.Telemetry.C80_length_fails",
    "Verif.Telemetry.C80_stray_fails",
    "Verif.Telemetry.C80_assign",
    "Verif.Telemetry.C80_connected",
    "Verif.Telemetry.C80_unconnected_fails",
    "Verif.Telemetry.C80_probe_fails",
    "Verif.Telemetry.C80_cases"
   ],
   "note": "Holds for whatever arrives of the sender's own datagrams (C80_lossy, C80_sequence, C80_connected, C80_assign). It does not for a datagram of another length (C80_length_fails), a stray one that fits (C80_stray_fails), a socket that is not connected (C80_unconnected_fails) and the MTU probe (C80_probe_fails)."
  },
  {
   "property": "C81",
   "status": "proved",
   "theorems": [
    "Verif.Arbiter.Config.C81_accepts",
    "Verif.Arbiter.Config.C81_makes",
    "Verif.Arbiter.Config.C81_twice",
    "Verif.Arbiter.Config.C81_undone_fails",
    "Verif.Arbiter.Config.C81_leak_fails",
    "Verif.Arbiter.Config.C81_clash_fails",
    "Verif.Arbiter.Config.C81_files",
    "Verif.Arbiter.Config.C81_front_fails",
    "Verif.Arbiter.Config.C81_param",
    "Verif.Arbiter.Config.C81_given_fails",
    "Verif.Arbiter.Config.C81_unloaded_fails",
    "Verif.Arbiter.Config.C81_reload_fails",
    "Verif.Arbiter.Config.C81_cases"
   ],
   "note": "Acceptance and contents for every configuration; importing, snake case and name joining are parameters; counterexamples for rollback, leaks, clashes, search order and constructor configuration."
  },
  {
   "property": "C82",
   "status": "partial",
   "theorems": [
    "Verif.Arbiter.Startup.C82_entered",
    "Verif.Arbiter.Startup.C82_refused",
    "Verif.Arbiter.Startup.C82_proceeds",
    "Verif.Arbiter.Startup.C82_cut_fails",
    "Verif.Arbiter.Startup.C82_server_fails",
    "Verif.Arbiter.Startup.C82_restarted_fails",
    "Verif.Arbiter.Startup.C82_cases"
   ],
   "note": "Entry and refusal hold for every schedule; that starting always ends is false (C82_server_fails, C82_cut_fails), as is that every connection entered with was initialised successfully (C82_restarted_fails)."
  },
  {
   "property": "C83",
   "status": "partial",
   "theorems": [
    "Verif.Arbiter.Search.C83_found",
    "Verif.Arbiter.Search.C83_once",
    "Verif.Arbiter.Search.C83_single",
    "Verif.Arbiter.Search.C83_twice_fails",
    "Verif.Arbiter.Search.C83_names_fails",
    "Verif.Arbiter.Search.C83_single_fails",
    "Verif.Arbiter.Search.C83_other_fails",
    "Verif.Arbiter.Search.C83_named",
    "Verif.Arbiter.Search.C83_cases"
   ],
   "note": "Membership, multiplicity and single hold as stated; narrowing by names fails (C83_names_fails, C83_single_fails, C83_other_fails), as does finding a connection with two names once (C83_twice_fails)."
  },
  {
   "property": "C84",
   "status": "partial",
   "theorems": [
    "Verif.Net.Websocket.C84_order",
    "Verif.Net.Websocket.C84_all",
    "Verif.Net.Websocket.C84_echo",
    "Verif.Net.Websocket.C84_mixed_fails",
    "Verif.Net.Websocket.C84_counts",
    "Verif.Net.Websocket.C84_counted_fails",
    "Verif.Net.Websocket.C84_unread_fails",
    "Verif.Net.Websocket.C84_cases"
   ],
   "note": "Modelled: both directions, both queues, reading and writing tasks, echo, counters. Missing: sends cut off by disable half-way, handlers that raise, the protocol library itself. Order across types, counting of refused messages and loss at disable are refuted."
  },
  {
   "property": "C85",
   "status": "partial",
   "theorems": [
    "Verif.Arbiter.Ports.C85_text",
    "Verif.Arbiter.Ports.C85_path_fails",
    "Verif.Arbiter.Ports.C85_values",
    "Verif.Arbiter.Ports.C85_server_fails",
    "Verif.Arbiter.Ports.C85_ports",
    "Verif.Arbiter.Ports.C85_shared_fails",
    "Verif.Arbiter.Ports.C85_double_fails",
    "Verif.Arbiter.Ports.C85_tcp",
    "Verif.Arbiter.Ports.C85_udp",
    "Verif.Arbiter.Ports.C85_websocket",
    "Verif.Arbiter.Ports.C85_host_fails",
    "Verif.Arbiter.Ports.C85_tls_fails",
    "Verif.Arbiter.Ports.C85_cases"
   ],
   "note": "Proved for every configuration and command line with assumed variable resolution (vcorelib) and arbitrary sockets. Refuted: variables before a path or in a server's host text, distinct ports, repeated names, the host for UDP, TLS loopback. Missing: included files, markdown, whether host and loopback address meet."
  },
  {
   "property": "C86",
   "status": "partial",
   "theorems": [
    "Verif.Server.UiCount.C86_count",
    "Verif.Server.UiCount.C86_one",
    "Verif.Server.UiCount.C86_alone",
    "Verif.Server.UiCount.C86_silent_fails",
    "Verif.Server.UiCount.C86_wrap_fails",
    "Verif.Server.UiCount.C86_leak_fails",
    "Verif.Server.UiCount.C86_cases"
   ],
   "note": "Proved: the count (to eight bits), at most one polling connection with up to 255 at once, and that a connection alone polls. Refuted: that one polls at all when the first of three leaves; at most one with 257. Missing: a replaced UI struct, other metrics."
  },
  {
   "property": "C87",
   "status": "partial",
   "theorems": [
    "Verif.Environment.Remote.C87_text",
    "Verif.Environment.Remote.C87_effect",
    "Verif.Environment.Remote.C87_unknown",
    "Verif.Environment.Remote.C87_refused",
    "Verif.Environment.Remote.C87_in_order",
    "Verif.Environment.Remote.C87_custom_fails",
    "Verif.Environment.Remote.C87_result_fails",
    "Verif.Environment.Remote.C87_bounce_fails",
    "Verif.Environment.Remote.C87_cases"
   ],
   "note": "C87_text, C87_effect, C87_in_order and C87_unknown hold for arguments that do not look like flags. Custom commands run at the wrong program (C87_custom_fails), the sender is told success at once (C87_result_fails), flag-like arguments are misread at the peer (C87_bounce_fails). Time-outs of the request are not modelled."
  },
  {
   "property": "C88",
   "status": "partial",
   "theorems": [
    "Verif.Event.Record.C88_replay",
    "Verif.Event.Record.C88_moment",
    "Verif.Event.Record.C88_field_fails",
    "Verif.Event.Record.C88_path_fails",
    "Verif.Event.Record.C88_undisturbed",
    "Verif.Event.Record.C88_exception_fails",
    "Verif.Event.Record.C88_alias_fails",
    "Verif.Event.Record.C88_cases"
   ],
   "note": "Proved for a session without an environment known by two selected names that ends normally. Fails after an exception (recorded channels stay unusable, no metadata), for environments with two names, for a file name other than the default when loading, and for bit-fields."
  },
  {
   "property": "C89",
   "status": "partial",
   "theorems": [
    "Verif.Net.Mirror.C89_mirror",
    "Verif.Net.Mirror.C89_past",
    "Verif.Net.Mirror.C89_completes",
    "Verif.Net.Mirror.C89_slow_fails",
    "Verif.Net.Mirror.C89_other_way_fails",
    "Verif.Net.Mirror.C89_again_fails",
    "Verif.Net.Mirror.C89_cases"
   ],
   "note": "Copy and completion proved. Completion needs the absence of time-outs: after one at the start the program waits for ever. The program's copy of the host is never updated, and a second exchange raises."
  },
  {
   "property": "C90",
   "status": "partial",
   "theorems": [
    "Verif.Tftp.Endpoints.C90_isolated_partial",
    "Verif.Tftp.Endpoints.C90_read_follows",
    "Verif.Tftp.Endpoints.C90_write_follows",
    "Verif.Tftp.Endpoints.C90_stranger",
    "Verif.Tftp.Endpoints.C90_late",
    "Verif.Tftp.Endpoints.C90_counts",
    "Verif.Tftp.Endpoints.C90_same_host_fails",
    "Verif.Tftp.Endpoints.C90_stale_fails",
    "Verif.Tftp.Endpoints.C90_port_fails",
    "Verif.Tftp.Endpoints.C90_unknown_fails",
    "Verif.Tftp.Endpoints.C90_cases"
   ],
   "note": "C90_isolated_partial: with any history (unknown opcodes aside) the endpoints of a host and everything sent to it are as if only that host's events had happened. C90_read_follows, C90_write_follows, C90_stranger: routing of one transfer per host. The code breaks it for concurrent transfers with one host, after a timed-out read, for a server that changes back to the asked port, and for unknown opcodes (C90_same_host_fails, C90_stale_fails, C90_port_fails, C90_unknown_fails)."
  },
  {
   "property": "C91",
   "status": "partial",
   "theorems": [
    "Verif.Controls.C91_controls",
    "Verif.Controls.C91_toggle",
    "Verif.Controls.C91_refused",
    "Verif.Controls.C91_selected",
    "Verif.Controls.C91_choose_partial",
    "Verif.Controls.C91_reset_partial",
    "Verif.Controls.C91_all_defaults_partial",
    "Verif.Controls.C91_scaled_reset_fails",
    "Verif.Controls.C91_enum_reset_fails",
    "Verif.Controls.C91_numeric_name_fails",
    "Verif.Controls.C91_cases"
   ],
   "note": "Proved for names of one thing (channel or field), numbers and defaults that fit without scaling, enumerations without entries named like another's number. False otherwise: C91_scaled_reset_fails, C91_enum_reset_fails, C91_numeric_name_fails."
  },
  {
   "property": "C92",
   "status": "partial",
   "theorems": [
    "Verif.Tui.C92_screen",
    "Verif.Tui.C92_shows_partial",
    "Verif.Tui.C92_bool",
    "Verif.Tui.C92_short",
    "Verif.Tui.C92_no_error",
    "Verif.Tui.C92_stale_fails",
    "Verif.Tui.C92_enum_fails",
    "Verif.Tui.C92_resize_fails",
    "Verif.Tui.C92_overflow_fails",
    "Verif.Tui.C92_wide_fails",
    "Verif.Tui.C92_cases"
   ],
   "note": "C92_screen says exactly what is shown after any updates in a window with room for all texts. The claim holds when no earlier text of the channel was longer (C92_shows_partial), hence for integers of up to five characters and truth values (C92_short). False otherwise: C92_stale_fails, C92_enum_fails, C92_resize_fails, C92_overflow_fails, C92_wide_fails."
  },
  {
   "property": "C93",
   "status": "partial",
   "theorems": [
    "Verif.Pages.C93_setup",
    "Verif.Pages.C93_fresh",
    "Verif.Pages.C93_own_partial",
    "Verif.Pages.C93_same",
    "Verif.Pages.C93_late_fails",
    "Verif.Pages.C93_shared_fails",
    "Verif.Pages.C93_tabs",
    "Verif.Pages.C93_lookup_partial",
    "Verif.Pages.C93_suffix_fails",
    "Verif.Pages.C93_reserved_fails",
    "Verif.Pages.C93_plot_fails",
    "Verif.Pages.C93_twice_fails",
    "Verif.Pages.C93_filter_fails",
    "Verif.Pages.C93_filter_partial",
    "Verif.Pages.C93_cases"
   ],
   "note": "Setup, freshness, stability of cached pages and the list of tabs hold outright. Own pages need distinct names of composing functions, lookup of elements needs names that do not collide with the page's own identifiers, and the filter needs names without hyphens; the failures are theorems."
  },
  {
   "property": "C94",
   "status": "partial",
   "theorems": [
    "Verif.WindowHash.C94_restores_partial",
    "Verif.WindowHash.C94_encoded_fails",
    "Verif.WindowHash.C94_special_fails",
    "Verif.WindowHash.C94_ignored",
    "Verif.WindowHash.C94_channel_filter_fails",
    "Verif.WindowHash.C94_option_name_fails",
    "Verif.WindowHash.C94_gone_fails",
    "Verif.WindowHash.C94_window_partial",
    "Verif.WindowHash.C94_window_fails",
    "Verif.WindowHash.C94_cases",
    "Verif.WindowHash.C94_cases_hyps"
   ],
   "note": "Proved for names and filters without separators and characters a URL encodes, for a shown tab not named like an option, and for a new window opened while the tabs are shown. The other cases fail, which is proved."
  },
  {
   "property": "C95",
   "status": "partial",
   "theorems": [
    "Verif.Points.C95_order",
    "Verif.Points.C95_last",
    "Verif.Points.C95_ring",
    "Verif.Points.C95_resize_partial",
    "Verif.Points.C95_resize_fails",
    "Verif.Points.C95_wear_fails",
    "Verif.Points.C95_drawn",
    "Verif.Points.C95_drawn_value",
    "Verif.Points.C95_time",
    "Verif.Points.C95_value_partial",
    "Verif.Points.C95_spike_fails",
    "Verif.Points.C95_flat_fails",
    "Verif.Points.C95_short_fails",
    "Verif.Points.C95_cases",
    "Verif.Points.C95_cases_draw"
   ],
   "note": "The ring, its order and the drawing are proved. Refuted: a change of capacity loses the newest point of a buffer that is not full, a new extreme is drawn outside the plot, an unchanged value is not drawn, a line shorter than its buffer shows the oldest points."
  },
  {
   "property": "C96",
   "status": "partial",
   "theorems": [
    "Verif.Plots.C96_boxes",
    "Verif.Plots.C96_first",
    "Verif.Plots.C96_plotted_partial",
    "Verif.Plots.C96_stale_fails",
    "Verif.Plots.C96_four",
    "Verif.Plots.C96_fifth_fails",
    "Verif.Plots.C96_points",
    "Verif.Plots.C96_bump",
    "Verif.Plots.C96_depth",
    "Verif.Plots.C96_span",
    "Verif.Plots.C96_cases",
    "Verif.Plots.C96_cases_five"
   ],
   "note": "Boxes, points, span and lengths of lines are proved for tabs with a plot. Refuted: a channel switched on and off before its tab is first shown is plotted anyway, and a fifth tab never gets a plot."
  },
  {
   "property": "C97",
   "status": "partial",
   "theorems": [
    "Verif.Housekeeping.C97_order",
    "Verif.Housekeeping.C97_round",
    "Verif.Housekeeping.C97_drains",
    "Verif.Housekeeping.C97_raise_fails",
    "Verif.Housekeeping.C97_cancel_fails",
    "Verif.Housekeeping.C97_unawaited",
    "Verif.Housekeeping.C97_blocked_fails",
    "Verif.Housekeeping.C97_cases"
   ],
   "note": "Order, completeness of a round and draining proved for all interleavings; robustness against a raising handler, a cancelled connection task and a long one is false and refuted (C97_raise_fails, C97_cancel_fails, C97_blocked_fails)."
  },
  {
   "property": "C98",
   "status": "partial",
   "theorems": [
    "Verif.Table.C98_shows",
    "Verif.Table.C98_keeps",
    "Verif.Table.C98_nan_fails",
    "Verif.Table.C98_stale",
    "Verif.Table.C98_stale_never",
    "Verif.Table.C98_bool",
    "Verif.Table.C98_stale_fails",
    "Verif.Table.C98_input",
    "Verif.Table.C98_input_fails",
    "Verif.Table.C98_int",
    "Verif.Table.C98_big_fails",
    "Verif.Table.C98_float",
    "Verif.Table.C98_align_fails",
    "Verif.Table.C98_name",
    "Verif.Table.C98_name_fails",
    "Verif.Table.C98_cases",
    "Verif.Table.C98_cases_text"
   ],
   "note": "Cells, marks, texts and input proved for all histories; NaN or infinity in a message, digit-led names, integers beyond 2^53, updates while typing and tabs shown again are refuted with universal counterexamples."
  },
  {
   "property": "C99",
   "status": "partial",
   "theorems": [
    "Verif.Stop.C99_single",
    "Verif.Stop.C99_quiet",
    "Verif.Stop.C99_ends",
    "Verif.Stop.C99_stops",
    "Verif.Stop.C99_one_partial",
    "Verif.Stop.C99_shield_fails",
    "Verif.Stop.C99_overlap_fails",
    "Verif.Stop.C99_lost_fails",
    "Verif.Stop.C99_cases"
   ],
   "note": "Calls during a dispatch or during another call break it: C99_shield_fails, C99_overlap_fails, C99_lost_fails."
  },
  {
   "property": "C100",
   "status": "partial",
   "theorems": [
    "Verif.Floats.C100_nearest",
    "Verif.Floats.C100_roundtrip",
    "Verif.Floats.C100_wire",
    "Verif.Floats.C100_half_partial",
    "Verif.Floats.C100_half_fails",
    "Verif.Floats.C100_half_range_fails",
    "Verif.Floats.C100_twice_fails",
    "Verif.Floats.C100_callbacks_partial",
    "Verif.Floats.C100_callbacks_fails",
    "Verif.Floats.C100_nan_fails",
    "Verif.Floats.C100_zero_fails",
    "Verif.Floats.C100_equal",
    "Verif.Floats.C100_equal_fails",
    "Verif.Floats.C100_equal_transitive_fails",
    "Verif.Floats.C100_cases"
   ],
   "note": "Nearest, exact on the wire and equality proved for floats; halves, callbacks for values that are rounded, NaN, minus zero and equality of doubles do not meet it."
  },
  {
   "property": "C101",
   "status": "partial",
   "theorems": [
    "Verif.Timing.C101_counts",
    "Verif.Timing.C101_raising_fails",
    "Verif.Timing.C101_shortened_fails",
    "Verif.Timing.C101_spacing",
    "Verif.Timing.C101_rate",
    "Verif.Timing.C101_drift",
    "Verif.Timing.C101_paused",
    "Verif.Timing.C101_paused_pace_partial",
    "Verif.Timing.C101_spin_fails",
    "Verif.Timing.C101_spin_reached",
    "Verif.Timing.C101_cases"
   ],
   "note": "Counters, spacing, rate and drift are proved outright. False of the code: a paused task sleeps a period less its last dispatch's duration, so not at all after an overrun (C101_spin_fails, positive part C101_paused_pace_partial); raising dispatches are not counted (C101_raising_fails); the overrun test uses the period from before the dispatch (C101_shortened_fails). Averages and rate are vcorelib's and not modelled."
  },
  {
   "property": "C102",
   "status": "partial",
   "theorems": [
    "Verif.Driven.C102_wave",
    "Verif.Driven.C102_sin",
    "Verif.Driven.C102_last",
    "Verif.Driven.C102_bounded",
    "Verif.Driven.C102_period",
    "Verif.Driven.C102_default",
    "Verif.Driven.C102_circle",
    "Verif.Driven.C102_wrap_partial",
    "Verif.Driven.C102_wrap_fails",
    "Verif.Driven.C102_zero_fails",
    "Verif.Driven.C102_first_fails",
    "Verif.Driven.C102_flush",
    "Verif.Driven.C102_flush_limit",
    "Verif.Driven.C102_change_fails",
    "Verif.Driven.C102_flush_zero_fails",
    "Verif.Driven.C102_cases"
   ],
   "note": "The wave, its period, bounds and the flushing with a constant count are proved over all histories and over wraps. False of the code: zero steps or a zero flush count raise in the dispatch and end the task (C102_zero_fails, C102_flush_zero_fails); the wave jumps at the wrap unless steps divide 2^32 (C102_wrap_fails, positive part C102_wrap_partial); cos is 0 before the first dispatch (C102_first_fails); with changing flush counts samples may wait until the wrap (C102_change_fails). Real numbers instead of floats."
  },
  {
   "property": "C103",
   "status": "partial",
   "theorems": [
    "Verif.PeerEnd.C103_order",
    "Verif.PeerEnd.C103_clean",
    "Verif.PeerEnd.C103_tasks",
    "Verif.PeerEnd.C103_host",
    "Verif.PeerEnd.C103_beats",
    "Verif.PeerEnd.C103_host_returns",
    "Verif.PeerEnd.C103_ends",
    "Verif.PeerEnd.C103_raised",
    "Verif.PeerEnd.C103_early_fails",
    "Verif.PeerEnd.C103_noted",
    "Verif.PeerEnd.C103_raise_fails",
    "Verif.PeerEnd.C103_stuck_fails",
    "Verif.PeerEnd.C103_cleanup_fails",
    "Verif.PeerEnd.C103_unanswered_fails",
    "Verif.PeerEnd.C103_killed_fails",
    "Verif.PeerEnd.C103_cases"
   ],
   "note": "Order, completeness of a clean end, the host's waiting and progress under fair schedules proved; a pipe closed before the environments were exchanged, raising handlers, raising programs, unanswered requests and slow processes do not end cleanly (proved as _fails)."
  },
  {
   "property": "C104",
   "status": "partial",
   "theorems": [
    "Verif.Leaving.C104_contexts",
    "Verif.Leaving.C104_stopped_partial",
    "Verif.Leaving.C104_order",
    "Verif.Leaving.C104_tasks",
    "Verif.Leaving.C104_result",
    "Verif.Leaving.C104_cancelled",
    "Verif.Leaving.C104_raise_fails",
    "Verif.Leaving.C104_disable_fails",
    "Verif.Leaving.C104_cancel_fails",
    "Verif.Leaving.C104_swallowed_fails",
    "Verif.Leaving.C104_cases"
   ],
   "note": "Contexts, order, tasks and result proved; connections and signal only if disabling does not raise; exceptions leave servers running (proved as _fails)."
  },
  {
   "property": "C105",
   "status": "partial",
   "theorems": [
    "Verif.Connect.C105_connects",
    "Verif.Connect.C105_gives_up",
    "Verif.Connect.C105_bounded",
    "Verif.Connect.C105_at_once",
    "Verif.Connect.C105_two_addresses_fails",
    "Verif.Connect.C105_other_fails",
    "Verif.Connect.C105_used_fails",
    "Verif.Connect.C105_cases"
   ],
   "note": "Proved for refusing hosts; hosts of several addresses whose refusals differ in text, and errors other than refusals, are not retried (proved as _fails)."
  },
  {
   "property": "C106",
   "status": "partial",
   "theorems": [
    "Verif.Json.Browser.C106_sends",
    "Verif.Json.Browser.C106_server_receives",
    "Verif.Json.Browser.C106_browser_receives",
    "Verif.Json.Browser.C106_throw_fails",
    "Verif.Json.Browser.C106_cut_fails",
    "Verif.Json.Browser.C106_keys",
    "Verif.Json.Browser.C106_names_fails"
   ],
   "note": "Proved for frames of any number of messages; fails when a handler throws or for three key names (C106_throw_fails, C106_names_fails), shown for all such messages."
  },
  {
   "property": "C107",
   "status": "partial",
   "theorems": [
    "Verif.Json.Browser.C107_reply",
    "Verif.Json.Browser.C107_answers",
    "Verif.Json.Browser.C107_loopback_test",
    "Verif.Json.Browser.C107_command_fails",
    "Verif.Json.Browser.C107_bound_partial",
    "Verif.Json.Browser.C107_dies_out_partial",
    "Verif.Json.Browser.C107_loopback_fails"
   ],
   "note": "Proved for every interleaving without a bare loopback; with one the exchange never ends (C107_loopback_fails), and requests other than loopback get an answer without their key (C107_command_fails)."
  },
  {
   "property": "C108",
   "status": "partial",
   "theorems": [
    "Verif.Slider.C108_nearest",
    "Verif.Slider.C108_keeps",
    "Verif.Slider.C108_integer_steps",
    "Verif.Slider.C108_integer_values",
    "Verif.Slider.C108_top_fails",
    "Verif.Slider.C108_float_steps",
    "Verif.Slider.C108_errors",
    "Verif.Slider.C108_canonical",
    "Verif.Slider.C108_steps_fails",
    "Verif.Slider.C108_returns",
    "Verif.Slider.C108_fine_fails",
    "Verif.Slider.C108_sent",
    "Verif.Slider.C108_unpressed",
    "Verif.Slider.C108_drag_partial",
    "Verif.Slider.C108_held",
    "Verif.Slider.C108_follows",
    "Verif.Slider.C108_click_fails",
    "Verif.Slider.C108_period_partial",
    "Verif.Slider.C108_period_fails"
   ],
   "note": "Positions, nearest value, number of steps, canonical controls, round trip through the channel table, histories of events. False of the code: clicks and keys send nothing (C108_click_fails), the upper bound of whole numbers (C108_top_fails), the default of 'steps' and its non-integers (C108_steps_fails), fine steps (C108_fine_fails), the settings slider (C108_period_fails)."
  },
  {
   "property": "C109",
   "status": "partial",
   "theorems": [
    "Verif.Pacing.C109_apart",
    "Verif.Pacing.C109_rate",
    "Verif.Pacing.C109_due",
    "Verif.Pacing.C109_progress",
    "Verif.Pacing.C109_every",
    "Verif.Pacing.C109_nan_fails"
   ],
   "note": "Bounds from both sides for every history. False of the code for an address whose period is no number (C109_nan_fails)."
  },
  {
   "property": "C110",
   "status": "partial",
   "theorems": [
    "Verif.Overlay.C110_traverse",
    "Verif.Overlay.C110_shown",
    "Verif.Overlay.C110_unit",
    "Verif.Overlay.C110_order",
    "Verif.Overlay.C110_digits",
    "Verif.Overlay.C110_long_fails",
    "Verif.Overlay.C110_carry_fails",
    "Verif.Overlay.C110_text",
    "Verif.Overlay.C110_frame",
    "Verif.Overlay.C110_lines",
    "Verif.Overlay.C110_clicks",
    "Verif.Overlay.C110_aligned_partial",
    "Verif.Overlay.C110_aligned_fails"
   ],
   "note": "Units, texts, rows and clicks proved for all whole durations and histories. Alignment only below 10000 seconds (C110_aligned_fails); no unit above the second (C110_long_fails); fractions of a nanosecond may carry (C110_carry_fails)."
  },
  {
   "property": "C111",
   "status": "partial",
   "theorems": [
    "Verif.Filters.C111_rows",
    "Verif.Filters.C111_typed_partial",
    "Verif.Filters.C111_resync",
    "Verif.Filters.C111_cleared",
    "Verif.Filters.C111_named_fails",
    "Verif.Filters.C111_caret_fails",
    "Verif.Filters.C111_invalid_fails",
    "Verif.Filters.C111_starts_partial",
    "Verif.Filters.C111_reload_fails",
    "Verif.Filters.C111_gone_fails",
    "Verif.Filters.C111_tabs",
    "Verif.Filters.C111_link_fails",
    "Verif.Filters.C111_left_fails",
    "Verif.Filters.C111_cases"
   ],
   "note": "Proved: rows after all keys; the pattern is the text for typing at the end; resynchronisation; when a page starts; the tab shown is listed. False of the code and proved so: names of keys in the pattern, keys inside the text, a half-typed filter stops the next start, a link hides its tab, a left tab stays listed. Missing: selections in the text box; hashes with separators in the filters (C94)."
  },
  {
   "property": "C112",
   "status": "partial",
   "theorems": [
    "Verif.PageStart.C112_ports",
    "Verif.PageStart.C112_unique",
    "Verif.PageStart.C112_data_fails",
    "Verif.PageStart.C112_https_fails",
    "Verif.PageStart.C112_opened",
    "Verif.PageStart.C112_starts",
    "Verif.PageStart.C112_quiet",
    "Verif.PageStart.C112_delivered",
    "Verif.PageStart.C112_reloads",
    "Verif.PageStart.C112_stuck_fails",
    "Verif.PageStart.C112_name_fails",
    "Verif.PageStart.C112_cases"
   ],
   "note": "Proved: the ports chosen; a page runs only with both connections opened and starts whenever both open without a close; delivery in order; reload after a close; no other reload. False of the code and proved so: a close before the worker is ready leaves the page stuck; https with the package's own port names; 'data' in a name; a tab named reload. Missing: initialisation of tabs that waits (no script of the package does)."
  },
  {
   "property": "C113",
   "status": "partial",
   "theorems": [
    "Verif.Boxes.C113_hex",
    "Verif.Boxes.C113_line",
    "Verif.Boxes.C113_listed",
    "Verif.Boxes.C113_drawers",
    "Verif.Boxes.C113_told",
    "Verif.Boxes.C113_clear_other",
    "Verif.Boxes.C113_clear_partial",
    "Verif.Boxes.C113_click",
    "Verif.Boxes.C113_clear_fails",
    "Verif.Boxes.C113_cases"
   ],
   "note": "all proved but for clearing, which is proved for names that cannot be confused with boxes (C113_clear_partial) and fails otherwise (C113_clear_fails)"
  },
  {
   "property": "C114",
   "status": "partial",
   "theorems": [
    "Verif.Hosts.C114_normalize",
    "Verif.Hosts.C114_equal",
    "Verif.Hosts.C114_port_fails",
    "Verif.Hosts.C114_family_fails",
    "Verif.Hosts.C114_zero",
    "Verif.Hosts.C114_names",
    "Verif.Hosts.C114_endpoints",
    "Verif.Hosts.C114_tuple_fails",
    "Verif.Hosts.C114_probe",
    "Verif.Hosts.C114_option_fails",
    "Verif.Hosts.C114_probes",
    "Verif.Hosts.C114_mtu",
    "Verif.Hosts.C114_closed_partial",
    "Verif.Hosts.C114_closed_fails",
    "Verif.Hosts.C114_stale_fails",
    "Verif.Hosts.C114_local",
    "Verif.Hosts.C114_cases"
   ],
   "note": "Proved: normalisation, names, texts, endpoints, answers, probes. Sockets are closed exactly but for failed calls (C114_closed_partial); false parts are C114_port_fails, C114_family_fails, C114_tuple_fails, C114_stale_fails, C114_closed_fails, C114_option_fails."
  },
  {
   "property": "C115",
   "status": "partial",
   "theorems": [
    "Verif.Logs.C115_level",
    "Verif.Logs.C115_log",
    "Verif.Logs.C115_arrives",
    "Verif.Logs.C115_once",
    "Verif.Logs.C115_closed",
    "Verif.Logs.C115_clear",
    "Verif.Logs.C115_message_partial",
    "Verif.Logs.C115_values_fails",
    "Verif.Logs.C115_rows_fails",
    "Verif.Logs.C115_logged_fails",
    "Verif.Logs.C115_points_fails",
    "Verif.Logs.C115_cases"
   ],
   "note": "Log messages proved. Values reach their rows if no channel has a name with a meaning in messages (C115_message_partial); otherwise false: C115_values_fails, C115_rows_fails, C115_logged_fails."
  },
  {
   "property": "C116",
   "status": "partial",
   "theorems": [
    "Verif.Structs.C116_names",
    "Verif.Structs.C116_finalized",
    "Verif.Structs.C116_metrics",
    "Verif.Structs.C116_dots_fails",
    "Verif.Structs.C116_poll",
    "Verif.Structs.C116_source",
    "Verif.Structs.C116_integer_fails",
    "Verif.Structs.C116_extra_fails",
    "Verif.Structs.C116_final",
    "Verif.Structs.C116_exception_partial",
    "Verif.Structs.C116_masked_fails",
    "Verif.Structs.C116_unbuilt_fails",
    "Verif.Structs.C116_cases"
   ],
   "note": "Names, metrics, the poll command, sources of floats and the order of final polls are proved outright; that the reason of a stop comes out holds only if no final poll raises (C116_exception_partial; C116_masked_fails and C116_unbuilt_fails show the rest). Integer sources, extra outputs and names with dots fail (C116_integer_fails, C116_extra_fails, C116_dots_fails)."
  },
  {
   "property": "C117",
   "status": "partial",
   "theorems": [
    "Verif.Server.Prefixes.C117_refused",
    "Verif.Server.Prefixes.C117_kept",
    "Verif.Server.Prefixes.C117_exact",
    "Verif.Server.Prefixes.C117_again",
    "Verif.Server.Prefixes.C117_setup",
    "Verif.Server.Prefixes.C117_second_fails",
    "Verif.Server.Prefixes.C117_alias_fails",
    "Verif.Server.Prefixes.C117_arrives",
    "Verif.Server.Prefixes.C117_own",
    "Verif.Server.Prefixes.C117_others",
    "Verif.Server.Prefixes.C117_loop_fails",
    "Verif.Server.Prefixes.C117_opened",
    "Verif.Server.Prefixes.C117_contains",
    "Verif.Server.Prefixes.C117_schemes",
    "Verif.Server.Prefixes.C117_ports_fails",
    "Verif.Server.Prefixes.C117_cases"
   ],
   "note": "Configuration, registration, arrival, precedence, other paths and addresses are proved; false of the code: spellings of one path (C117_alias_fails), a second application (C117_second_fails), cycles (C117_loop_fails), a configuration without ports (C117_ports_fails)."
  },
  {
   "property": "C118",
   "status": "partial",
   "theorems": [
    "Verif.Tls.C118_plain",
    "Verif.Tls.C118_context",
    "Verif.Tls.C118_rest",
    "Verif.Tls.C118_again",
    "Verif.Tls.C118_restart",
    "Verif.Tls.C118_address",
    "Verif.Tls.C118_loopback",
    "Verif.Tls.C118_options",
    "Verif.Tls.C118_loop_tcp_fails",
    "Verif.Tls.C118_keyfile_fails",
    "Verif.Tls.C118_off_fails",
    "Verif.Tls.C118_bare_fails",
    "Verif.Tls.C118_cases"
   ],
   "note": "Proved for all dictionaries; refuted: a key without a certificate is handed on to the socket (C118_keyfile_fails), a false use_ssl does not switch TLS off (C118_off_fails), servers may have TLS without certificate (C118_bare_fails), the TCP loopback client never uses TLS (C118_loop_tcp_fails). The ssl module itself is not modelled."
  },
  {
   "property": "C119",
   "status": "partial",
   "theorems": [
    "Verif.Server.Scripts.C119_text",
    "Verif.Server.Scripts.C119_swallows_fails",
    "Verif.Server.Scripts.C119_cut_fails",
    "Verif.Server.Scripts.C119_read",
    "Verif.Server.Scripts.C119_name",
    "Verif.Server.Scripts.C119_quote_fails",
    "Verif.Server.Scripts.C119_break_fails",
    "Verif.Server.Scripts.C119_active",
    "Verif.Server.Scripts.C119_files",
    "Verif.Server.Scripts.C119_urls",
    "Verif.Server.Scripts.C119_worker",
    "Verif.Server.Scripts.C119_main",
    "Verif.Server.Scripts.C119_page",
    "Verif.Server.Scripts.C119_where",
    "Verif.Server.Scripts.C119_ends",
    "Verif.Server.Scripts.C119_cases"
   ],
   "note": "Proved for all clean files and names; names with quotes, line breaks, end tags or comment starts break the page and are refuted (C119_quote_fails, C119_break_fails, C119_cut_fails, C119_swallows_fails). Only scripts of the document are modelled, and escapes of one character."
  },
  {
   "property": "C120",
   "status": "partial",
   "theorems": [
    "Verif.Names.C120_channel",
    "Verif.Names.C120_default",
    "Verif.Names.C120_unrestricted",
    "Verif.Names.C120_narrower",
    "Verif.Names.C120_registry",
    "Verif.Names.C120_boolean",
    "Verif.Names.C120_accepted",
    "Verif.Names.C120_joined",
    "Verif.Names.C120_apart",
    "Verif.Names.C120_collision_fails",
    "Verif.Names.C120_words",
    "Verif.Names.C120_argument",
    "Verif.Names.C120_option_fails",
    "Verif.Names.C120_page",
    "Verif.Names.C120_break",
    "Verif.Names.C120_cases"
   ],
   "note": "Language, registries, namespaces and words proved; refuted: channels named like options cannot be commanded (C120_option_fails), dots in names make namespaces collide (C120_collision_fails). Letters beyond ASCII are a parameter."
  },
  {
   "property": "C121",
   "status": "partial",
   "theorems": [
    "Verif.Flush.C121_order",
    "Verif.Flush.C121_flush",
    "Verif.Flush.C121_exact",
    "Verif.Flush.C121_zero_fails",
    "Verif.Flush.C121_queue_fails",
    "Verif.Flush.C121_cases"
   ],
   "note": "Order, sizes and delay proved for all histories; a flush count of zero ends the task (C121_zero_fails) and the queue of commands only grows (C121_queue_fails): defects of the code. Missing: the connection going down."
  },
  {
   "property": "C122",
   "status": "partial",
   "theorems": [
    "Verif.Served.C122_kept",
    "Verif.Served.C122_order",
    "Verif.Served.C122_progress",
    "Verif.Served.C122_once",
    "Verif.Served.C122_leaves",
    "Verif.Served.C122_ends",
    "Verif.Served.C122_idle",
    "Verif.Served.C122_spin_fails",
    "Verif.Served.C122_refused",
    "Verif.Served.C122_disabled",
    "Verif.Served.C122_unnoticed_fails",
    "Verif.Served.C122_cases",
    "Verif.Served.C122_spin_cases",
    "Verif.Served.C122_leave_cases"
   ],
   "note": "Proved for all interleavings: closing, order, single processing, progress, leaving, ending. False of the code and proved so: with auto_restart a closed websocket connection makes the manager loop for ever (C122_spin_fails); after a message handler raised a close is not noticed (C122_unnoticed_fails)."
  },
  {
   "property": "C123",
   "status": "partial",
   "theorems": [
    "Verif.Programs.C123_home",
    "Verif.Programs.C123_home_fails",
    "Verif.Programs.C123_runs",
    "Verif.Programs.C123_exit",
    "Verif.Programs.C123_none_fails",
    "Verif.Programs.C123_arbiter",
    "Verif.Programs.C123_arbiter_fails",
    "Verif.Programs.C123_tftp_fails",
    "Verif.Programs.C123_tftp_raised",
    "Verif.Programs.C123_window",
    "Verif.Programs.C123_jit",
    "Verif.Programs.C123_task",
    "Verif.Programs.C123_server",
    "Verif.Programs.C123_quiet",
    "Verif.Programs.C123_cases"
   ],
   "note": "All but the last sentence holds and is proved for every outcome of the parts (C123_home, _runs, _exit, _arbiter, _window, _jit, _task, _server, _quiet). False: the status of a transfer is inverted (C123_tftp_fails), an exception other than SystemExit leaves the other directory (C123_home_fails), SystemExit without code is 1 (C123_none_fails), multiples of 256 are lost (C123_arbiter_fails)."
  },
  {
   "property": "C124",
   "status": "partial",
   "theorems": [
    "Verif.Apps.C124_stages",
    "Verif.Apps.C124_wait_last",
    "Verif.Apps.C124_zero_waits",
    "Verif.Apps.C124_own_fails",
    "Verif.Apps.C124_config_fails",
    "Verif.Apps.C124_kept",
    "Verif.Apps.C124_first_failure",
    "Verif.Apps.C124_cases"
   ],
   "note": "Proved: C124_stages, _wait_last, _zero_waits, _kept, _first_failure for all configurations. False: with the flag the own application is not run if none is configured (C124_own_fails), and a list in the configuration is appended to (C124_config_fails)."
  },
  {
   "property": "C125",
   "status": "partial",
   "theorems": [
    "Verif.Divider.C125_visible",
    "Verif.Divider.C125_follow",
    "Verif.Divider.C125_drift_fails",
    "Verif.Divider.C125_double_fails",
    "Verif.Divider.C125_released",
    "Verif.Divider.C125_resized",
    "Verif.Divider.C125_edge_fails",
    "Verif.Divider.C125_cases"
   ],
   "note": "Proved: C125_visible, C125_follow, C125_released for all events. The last sentence is false: C125_drift_fails, C125_double_fails, C125_edge_fails (each for all states with the stated room)."
  },
  {
   "property": "C126",
   "status": "partial",
   "theorems": [
    "Verif.Audio.C126_samples",
    "Verif.Audio.C126_silent",
    "Verif.Audio.C126_retuned",
    "Verif.Audio.C126_connected",
    "Verif.Audio.C126_toggle",
    "Verif.Audio.C126_toggle_fails",
    "Verif.Audio.C126_cases"
   ],
   "note": "Proved: C126_samples, _silent, _retuned, _connected for all inputs and orders, and C126_toggle for clicks one after the other (any number). Missing: the last sentence is false for clicks that overlap (C126_toggle_fails)."
  },
  {
   "property": "C127",
   "status": "partial",
   "theorems": [
    "Verif.Defaults.C127_set",
    "Verif.Defaults.C127_types",
    "Verif.Defaults.C127_value",
    "Verif.Defaults.C127_range_fails",
    "Verif.Defaults.C127_refused_fails",
    "Verif.Defaults.C127_event",
    "Verif.Defaults.C127_init",
    "Verif.Defaults.C127_create",
    "Verif.Defaults.C127_reload",
    "Verif.Defaults.C127_cleared_fails",
    "Verif.Defaults.C127_typed_partial",
    "Verif.Defaults.C127_period",
    "Verif.Defaults.C127_whole_period_fails",
    "Verif.Defaults.C127_button"
   ],
   "note": "True for defaults given with their type (set, value, init, create, reload, event, period, button). False of the code: out of range, refused and cleared defaults, whole number periods (four _fails theorems)."
  },
  {
   "property": "C128",
   "status": "partial",
   "theorems": [
    "Verif.Defaults.C128_items_fails",
    "Verif.Defaults.C128_data_partial",
    "Verif.Defaults.C128_member",
    "Verif.Defaults.C128_sets",
    "Verif.Defaults.C128_clash"
   ],
   "note": "Comparison with data and membership by identity hold; comparing two items raises TypeError (C128_items_fails)."
  },
  {
   "property": "C129",
   "status": "partial",
   "theorems": [
    "Verif.Typed.C129_sound",
    "Verif.Typed.C129_found",
    "Verif.Typed.C129_loaded",
    "Verif.Typed.C129_plain_fails",
    "Verif.Typed.C129_refused_fails",
    "Verif.Typed.C129_finalized",
    "Verif.Typed.C129_add",
    "Verif.Typed.C129_cases"
   ],
   "note": "Holds for channels made by the function of their type and for loaded environments; false for channels made by channel() and for refused creations (two _fails theorems)."
  },
  {
   "property": "C130",
   "status": "partial",
   "theorems": [
    "Verif.Scaled.C130_float",
    "Verif.Scaled.C130_float_equal",
    "Verif.Scaled.C130_falling_fails",
    "Verif.Scaled.C130_int",
    "Verif.Scaled.C130_int_exact",
    "Verif.Scaled.C130_nearest_fails",
    "Verif.Scaled.C130_int_plain",
    "Verif.Scaled.C130_raises_fails",
    "Verif.Scaled.C130_one_term_fails",
    "Verif.Scaled.C130_close",
    "Verif.Scaled.C130_enum",
    "Verif.Scaled.C130_enum_scaled_fails",
    "Verif.Scaled.C130_samples",
    "Verif.Scaled.C130_enum_samples",
    "Verif.Scaled.C130_wait",
    "Verif.Scaled.C130_cases"
   ],
   "note": "Proved for rising linear scalings (floats always, integers for values a raw value has, and away from the nearest raw value), for equality of floats, isclose, enumerations without scaling and all samples. False of the code: falling scalings, other values on integers, slope 0 and three terms, enumerations with scaling (four _fails theorems)."
  },
  {
   "property": "C131",
   "status": "partial",
   "theorems": [
    "Verif.Script.C131_path",
    "Verif.Script.C131_name_partial",
    "Verif.Script.C131_quote_fails",
    "Verif.Script.C131_line_fails",
    "Verif.Script.C131_backslash_fails",
    "Verif.Script.C131_cases"
   ],
   "note": "The path is read back whatever backslashes it has (C131_path); the name only if it has no quote, backslash or line end (C131_name_partial). The three other kinds of names are shown to fail: code injection, changed name, unreadable script."
  },
  {
   "property": "C132",
   "status": "partial",
   "theorems": [
    "Verif.Reentrant.C132_first_partial",
    "Verif.Reentrant.C132_last_partial",
    "Verif.Reentrant.C132_passive",
    "Verif.Reentrant.C132_later_fails",
    "Verif.Reentrant.C132_stale_fails",
    "Verif.Reentrant.C132_silent",
    "Verif.Reentrant.C132_called",
    "Verif.Reentrant.C132_raises_fails",
    "Verif.Reentrant.C132_adds_fails",
    "Verif.Reentrant.C132_removes_fails",
    "Verif.Reentrant.C132_case",
    "Verif.Reentrant.C132_five",
    "Verif.Reentrant.C132_cases"
   ],
   "note": "Holds for callbacks registered before every assigning one, whatever the nesting (C132_first_partial, C132_last_partial), and when all callbacks only look (C132_passive, C132_called). False otherwise: later callbacks end with a stale value, and raising, registering or removing inside a callback stops the loop (five _fails theorems)."
  },
  {
   "property": "C133",
   "status": "partial",
   "theorems": [
    "Verif.Group.C133_group",
    "Verif.Group.C133_register",
    "Verif.Group.C133_period",
    "Verif.Group.C133_stop",
    "Verif.Group.C133_start",
    "Verif.Group.C133_running",
    "Verif.Group.C133_start_fails",
    "Verif.Group.C133_cases"
   ],
   "note": "Registration (C133_group, C133_register), stopping (C133_stop) and the context around any body for an idle group (C133_running) are proved. A group with a task that cannot be started again leaves the others running (C133_start_fails)."
  },
  {
   "property": "C134",
   "status": "partial",
   "theorems": [
    "Verif.PyEnum.C134_lower",
    "Verif.PyEnum.C134_value",
    "Verif.PyEnum.C134_name",
    "Verif.PyEnum.C134_set",
    "Verif.PyEnum.C134_items",
    "Verif.PyEnum.C134_roundtrip",
    "Verif.PyEnum.C134_apart",
    "Verif.PyEnum.C134_unknown",
    "Verif.PyEnum.C134_small_fails",
    "Verif.PyEnum.C134_alias_fails",
    "Verif.PyEnum.C134_case_fails",
    "Verif.PyEnum.C134_cases",
    "Verif.PyEnum.C134_log"
   ],
   "note": "Proved for classes with names in upper case (C134_items, C134_roundtrip, C134_name, C134_apart). Members with small letters, aliases and names that differ in case only are shown to fail (C134_small_fails, C134_alias_fails, C134_case_fails)."
  },
  {
   "property": "C135",
   "status": "partial",
   "theorems": [
    "Verif.Scoped.C135_disabled_partial",
    "Verif.Scoped.C135_left_partial",
    "Verif.Scoped.C135_begun",
    "Verif.Scoped.C135_order",
    "Verif.Scoped.C135_early_fails",
    "Verif.Scoped.C135_restarting_fails",
    "Verif.Scoped.C135_raises_fails",
    "Verif.Scoped.C135_gives_up",
    "Verif.Scoped.C135_cases"
   ],
   "note": "Proved for bodies that end after the processing task has taken the connection (C135_disabled_partial, C135_left_partial, C135_begun). Bodies that end before, or during a restart, have the connection restarted behind them (three _fails theorems); if restarting keeps failing it ends after the given number of tries (C135_gives_up)."
  },
  {
   "property": "C136",
   "status": "partial",
   "theorems": [
    "Verif.Shared.C136_set_value",
    "Verif.Shared.C136_same_partial",
    "Verif.Shared.C136_field_hides_fails",
    "Verif.Shared.C136_channel_hides_fails",
    "Verif.Shared.C136_refused",
    "Verif.Shared.C136_stale_fails",
    "Verif.Shared.C136_text_partial",
    "Verif.Shared.C136_others",
    "Verif.Shared.C136_cases"
   ],
   "note": "false for a name shared by a channel and a field, and for two fields of a name; proved otherwise"
  }
 ]
}
