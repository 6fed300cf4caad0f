{
"C01": {"note": "All integer kinds and both byte orders; floats and booleans as IEEE bit patterns, not real arithmetic."},
"C06": {"status": "partial", "note": "Callbacks see the stored value whenever the assigned value is in range; C06_reported_value_fails shows the out-of-range case, where ctypes wraps but the callback gets the unwrapped value."},
"C07": {"status": "partial", "note": "Exact arithmetic, and doubles (unbounded exponent) for types up to 32 bits. C07_single_term_fails: a scaling with one coefficient is not inverted; C07_wide_fails, C07_offset_fails: 64-bit values and large offsets are lost to rounding."},
"C09": {"note": "C09_momentary_success_fails records that a success between polls is not reported."},
"C100": {"status": "partial", "note": "Nearest, exact on the wire and equality proved for floats; halves, callbacks for values that are rounded, NaN, minus zero and equality of doubles do not meet it."},
"C101": {"status": "partial", "note": "Counters, spacing, rate and drift are proved outright. False of the code: a paused task sleeps a period less its last dispatch's duration, so not at all after an overrun (C101_spin_fails, positive part C101_paused_pace_partial); raising dispatches are not counted (C101_raising_fails); the overrun test uses the period from before the dispatch (C101_shortened_fails). Averages and rate are vcorelib's and not modelled."},
"C102": {"status": "partial", "note": "The wave, its period, bounds and the flushing with a constant count are proved over all histories and over wraps. False of the code: zero steps or a zero flush count raise in the dispatch and end the task (C102_zero_fails, C102_flush_zero_fails); the wave jumps at the wrap unless steps divide 2^32 (C102_wrap_fails, positive part C102_wrap_partial); cos is 0 before the first dispatch (C102_first_fails); with changing flush counts samples may wait until the wrap (C102_change_fails). Real numbers instead of floats."},
"C103": {"status": "partial", "note": "Order, completeness of a clean end, the host's waiting and progress under fair schedules proved; a pipe closed before the environments were exchanged, raising handlers, raising programs, unanswered requests and slow processes do not end cleanly (proved as _fails)."},
"C104": {"status": "partial", "note": "Contexts, order, tasks and result proved; connections and signal only if disabling does not raise; exceptions leave servers running (proved as _fails)."},
"C105": {"status": "partial", "note": "Proved for refusing hosts; hosts of several addresses whose refusals differ in text, and errors other than refusals, are not retried (proved as _fails)."},
"C106": {"status": "partial", "note": "Proved for frames of any number of messages; fails when a handler throws or for three key names (C106_throw_fails, C106_names_fails), shown for all such messages."},
"C107": {"status": "partial", "note": "Proved for every interleaving without a bare loopback; with one the exchange never ends (C107_loopback_fails), and requests other than loopback get an answer without their key (C107_command_fails)."},
"C108": {"status": "partial", "note": "Positions, nearest value, number of steps, canonical controls, round trip through the channel table, histories of events. False of the code: clicks and keys send nothing (C108_click_fails), the upper bound of whole numbers (C108_top_fails), the default of 'steps' and its non-integers (C108_steps_fails), fine steps (C108_fine_fails), the settings slider (C108_period_fails)."},
"C109": {"status": "partial", "note": "Bounds from both sides for every history. False of the code for an address whose period is no number (C109_nan_fails)."},
"C11": {"note": "For fields inside their primitive, which every group guarantees (C13); C11_overhanging_field_fails: a stand-alone field may stick out."},
"C110": {"status": "partial", "note": "Units, texts, rows and clicks proved for all whole durations and histories. Alignment only below 10000 seconds (C110_aligned_fails); no unit above the second (C110_long_fails); fractions of a nanosecond may carry (C110_carry_fails)."},
"C111": {"status": "partial", "note": "Proved: rows after all keys; the pattern is the text for typing at the end; resynchronisation; when a page starts; the tab shown is listed. False of the code and proved so: names of keys in the pattern, keys inside the text, a half-typed filter stops the next start, a link hides its tab, a left tab stays listed. Missing: selections in the text box; hashes with separators in the filters (C94)."},
"C112": {"status": "partial", "note": "Proved: the ports chosen; a page runs only with both connections opened and starts whenever both open without a close; delivery in order; reload after a close; no other reload. False of the code and proved so: a close before the worker is ready leaves the page stuck; https with the package's own port names; 'data' in a name; a tab named reload. Missing: initialisation of tabs that waits (no script of the package does)."},
"C113": {"status": "partial", "note": "all proved but for clearing, which is proved for names that cannot be confused with boxes (C113_clear_partial) and fails otherwise (C113_clear_fails)"},
"C114": {"status": "partial", "note": "Proved: normalisation, names, texts, endpoints, answers, probes. Sockets are closed exactly but for failed calls (C114_closed_partial); false parts are C114_port_fails, C114_family_fails, C114_tuple_fails, C114_stale_fails, C114_closed_fails, C114_option_fails."},
"C115": {"status": "partial", "note": "Log messages proved. Values reach their rows if no channel has a name with a meaning in messages (C115_message_partial); otherwise false: C115_values_fails, C115_rows_fails, C115_logged_fails."},
"C116": {"status": "partial", "note": "Names, metrics, the poll command, sources of floats and the order of final polls are proved outright; that the reason of a stop comes out holds only if no final poll raises (C116_exception_partial; C116_masked_fails and C116_unbuilt_fails show the rest). Integer sources, extra outputs and names with dots fail (C116_integer_fails, C116_extra_fails, C116_dots_fails)."},
"C117": {"status": "partial", "note": "Configuration, registration, arrival, precedence, other paths and addresses are proved; false of the code: spellings of one path (C117_alias_fails), a second application (C117_second_fails), cycles (C117_loop_fails), a configuration without ports (C117_ports_fails)."},
"C118": {"status": "partial", "note": "Proved for all dictionaries; refuted: a key without a certificate is handed on to the socket (C118_keyfile_fails), a false use_ssl does not switch TLS off (C118_off_fails), servers may have TLS without certificate (C118_bare_fails), the TCP loopback client never uses TLS (C118_loop_tcp_fails). The ssl module itself is not modelled."},
"C119": {"status": "partial", "note": "Proved for all clean files and names; names with quotes, line breaks, end tags or comment starts break the page and are refuted (C119_quote_fails, C119_break_fails, C119_cut_fails, C119_swallows_fails). Only scripts of the document are modelled, and escapes of one character."},
"C120": {"status": "partial", "note": "Language, registries, namespaces and words proved; refuted: channels named like options cannot be commanded (C120_option_fails), dots in names make namespaces collide (C120_collision_fails). Letters beyond ASCII are a parameter."},
"C121": {"status": "partial", "note": "Order, sizes and delay proved for all histories; a flush count of zero ends the task (C121_zero_fails) and the queue of commands only grows (C121_queue_fails): defects of the code. Missing: the connection going down."},
"C122": {"status": "partial", "note": "Proved for all interleavings: closing, order, single processing, progress, leaving, ending. False of the code and proved so: with auto_restart a closed websocket connection makes the manager loop for ever (C122_spin_fails); after a message handler raised a close is not noticed (C122_unnoticed_fails)."},
"C123": {"status": "partial", "note": "All but the last sentence holds and is proved for every outcome of the parts (C123_home, _runs, _exit, _arbiter, _window, _jit, _task, _server, _quiet). False: the status of a transfer is inverted (C123_tftp_fails), an exception other than SystemExit leaves the other directory (C123_home_fails), SystemExit without code is 1 (C123_none_fails), multiples of 256 are lost (C123_arbiter_fails)."},
"C124": {"status": "partial", "note": "Proved: C124_stages, _wait_last, _zero_waits, _kept, _first_failure for all configurations. False: with the flag the own application is not run if none is configured (C124_own_fails), and a list in the configuration is appended to (C124_config_fails)."},
"C125": {"status": "partial", "note": "Proved: C125_visible, C125_follow, C125_released for all events. The last sentence is false: C125_drift_fails, C125_double_fails, C125_edge_fails (each for all states with the stated room)."},
"C126": {"status": "partial", "note": "Proved: C126_samples, _silent, _retuned, _connected for all inputs and orders, and C126_toggle for clicks one after the other (any number). Missing: the last sentence is false for clicks that overlap (C126_toggle_fails)."},
"C127": {"status": "partial", "note": "True for defaults given with their type (set, value, init, create, reload, event, period, button). False of the code: out of range, refused and cleared defaults, whole number periods (four _fails theorems)."},
"C128": {"status": "partial", "note": "Comparison with data and membership by identity hold; comparing two items raises TypeError (C128_items_fails)."},
"C129": {"status": "partial", "note": "Holds for channels made by the function of their type and for loaded environments; false for channels made by channel() and for refused creations (two _fails theorems)."},
"C13": {"note": "No overlap holds for every history. The exact acceptance criterion holds for histories without failed calls; C13_failed_call_leaks_fails and C13_duplicate_flag_fails show the code's exceptions."},
"C130": {"status": "partial", "note": "Proved for rising linear scalings (floats always, integers for values a raw value has, and away from the nearest raw value), for equality of floats, isclose, enumerations without scaling and all samples. False of the code: falling scalings, other values on integers, slope 0 and three terms, enumerations with scaling (four _fails theorems)."},
"C131": {"status": "partial", "note": "The path is read back whatever backslashes it has (C131_path); the name only if it has no quote, backslash or line end (C131_name_partial). The three other kinds of names are shown to fail: code injection, changed name, unreadable script."},
"C132": {"status": "partial", "note": "Holds for callbacks registered before every assigning one, whatever the nesting (C132_first_partial, C132_last_partial), and when all callbacks only look (C132_passive, C132_called). False otherwise: later callbacks end with a stale value, and raising, registering or removing inside a callback stops the loop (five _fails theorems)."},
"C133": {"status": "partial", "note": "Registration (C133_group, C133_register), stopping (C133_stop) and the context around any body for an idle group (C133_running) are proved. A group with a task that cannot be started again leaves the others running (C133_start_fails)."},
"C134": {"status": "partial", "note": "Proved for classes with names in upper case (C134_items, C134_roundtrip, C134_name, C134_apart). Members with small letters, aliases and names that differ in case only are shown to fail (C134_small_fails, C134_alias_fails, C134_case_fails)."},
"C135": {"status": "partial", "note": "Proved for bodies that end after the processing task has taken the connection (C135_disabled_partial, C135_left_partial, C135_begun). Bodies that end before, or during a restart, have the connection restarted behind them (three _fails theorems); if restarting keeps failing it ends after the given number of tries (C135_gives_up)."},
"C136": {"status": "partial", "note": "false for a name shared by a channel and a field, and for two fields of a name; proved otherwise"},
"C15": {"status": "partial", "note": "Holds for all histories with positive widths and zero padding; C15_nonzero_padding_fails and C15_zero_width_fails show that the code loses the rest."},
"C16": {"note": "Every mapping that was constructed or loaded without an exception; C16_refused_pairing_fails shows that a mapping kept in use after a refused load is no bijection."},
"C18": {"note": "C18_failed_creation_leaks_fails: a creation from data that raises leaves its name bound without an item."},
"C19": {"status": "partial", "note": "Integer enumerations in full. Boolean ones except for the general boolean words, which are accepted although they are no members (C19_boolean_words_fails)."},
"C20": {"note": "Proved for little, big and network order; native order adds alignment bytes, so the size differs: C20_native_fails."},
"C21": {"note": "C21_inside_repeated_fails: positions inside a run added with array_length are not recorded, so looking up such a position or starting a fragment there raises KeyError."},
"C22": {"note": "For chains whose arrays do not use native order and whose prefixed chunks have a matching prefix. A prefixed chunk's prefix primitive is private to it in the model."},
"C23": {"note": "Copy, append, and independence of copy and original over arbitrary later operation histories."},
"C24": {"note": "C24_refused_update_fails: an update refused for length after the prefix changed leaves the chunk inconsistent."},
"C25": {"status": "partial", "note": "Holds for ASCII text that fits the length prefix; C25_round_trip_iff is the exact characterisation, C25_non_ascii_fails and C25_too_long_fails the code's exceptions (the prefix counts characters, not bytes)."},
"C26": {"note": "For unchained instances. C26_chain_fails: a chained instance is framed with its head only. C26_set_mtu_drops_fails: changing the MTU discards pending samples."},
"C27": {"note": "Structs without native order; loss or reordering of datagrams by the network is outside the model."},
"C28": {"note": "Round trip between two instances built by any steps in any worlds, for every name; independence of set, and reading back, for fields, bit-fields and chunks. Names of arrays added as serializables show the fields added behind them (C28_array_shows_field_fails)."},
"C29": {"status": "partial", "note": "C29_copy_partial and C29_json_partial hold for protocols built by any sequence of additions within stated conditions. The unrestricted statement is false of the code and refuted by the _fails theorems: the copy of a copy has no regular fields, a repeated serializable name cannot be copied, fields behind an array serializable are doubled, the array length of a serializable is dropped, and JSON refuses serializables and drops array lengths."},
"C30": {"note": "For every unsigned prefix kind, byte order, list of messages whose lengths the prefix can hold and chunking of a prefix of the stream (C30_received, C30_all_received); chunk independence for arbitrary bytes (C30_cut_independent). A message of 2^width bytes is announced as empty (C30_overlong_fails)."},
"C31": {"status": "partial", "note": "False of the code: after a consumer stops right after a message, the next bytes are taken for a message of the same length (C31_abandoned_fails, for all messages), and an unstarted generator drops its data (C31_unstarted_fails). What holds: a consumer that lets the generator finish (C31_exhausted_partial)."},
"C32": {"note": "Refinement of the callback/byte model to an abstract record of changes for all histories of registrations, changes and periods (C32_history); every change is recorded without periods (C32_every_change); leaving by exception leaks (C32_abort_fails)."},
"C33": {"status": "partial", "note": "Cut independence for all cuts outside (end of header, end of value) (C33_cut_partial); at the other cuts, and after an abandoned iteration, the parser is stuck for ever (C33_cut_in_value_fails, C33_abandoned_fails)."},
"C34": {"note": "C34_rate, for all histories between registration and leaving; the first value is not recorded if the clock is below the period (C34_first_fails)."},
"C35": {"note": "Read-back for every kind (integers in range exactly, saturating through the scaled setter and wrapping through the raw one; truth values; floats up to storage rounding; linear scalings to the nearest representable value; enumerated names; fields modulo 2^width), by name or identifier, and a frame theorem for every key that shares no storage bit. Float arithmetic is exact rational arithmetic with an abstract storage rounding."},
"C36": {"status": "partial", "note": "C36_restore_partial/C36_history_partial: after any history applying an export restores every key whose exported value was not NaN, for channels without scaling or with an invertible linear one, whatever primitives are shared. The unrestricted statement is false: NaN channels, constant scalings, polynomials of degree two and more, integer enumerations on boolean channels (the _fails theorems)."},
"C37": {"status": "partial", "note": "Proved for every environment, argument and hook list: refusal, failure, success, remote, get, toggle. C37_only_target_partial needs the name not to be both a channel and a field; when it is, the channel's flag is checked but the field is set (C37_shadowed_fails)."},
"C38": {"note": "For every file and positive block size: blocks in order concatenate to the file, all full but the last, which is shorter; counts. Block size 0 never ends well (C38_zero_fails)."},
"C39": {"note": "Arbitrary network (any sent datagram delivered any time, any number of times). Reader output always a prefix; success means the whole file; some schedule succeeds. Findings: server never reports success, >= 2^16 blocks never complete, a stale block of another transfer is accepted."},
"C40": {"status": "partial", "note": "Requests without NULs, data and acks round-trip for all inputs; error messages come back with the terminating NUL (C40_error_fails)."},
"C41": {"status": "partial", "note": "False of the code: any place can be named by an absolute name or by parent components (C41_*_fails); relative names that never climb above their start stay inside."},
"C42": {"note": "The received headers and bodies do not depend on how the stream is cut, for every byte stream and every header language; legal messages come back in order. Found: after a header that fails to parse, the collected lines stay and every later request is refused (C42_bad_request_fails), and a consumer that stops at a yield leaves the header in place (C42_stopped_fails)."},
"C43": {"note": "Requests and responses written by _send come back field for field with their bodies, for every method, accepted target, version, known status, legal reason and legal fields. Found: non-ASCII text cannot be read back (C43_non_ascii_fails) and line ends in a value are not refused (C43_injection_fails)."},
"C44": {"status": "partial", "note": "Every stream of elements is split as written and every byte stream is accounted for, within one call; pieces cut between elements add up. In full it is false: a command cut in two is lost (C44_cut_fails), and a restored 255 always raises (C44_escaped_fails)."},
"C45": {"status": "partial", "note": "For one end and any peer: a request is completed only by the first later message carrying its identifier, once, with its content, and never fails for want of bookkeeping; between a program and its peer process the content is what the other end's handlers returned for that very request. In full it is false: two network ends take each other's requests for replies (C45_collision_fails), and a time-out leaks its entry (C45_leak_fails)."},
"C46": {"status": "partial", "note": "Distinctness for one interface and disjointness for subprocess peers; false for network connections (C46_network_fails)."},
"C47": {"status": "partial", "note": "Requests between subprocess peers cause at most two messages each, and messages without identifier die out unless they contain a loopback; a stray identifier or a bare loopback goes on for ever (C47_stray_fails, C47_loopback_fails, C47_bare_loopback_fails)."},
"C48": {"status": "partial", "note": "Agreement of flag and event, one run of the extra actions per enabled period, and idempotence, for every history. No task left running holds for orderly histories (no overlapping process calls): C48_tasks_fails. Further defects: initialised after a failed initialisation, and forced writes to the enabled channel break the agreement."},
"C49": {"status": "partial", "note": "Order and at-most-once for every history with failed and interrupted sends; exactness and progress when no send is interrupted. False of the code otherwise: an interrupted send is lost, a raising send kills the writer, two overlapping process calls reorder (the _fails theorems)."},
"C50": {"note": "For every sequence of outcomes and stop times. Two defects are stated: the channel named restart_attempts publishes the number of restarts, and an attempt goes on when someone else has enabled the connection."},
"C51": {"status": "partial", "note": "The bound for all parameters; growth is false of the code for every positive interval and maximum (C51_growth_fails, C51_drops_fail), and the growth there is is linear (C51_linear)."},
"C52": {"status": "partial", "note": "Dropping, keeping, accepting and starting for every round and history. At most one task holds for calm histories (no round finds a managed auto-restart connection disabled while its task is alive) and is false otherwise (C52_single_fails)."},
"C53": {"status": "partial", "note": "Stop signal, stops during the sleep, raising dispatches and pauses for every sequence. A False result ends the task only when no stop signal was supplied, and a disable during a dispatch is overwritten (C53_false_fails, C53_disable_fails); after a raising dispatch the task cannot be started again (C53_rerun_fails)."},
"C54": {"status": "partial", "note": "At most, and exactly, the limit for limits up to 255; false above (C54_limit_fails)."},
"C55": {"status": "partial", "note": "Order, stopping, recording and summary for every stage list and outcome. The exit code is right when no application returns a negative code, and false of the code when codes cancel (C55_cancel_fails). One raising application blames its whole stage; application stages go unrecorded when the initialisation fails."},
"C56": {"note": "Order, each once and no retry, for every interleaving with any number of processors; what is behind a raising command is kept. A raising command leaves Queue.join waiting (C56_join_fails)."},
"C57": {"note": "Path lookup decided exactly by the parts, for every path."},
"C58": {"note": "Traversal finds exactly the value at a path, or names the first missing key, for every JSON document. Two code defects are stated: the empty key is unreachable and the error reply is ambiguous."},
"C59": {"note": "Counters for every history of increments, polls and resets, and the copy by update. The message rate survives a reset and a poll publishes kbps without the factor eight (the _fails theorems)."},
"C60": {"note": "For every program over the object, with nested contexts, failures and handlers. Inside a bypass a strict second finalisation succeeds (C60_strict_fails)."},
"C61": {"status": "partial", "note": "Inside for every history of fair operations (no negative targets, no window smaller than the position). False of the code otherwise (the _fails theorems)."},
"C62": {"status": "partial", "note": "Forms, authorities and origin forms with at most one question mark are recovered; the statement in full is false: a query is cut at a second question mark (C62_query_fails)."},
"C64": {"status": "partial", "note": "Proved for executions delivering the write request once; false in general (C64_lost_fails, C64_empty_fails)."},
"C65": {"status": "partial", "note": "Transcripts in every layout and cutting at line ends, and agreement of channels with known states for any text. False of the code: a prompt in front of an echo derails the pairing (C65_prompt_fails), a reply cut in two is taken for complete (C65_cut_fails), too many states raise and leave the query unsignalled (C65_too_many_fails), the index behind the last outlet raises (C65_index_fails), after a time-out the next command answers from stale states (C65_stale_fails), and after a marked line with an unknown code every later marked line raises (C65_noise_fails)."},
"C66": {"status": "partial", "note": "Order and conservation for every history; the own reply for histories without time-outs whose device answers exactly what was asked. A late or unasked reply shifts all later ones (C66_late_fails, C66_unasked_fails)."},
"C67": {"status": "partial", "note": "Acceptance is characterised exactly (C67_when) and every refusal is an assertion (C67_refused). That each bit-fields primitive occurs once is false of the code (C67_repeated_fails: k fields give k copies, since curr_fields is never assigned); it holds when no two names share a primitive (C67_once_partial)."},
"C68": {"status": "partial", "note": "Proved for histories of successful, apt calls and unscaled channels; scaled channels lose their scaling and their raw value (C68_scaling_fails, C68_no_scaling), NaN values are not exported, a channel whose enumeration is unknown stays after the exception and makes the export unloadable (C68_dangling_fails), add_field does not claim bits (C68_overlap_fails), a field added late is not found until export (C68_late_field_fails), and every export adds the waiting groups once more (C68_grows_fails)."},
"C69": {"status": "partial", "note": "Delivery, observers and currency are proved for browsers that alternate between shown and hidden (currency also: fetch a frame before hiding) and for values that have a rendering and are not NaN. The five ways in which the code falls short are proved for every reachable state (C69_*_fails). Transport and the page's scripts are assumed to keep the last value received."},
"C70": {"status": "partial", "note": "Proved: requests without a second leading slash, with a name and with no '..' above their start depend only on files inside the search directories (two file systems agreeing there give the same answer); files inside are served with their contents; redirects, data, applications and the 404 redirect in order; POST commands. False in full, proved universally: a second leading slash serves any plain file on the machine, so do '..' components, '/' serves the markdown file beside the first search directory, name.md shadows every name.*, encoded files raise, no file under /favicon is reachable, empty and '.' components are dropped from POST commands."},
"C71": {"status": "partial", "note": "Proved by induction over all event sequences in which the task awaiting a response is not cancelled and the peer sends no request meanwhile (cancelling tasks still waiting at the semaphore is allowed). False otherwise, proved from every reachable state: after cancelling an awaiting task every later request gets its predecessor's response for ever, or the unexpected response is parsed as a request and ends processing; a request of the peer arriving meanwhile ends processing. Every response is refused by the request parser and vice versa."},
"C72": {"status": "partial", "note": "Order and at-most-once hold over every history; exactly once and progress while handlers succeed and the connection is not disabled. In full false: a raising handler leaves an enabled connection nobody reads, and messages queued when the connection is disabled are never handled."},
"C73": {"status": "partial", "note": "C73_add over every history; sums with final sizes when types are complete before use (C73_sizes_partial); look-up and uniqueness for names proper that are no primitive's. In full false: a type used as a field and grown later, types named like a primitive below a root namespace (registered again and again, never found), global enumerations hiding namespaced types, refused enumerations keeping their name, a global type ByteOrder. Namespace.search of vcorelib is abstract (structure Search)."},
"C74": {"status": "partial", "note": "False as a whole: names are only checked within a kind, so start-up can raise after every registration was accepted (C74_clash_fails, C74_housekeeping_fails). C74_start_partial needs names unique across kinds; the characterisation is exact. Factories and the construction of the objects are not modelled."},
"C75": {"status": "partial", "note": "C75_stdout and C75_counted hold outright. Events need chunks that do not end inside a value (C75_stderr_partial, C75_servicing_partial; C75_cut_fails shows what happens otherwise). False at the edges: C75_stray_fails, C75_early_fails, C75_dropped_fails, C75_late_fails, C75_stderr_only_fails."},
"C76": {"status": "partial", "note": "C76_once and C76_eventually hold outright for files that only grow. One line per dispatch holds only for whole non-blank lines (C76_lines_partial); C76_blank_fails, C76_torn_fails and C76_replaced_fails show the rest. Newline translation and decoding are not modelled."},
"C77": {"status": "partial", "note": "Connected sockets keep their peer through any history (C77_connected, C77_remote), a given local port stays (C77_local), messages are processed in order and once (C77_order) and C77_disabled lists every cause of a disable. False of the code: an unconnected UDP connection loses its remote address with its first restart and then counts what it does not send; a free port changes; waiting messages of a replaced transport are lost; the late end of a replaced TCP transport disables the restarted connection; a connection disabled before it is processed leaves its transport open; the server's side raises at every restart."},
"C78": {"status": "partial", "note": "C78_polls and C78_simulated hold for any number of steppers whose structs neither raise nor are steppers; C78_source_partial holds with one stepper. False of the code: time_s is one step behind after a simulated iteration; two steppers lose the time source; a derived stepper polls itself without end; a raising struct cuts the iteration and the rest of the count. Assumed: vcorelib's SimulatedTime adds its step, set_simulated_source and restore_time_source replace one global source."},
"C79": {"status": "partial", "note": "For datagrams of whole messages and handlers that neither raise nor refuse the property holds (C79_intact, C79_sent, C79_echo); for arbitrary datagrams only the messages of the concatenated stream are right (C79_stream). The attribution fails for cut messages (C79_split_fails), a stray prefix silences all peers (C79_stray_fails), a raising handler ends the reader of an enabled connection (C79_raise_fails), and the default address is not the remote address (C79_default_fails)."},
"C80": {"status": "partial", "note": "Holds for whatever arrives of the sender's own datagrams (C80_lossy, C80_sequence, C80_connected, C80_assign). It does not for a datagram of another length (C80_length_fails), a stray one that fits (C80_stray_fails), a socket that is not connected (C80_unconnected_fails) and the MTU probe (C80_probe_fails)."},
"C81": {"note": "Acceptance and contents for every configuration; importing, snake case and name joining are parameters; counterexamples for rollback, leaks, clashes, search order and constructor configuration."},
"C82": {"status": "partial", "note": "Entry and refusal hold for every schedule; that starting always ends is false (C82_server_fails, C82_cut_fails), as is that every connection entered with was initialised successfully (C82_restarted_fails)."},
"C83": {"status": "partial", "note": "Membership, multiplicity and single hold as stated; narrowing by names fails (C83_names_fails, C83_single_fails, C83_other_fails), as does finding a connection with two names once (C83_twice_fails)."},
"C84": {"status": "partial", "note": "Modelled: both directions, both queues, reading and writing tasks, echo, counters. Missing: sends cut off by disable half-way, handlers that raise, the protocol library itself. Order across types, counting of refused messages and loss at disable are refuted."},
"C85": {"status": "partial", "note": "Proved for every configuration and command line with assumed variable resolution (vcorelib) and arbitrary sockets. Refuted: variables before a path or in a server's host text, distinct ports, repeated names, the host for UDP, TLS loopback. Missing: included files, markdown, whether host and loopback address meet."},
"C86": {"status": "partial", "note": "Proved: the count (to eight bits), at most one polling connection with up to 255 at once, and that a connection alone polls. Refuted: that one polls at all when the first of three leaves; at most one with 257. Missing: a replaced UI struct, other metrics."},
"C87": {"status": "partial", "note": "C87_text, C87_effect, C87_in_order and C87_unknown hold for arguments that do not look like flags. Custom commands run at the wrong program (C87_custom_fails), the sender is told success at once (C87_result_fails), flag-like arguments are misread at the peer (C87_bounce_fails). Time-outs of the request are not modelled."},
"C88": {"status": "partial", "note": "Proved for a session without an environment known by two selected names that ends normally. Fails after an exception (recorded channels stay unusable, no metadata), for environments with two names, for a file name other than the default when loading, and for bit-fields."},
"C89": {"status": "partial", "note": "Copy and completion proved. Completion needs the absence of time-outs: after one at the start the program waits for ever. The program's copy of the host is never updated, and a second exchange raises."},
"C90": {"status": "partial", "note": "C90_isolated_partial: with any history (unknown opcodes aside) the endpoints of a host and everything sent to it are as if only that host's events had happened. C90_read_follows, C90_write_follows, C90_stranger: routing of one transfer per host. The code breaks it for concurrent transfers with one host, after a timed-out read, for a server that changes back to the asked port, and for unknown opcodes (C90_same_host_fails, C90_stale_fails, C90_port_fails, C90_unknown_fails)."},
"C91": {"status": "partial", "note": "Proved for names of one thing (channel or field), numbers and defaults that fit without scaling, enumerations without entries named like another's number. False otherwise: C91_scaled_reset_fails, C91_enum_reset_fails, C91_numeric_name_fails."},
"C92": {"status": "partial", "note": "C92_screen says exactly what is shown after any updates in a window with room for all texts. The claim holds when no earlier text of the channel was longer (C92_shows_partial), hence for integers of up to five characters and truth values (C92_short). False otherwise: C92_stale_fails, C92_enum_fails, C92_resize_fails, C92_overflow_fails, C92_wide_fails."},
"C93": {"status": "partial", "note": "Setup, freshness, stability of cached pages and the list of tabs hold outright. Own pages need distinct names of composing functions, lookup of elements needs names that do not collide with the page's own identifiers, and the filter needs names without hyphens; the failures are theorems."},
"C94": {"status": "partial", "note": "Proved for names and filters without separators and characters a URL encodes, for a shown tab not named like an option, and for a new window opened while the tabs are shown. The other cases fail, which is proved."},
"C95": {"status": "partial", "note": "The ring, its order and the drawing are proved. Refuted: a change of capacity loses the newest point of a buffer that is not full, a new extreme is drawn outside the plot, an unchanged value is not drawn, a line shorter than its buffer shows the oldest points."},
"C96": {"status": "partial", "note": "Boxes, points, span and lengths of lines are proved for tabs with a plot. Refuted: a channel switched on and off before its tab is first shown is plotted anyway, and a fifth tab never gets a plot."},
"C97": {"status": "partial", "note": "Order, completeness of a round and draining proved for all interleavings; robustness against a raising handler, a cancelled connection task and a long one is false and refuted (C97_raise_fails, C97_cancel_fails, C97_blocked_fails)."},
"C98": {"status": "partial", "note": "Cells, marks, texts and input proved for all histories; NaN or infinity in a message, digit-led names, integers beyond 2^53, updates while typing and tabs shown again are refuted with universal counterexamples."},
"C99": {"status": "partial", "note": "Calls during a dispatch or during another call break it: C99_shield_fails, C99_overlap_fails, C99_lost_fails."}
}
