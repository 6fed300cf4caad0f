# Axioms

Reported by `#print axioms` for all 1134 theorems of `MANIFEST.json`
(regenerate with `python3 tools/axioms.py` after a build). Nothing else occurs.

## none

* `Verif.Prim.C06_reported_value_fails`
* `Verif.Wire.C08_bounds`
* `Verif.Eval.C10_prefix`
* `Verif.Task.C53_paused`
* `Verif.Metrics.C59_reset_rate_fails`
* `Verif.Metrics.C59_zero`
* `Verif.Finalize.C60_no_nesting`
* `Verif.Restart.C77_ends`
* `Verif.Arbiter.Config.C81_unloaded_fails`
* `Verif.Arbiter.Startup.C82_cases`
* `Verif.Net.Mirror.C89_cases`
* `Verif.Tftp.Endpoints.C90_unknown_fails`
* `Verif.Tftp.Endpoints.C90_cases`
* `Verif.Points.C95_cases`
* `Verif.Slider.C108_period_partial`
* `Verif.Server.Scripts.C119_break_fails`
* `Verif.Flush.C121_cases`
* `Verif.Served.C122_cases`
* `Verif.Served.C122_spin_cases`
* `Verif.Served.C122_leave_cases`
* `Verif.Apps.C124_cases`
* `Verif.Divider.C125_cases`
* `Verif.Defaults.C128_items_fails`
* `Verif.Scoped.C135_cases`

## `Quot.sound`

* `Verif.Finalize.C60_finalises`

## `propext`

* `Verif.Wire.C02_orders`
* `Verif.Prim.C04_raising_callback`
* `Verif.Eval.C09_operators`
* `Verif.Bits.C11_overhanging_field_fails`
* `Verif.Bits.C13_failed_call_leaks_fails`
* `Verif.Bits.C13_duplicate_flag_fails`
* `Verif.Bits.C15_nonzero_padding_fails`
* `Verif.Bits.C15_zero_width_fails`
* `Verif.Bits.C15_empty_name`
* `Verif.Bits.C15_padding_refused`
* `Verif.Registry.C16_refused_pairing_fails`
* `Verif.Registry.C18_failed_creation_leaks_fails`
* `Verif.Registry.C19_integer`
* `Verif.Registry.C19_boolean_partial`
* `Verif.Registry.C19_boolean_words_fails`
* `Verif.Serial.C20_native_fails`
* `Verif.Serial.C21_positions`
* `Verif.Serial.C21_open_end`
* `Verif.Serial.C21_inside_repeated_fails`
* `Verif.Serial.C24_refused_update_fails`
* `Verif.Serial.C26_flush`
* `Verif.Serial.C26_chain_fails`
* `Verif.Serial.C26_set_mtu_drops_fails`
* `Verif.Protocol.C29_second_copy_fails`
* `Verif.Protocol.C29_second_copy_size_fails`
* `Verif.Protocol.C29_array_doubled_fails`
* `Verif.Protocol.C29_array_length_fails`
* `Verif.Event.C32_abort_fails`
* `Verif.Json.C47_answered`
* `Verif.Net.C49_order`
* `Verif.Net.C49_exact`
* `Verif.Net.C49_progress`
* `Verif.Net.C49_interrupted_fails`
* `Verif.Net.C49_writer_dies_fails`
* `Verif.Net.C49_two_writers_fails`
* `Verif.Net.C52_dropped`
* `Verif.Net.C52_kept`
* `Verif.Net.C52_accepted`
* `Verif.Net.C52_started`
* `Verif.Task.C53_signal`
* `Verif.Task.C53_asleep`
* `Verif.Task.C53_raised`
* `Verif.Task.C53_false_partial`
* `Verif.Task.C53_restart`
* `Verif.Task.C53_rerun_fails`
* `Verif.Task.C53_rerun_partial`
* `Verif.Task.C54_init`
* `Verif.Task.C54_disable_fails`
* `Verif.CommandQueue.C56_order`
* `Verif.CommandQueue.C56_call`
* `Verif.CommandQueue.C56_calls`
* `Verif.CommandQueue.C56_drains`
* `Verif.CommandQueue.C56_raises`
* `Verif.Server.C57_present`
* `Verif.Server.C57_parts`
* `Verif.Server.C57_absent`
* `Verif.Server.C57_present_text`
* `Verif.Finalize.C60_strict`
* `Verif.Finalize.C60_strict_fails`
* `Verif.Finalize.C60_exceptions`
* `Verif.Http.C62_authority_refused`
* `Verif.Http.C62_origin`
* `Verif.Http.C62_path`
* `Verif.Http.C62_query_fails`
* `Verif.Tftp.Writes.C64_duplicate_fails`
* `Verif.Scpi.C66_unasked_fails`
* `Verif.Server.Files.C70_post_dropped_fails`
* `Verif.Http.Client.C71_own_partial`
* `Verif.Http.Client.C71_order_partial`
* `Verif.Net.Incoming.C72_order`
* `Verif.Net.Incoming.C72_raised_fails`
* `Verif.Net.Incoming.C72_interrupted_fails`
* `Verif.Net.Incoming.C72_refused`
* `Verif.Net.Incoming.C72_cases`
* `Verif.Arbiter.Names.C74_cases`
* `Verif.Restart.C77_cases`
* `Verif.Stepper.C78_cases`
* `Verif.Telemetry.C80_assign`
* `Verif.Telemetry.C80_connected`
* `Verif.Telemetry.C80_unconnected_fails`
* `Verif.Telemetry.C80_cases`
* `Verif.Arbiter.Startup.C82_restarted_fails`
* `Verif.Event.Record.C88_alias_fails`
* `Verif.Net.Mirror.C89_other_way_fails`
* `Verif.Tftp.Endpoints.C90_stranger`
* `Verif.Pages.C93_fresh`
* `Verif.Plots.C96_cases_five`
* `Verif.Floats.C100_twice_fails`
* `Verif.Floats.C100_zero_fails`
* `Verif.Floats.C100_equal_transitive_fails`
* `Verif.Floats.C100_cases`
* `Verif.Driven.C102_flush_zero_fails`
* `Verif.PeerEnd.C103_tasks`
* `Verif.Leaving.C104_cancelled`
* `Verif.Leaving.C104_swallowed_fails`
* `Verif.Leaving.C104_cases`
* `Verif.Hosts.C114_equal`
* `Verif.Hosts.C114_port_fails`
* `Verif.Hosts.C114_family_fails`
* `Verif.Hosts.C114_zero`
* `Verif.Hosts.C114_local`
* `Verif.Hosts.C114_cases`
* `Verif.Logs.C115_clear`
* `Verif.Structs.C116_finalized`
* `Verif.Structs.C116_dots_fails`
* `Verif.Server.Prefixes.C117_kept`
* `Verif.Tls.C118_restart`
* `Verif.Names.C120_apart`
* `Verif.Names.C120_collision_fails`
* `Verif.Flush.C121_zero_fails`
* `Verif.Programs.C123_home`
* `Verif.Programs.C123_home_fails`
* `Verif.Programs.C123_runs`
* `Verif.Programs.C123_exit`
* `Verif.Programs.C123_none_fails`
* `Verif.Programs.C123_arbiter_fails`
* `Verif.Programs.C123_tftp_fails`
* `Verif.Programs.C123_tftp_raised`
* `Verif.Programs.C123_window`
* `Verif.Programs.C123_server`
* `Verif.Apps.C124_own_fails`
* `Verif.Apps.C124_config_fails`
* `Verif.Apps.C124_kept`
* `Verif.Apps.C124_first_failure`
* `Verif.Divider.C125_edge_fails`
* `Verif.Audio.C126_toggle_fails`
* `Verif.Reentrant.C132_first_partial`
* `Verif.Reentrant.C132_last_partial`
* `Verif.Reentrant.C132_passive`
* `Verif.Reentrant.C132_raises_fails`
* `Verif.Reentrant.C132_case`
* `Verif.Reentrant.C132_five`
* `Verif.Reentrant.C132_cases`
* `Verif.Group.C133_period`
* `Verif.Scoped.C135_disabled_partial`
* `Verif.Scoped.C135_begun`
* `Verif.Scoped.C135_order`
* `Verif.Scoped.C135_raises_fails`
* `Verif.Shared.C136_refused`
* `Verif.Shared.C136_cases`

## `Quot.sound`, `propext`

* `Verif.Eval.C09_momentary_success_fails`
* `Verif.Bits.C13_default_is_next`
* `Verif.Bits.C13_finalized`
* `Verif.Bits.C13_position`
* `Verif.Registry.C17_auto_above`
* `Verif.Serial.C21_fragment_update`
* `Verif.Serial.C21_fragment_created`
* `Verif.Serial.C21_all_positions`
* `Verif.Serial.C23_append`
* `Verif.Serial.C26_frames`
* `Verif.Serial.C26_full`
* `Verif.Serial.C27_reject`
* `Verif.Serial.C27_poll`
* `Verif.Serial.C27_sequence`
* `Verif.Protocol.C28_groups_ok`
* `Verif.Message.C31_unstarted_fails`
* `Verif.Message.C31_exhausted_partial`
* `Verif.Event.C32_every_change`
* `Verif.Event.C34_first_fails`
* `Verif.Environment.C35_shadowed_fails`
* `Verif.Tftp.C38_chunks`
* `Verif.Tftp.C38_zero_fails`
* `Verif.Tftp.C39_server_once`
* `Verif.Tftp.C39_server_serves`
* `Verif.Tftp.C41_inside_partial`
* `Verif.Tftp.C41_plain_partial`
* `Verif.Tftp.C41_parent_fails`
* `Verif.Telnet.C44_cut_fails`
* `Verif.Json.C45_written`
* `Verif.Json.C45_leak_fails`
* `Verif.Json.C45_collision_fails`
* `Verif.Json.C46_distinct`
* `Verif.Json.C46_subprocess`
* `Verif.Json.C46_network_fails`
* `Verif.Json.C47_dies_out_partial`
* `Verif.Json.C47_bare_loopback_fails`
* `Verif.Json.C47_stray_fails`
* `Verif.Json.C47_loopback_fails`
* `Verif.Net.C48_consistent`
* `Verif.Net.C48_extras`
* `Verif.Net.C48_idempotent`
* `Verif.Net.C48_tasks_partial`
* `Verif.Net.C48_tasks_fails`
* `Verif.Net.C48_initialized_fails`
* `Verif.Net.C48_own_tasks`
* `Verif.Net.C48_forced_fails`
* `Verif.Net.C50_restarts_enabled_fails`
* `Verif.Net.C51_bounded`
* `Verif.Net.C51_growth_fails`
* `Verif.Net.C51_linear`
* `Verif.Net.C51_drops_fail`
* `Verif.Net.C52_single_partial`
* `Verif.Net.C52_single_fails`
* `Verif.Task.C53_false_fails`
* `Verif.Task.C53_disable_fails`
* `Verif.Task.C54_limit_fails`
* `Verif.Arbiter.C55_order`
* `Verif.Arbiter.C55_recorded`
* `Verif.Arbiter.C55_results`
* `Verif.Arbiter.C55_summary`
* `Verif.Arbiter.C55_exit_partial`
* `Verif.Arbiter.C55_cancel_fails`
* `Verif.Arbiter.C55_blame_fails`
* `Verif.Arbiter.C55_check`
* `Verif.Arbiter.C55_main`
* `Verif.Arbiter.C55_unrecorded_fails`
* `Verif.CommandQueue.C56_not_retried`
* `Verif.CommandQueue.C56_join_fails`
* `Verif.Metrics.C59_poll_fails`
* `Verif.Metrics.C59_rates`
* `Verif.Finalize.C60_one_way`
* `Verif.Finalize.C60_bypass_ends`
* `Verif.Finalize.C60_bypass_hides`
* `Verif.Cursor.C61_stuck_fails`
* `Verif.Http.C62_forms`
* `Verif.Np05b.C65_agree`
* `Verif.Np05b.C65_prompt_fails`
* `Verif.Np05b.C65_noise_fails`
* `Verif.Scpi.C66_conserved`
* `Verif.Scpi.C66_own_reply_partial`
* `Verif.Scpi.C66_late_fails`
* `Verif.Scpi.C66_items`
* `Verif.Server.Files.C70_post_partial`
* `Verif.Http.Client.C71_answered_partial`
* `Verif.Http.Client.C71_cancelled_fails`
* `Verif.Http.Client.C71_unexpected_fails`
* `Verif.Http.Client.C71_peer_fails`
* `Verif.Http.Client.C71_cases`
* `Verif.Net.Incoming.C72_exact_partial`
* `Verif.Net.Incoming.C72_progress_partial`
* `Verif.Net.Incoming.C72_disabled_fails`
* `Verif.Net.Incoming.C72_restart`
* `Verif.Codec.C73_growth_fails`
* `Verif.Arbiter.Names.C74_registered`
* `Verif.Arbiter.Names.C74_queued`
* `Verif.Arbiter.Names.C74_process`
* `Verif.Net.Pipes.C75_stray_fails`
* `Verif.Net.Pipes.C75_early_fails`
* `Verif.Net.Pipes.C75_stderr_only_fails`
* `Verif.Net.Pipes.C75_dropped_fails`
* `Verif.Net.Pipes.C75_late_fails`
* `Verif.Net.Pipes.C75_stray_case`
* `Verif.LogCapture.C76_once`
* `Verif.LogCapture.C76_lines_partial`
* `Verif.LogCapture.C76_eventually`
* `Verif.LogCapture.C76_blank_fails`
* `Verif.LogCapture.C76_torn_fails`
* `Verif.LogCapture.C76_replaced_fails`
* `Verif.Restart.C77_connected`
* `Verif.Restart.C77_elsewhere`
* `Verif.Restart.C77_remote`
* `Verif.Restart.C77_unconnected_fails`
* `Verif.Restart.C77_local`
* `Verif.Restart.C77_port_fails`
* `Verif.Restart.C77_left_fails`
* `Verif.Restart.C77_disabled`
* `Verif.Restart.C77_tcp`
* `Verif.Restart.C77_late_fails`
* `Verif.Restart.C77_server_fails`
* `Verif.Stepper.C78_refreshed`
* `Verif.Stepper.C78_source_fails`
* `Verif.Stepper.C78_nested_fails`
* `Verif.Stepper.C78_raise_fails`
* `Verif.Datagram.C79_cases`
* `Verif.Telemetry.C80_length_fails`
* `Verif.Arbiter.Config.C81_accepts`
* `Verif.Arbiter.Config.C81_makes`
* `Verif.Arbiter.Config.C81_twice`
* `Verif.Arbiter.Config.C81_undone_fails`
* `Verif.Arbiter.Config.C81_leak_fails`
* `Verif.Arbiter.Config.C81_clash_fails`
* `Verif.Arbiter.Config.C81_files`
* `Verif.Arbiter.Config.C81_param`
* `Verif.Arbiter.Config.C81_given_fails`
* `Verif.Arbiter.Config.C81_reload_fails`
* `Verif.Arbiter.Startup.C82_refused`
* `Verif.Arbiter.Startup.C82_cut_fails`
* `Verif.Arbiter.Search.C83_once`
* `Verif.Arbiter.Search.C83_single`
* `Verif.Arbiter.Search.C83_single_fails`
* `Verif.Arbiter.Search.C83_other_fails`
* `Verif.Arbiter.Search.C83_named`
* `Verif.Arbiter.Ports.C85_text`
* `Verif.Arbiter.Ports.C85_path_fails`
* `Verif.Arbiter.Ports.C85_values`
* `Verif.Arbiter.Ports.C85_server_fails`
* `Verif.Arbiter.Ports.C85_shared_fails`
* `Verif.Server.UiCount.C86_count`
* `Verif.Server.UiCount.C86_one`
* `Verif.Server.UiCount.C86_alone`
* `Verif.Server.UiCount.C86_silent_fails`
* `Verif.Server.UiCount.C86_wrap_fails`
* `Verif.Server.UiCount.C86_leak_fails`
* `Verif.Net.Mirror.C89_mirror`
* `Verif.Net.Mirror.C89_again_fails`
* `Verif.Tftp.Endpoints.C90_late`
* `Verif.Tftp.Endpoints.C90_counts`
* `Verif.Controls.C91_controls`
* `Verif.Controls.C91_enum_reset_fails`
* `Verif.Tui.C92_wide_fails`
* `Verif.Pages.C93_setup`
* `Verif.Pages.C93_own_partial`
* `Verif.Pages.C93_same`
* `Verif.Pages.C93_late_fails`
* `Verif.Pages.C93_shared_fails`
* `Verif.Pages.C93_tabs`
* `Verif.Plots.C96_four`
* `Verif.Plots.C96_fifth_fails`
* `Verif.Plots.C96_cases`
* `Verif.Housekeeping.C97_order`
* `Verif.Housekeeping.C97_round`
* `Verif.Housekeeping.C97_drains`
* `Verif.Housekeeping.C97_raise_fails`
* `Verif.Housekeeping.C97_cancel_fails`
* `Verif.Housekeeping.C97_unawaited`
* `Verif.Housekeeping.C97_blocked_fails`
* `Verif.Housekeeping.C97_cases`
* `Verif.Stop.C99_single`
* `Verif.Stop.C99_quiet`
* `Verif.Stop.C99_ends`
* `Verif.Stop.C99_stops`
* `Verif.Stop.C99_shield_fails`
* `Verif.Stop.C99_lost_fails`
* `Verif.Stop.C99_cases`
* `Verif.Floats.C100_callbacks_partial`
* `Verif.Floats.C100_callbacks_fails`
* `Verif.Floats.C100_nan_fails`
* `Verif.Floats.C100_equal_fails`
* `Verif.Driven.C102_flush`
* `Verif.Driven.C102_flush_limit`
* `Verif.Leaving.C104_contexts`
* `Verif.Leaving.C104_stopped_partial`
* `Verif.Leaving.C104_order`
* `Verif.Leaving.C104_tasks`
* `Verif.Leaving.C104_result`
* `Verif.Leaving.C104_raise_fails`
* `Verif.Leaving.C104_disable_fails`
* `Verif.Leaving.C104_cancel_fails`
* `Verif.Connect.C105_connects`
* `Verif.Connect.C105_gives_up`
* `Verif.Connect.C105_bounded`
* `Verif.Connect.C105_at_once`
* `Verif.Connect.C105_two_addresses_fails`
* `Verif.Connect.C105_other_fails`
* `Verif.Connect.C105_used_fails`
* `Verif.Json.Browser.C106_cut_fails`
* `Verif.Slider.C108_period_fails`
* `Verif.Boxes.C113_drawers`
* `Verif.Boxes.C113_clear_other`
* `Verif.Boxes.C113_click`
* `Verif.Boxes.C113_clear_fails`
* `Verif.Hosts.C114_normalize`
* `Verif.Hosts.C114_names`
* `Verif.Hosts.C114_endpoints`
* `Verif.Hosts.C114_tuple_fails`
* `Verif.Hosts.C114_probe`
* `Verif.Hosts.C114_option_fails`
* `Verif.Hosts.C114_probes`
* `Verif.Hosts.C114_mtu`
* `Verif.Hosts.C114_closed_fails`
* `Verif.Hosts.C114_stale_fails`
* `Verif.Logs.C115_level`
* `Verif.Logs.C115_values_fails`
* `Verif.Logs.C115_logged_fails`
* `Verif.Logs.C115_points_fails`
* `Verif.Logs.C115_cases`
* `Verif.Structs.C116_poll`
* `Verif.Structs.C116_integer_fails`
* `Verif.Structs.C116_extra_fails`
* `Verif.Structs.C116_final`
* `Verif.Structs.C116_exception_partial`
* `Verif.Structs.C116_masked_fails`
* `Verif.Structs.C116_unbuilt_fails`
* `Verif.Server.Prefixes.C117_refused`
* `Verif.Server.Prefixes.C117_exact`
* `Verif.Server.Prefixes.C117_again`
* `Verif.Server.Prefixes.C117_setup`
* `Verif.Server.Prefixes.C117_second_fails`
* `Verif.Server.Prefixes.C117_alias_fails`
* `Verif.Server.Prefixes.C117_contains`
* `Verif.Server.Prefixes.C117_schemes`
* `Verif.Server.Scripts.C119_name`
* `Verif.Server.Scripts.C119_quote_fails`
* `Verif.Server.Scripts.C119_active`
* `Verif.Server.Scripts.C119_files`
* `Verif.Server.Scripts.C119_urls`
* `Verif.Names.C120_argument`
* `Verif.Names.C120_break`
* `Verif.Flush.C121_queue_fails`
* `Verif.Served.C122_idle`
* `Verif.Served.C122_spin_fails`
* `Verif.Served.C122_refused`
* `Verif.Served.C122_disabled`
* `Verif.Programs.C123_arbiter`
* `Verif.Programs.C123_jit`
* `Verif.Apps.C124_stages`
* `Verif.Apps.C124_wait_last`
* `Verif.Apps.C124_zero_waits`
* `Verif.Divider.C125_follow`
* `Verif.Divider.C125_drift_fails`
* `Verif.Divider.C125_double_fails`
* `Verif.Divider.C125_released`
* `Verif.Divider.C125_resized`
* `Verif.Audio.C126_connected`
* `Verif.Audio.C126_toggle`
* `Verif.Defaults.C127_set`
* `Verif.Defaults.C127_types`
* `Verif.Defaults.C127_value`
* `Verif.Defaults.C127_refused_fails`
* `Verif.Defaults.C127_event`
* `Verif.Defaults.C127_init`
* `Verif.Defaults.C127_create`
* `Verif.Defaults.C127_reload`
* `Verif.Defaults.C127_cleared_fails`
* `Verif.Defaults.C127_typed_partial`
* `Verif.Defaults.C127_period`
* `Verif.Defaults.C127_whole_period_fails`
* `Verif.Defaults.C128_member`
* `Verif.Defaults.C128_sets`
* `Verif.Defaults.C128_clash`
* `Verif.Typed.C129_finalized`
* `Verif.Typed.C129_cases`
* `Verif.Scaled.C130_enum_samples`
* `Verif.Reentrant.C132_later_fails`
* `Verif.Reentrant.C132_called`
* `Verif.Reentrant.C132_removes_fails`
* `Verif.Group.C133_group`
* `Verif.Group.C133_register`
* `Verif.Group.C133_stop`
* `Verif.Group.C133_start`
* `Verif.Group.C133_running`
* `Verif.Group.C133_start_fails`
* `Verif.Group.C133_cases`
* `Verif.PyEnum.C134_value`
* `Verif.PyEnum.C134_name`
* `Verif.PyEnum.C134_set`
* `Verif.PyEnum.C134_items`
* `Verif.PyEnum.C134_unknown`
* `Verif.PyEnum.C134_small_fails`
* `Verif.PyEnum.C134_case_fails`
* `Verif.Scoped.C135_left_partial`
* `Verif.Scoped.C135_early_fails`
* `Verif.Scoped.C135_restarting_fails`
* `Verif.Scoped.C135_gives_up`
* `Verif.Shared.C136_set_value`
* `Verif.Shared.C136_same_partial`
* `Verif.Shared.C136_field_hides_fails`
* `Verif.Shared.C136_channel_hides_fails`
* `Verif.Shared.C136_stale_fails`
* `Verif.Shared.C136_text_partial`
* `Verif.Shared.C136_others`

## `Classical.choice`, `Quot.sound`, `propext`

* `Verif.Wire.C01_encode_decode`
* `Verif.Wire.C01_encode_positional`
* `Verif.Wire.C01_all_kinds`
* `Verif.Wire.C01_mixed`
* `Verif.Wire.C02_decode_encode`
* `Verif.Wire.C02_encode_injective`
* `Verif.Wire.C02_decode_hasKind`
* `Verif.Prim.C03_value_in_range`
* `Verif.Prim.C03_sets_and_increments`
* `Verif.Prim.C04_callbacks_exact`
* `Verif.Prim.C04_once_at_most_once`
* `Verif.Prim.C04_removed_never_runs`
* `Verif.Prim.C04_toggle`
* `Verif.Prim.C05_fresh_identifiers`
* `Verif.Prim.C05_stale_remove`
* `Verif.Prim.C06_reported_value_partial`
* `Verif.Scaling.C07_float_get_set`
* `Verif.Scaling.C07_float_single_fails`
* `Verif.Scaling.C07_float_narrow`
* `Verif.Scaling.C07_wide_fails`
* `Verif.Scaling.C07_offset_fails`
* `Verif.Scaling.C07_apply_polynomial`
* `Verif.Scaling.C07_invert_apply`
* `Verif.Scaling.C07_scaled_set_best`
* `Verif.Scaling.C07_scaled_get_set`
* `Verif.Scaling.C07_errors`
* `Verif.Scaling.C07_single_term_fails`
* `Verif.Wire.C08_create`
* `Verif.Wire.C08_clamp_nearest`
* `Verif.Eval.C09_evaluate`
* `Verif.Eval.C09_compare_success`
* `Verif.Eval.C10_sample_for`
* `Verif.Bits.C11_write_read`
* `Verif.Bits.C11_read_value`
* `Verif.Bits.C11_write_bits`
* `Verif.Bits.C11_where`
* `Verif.Bits.C12_invert`
* `Verif.Bits.C12_flag`
* `Verif.Bits.C13_field_accepted`
* `Verif.Bits.C13_flag_accepted`
* `Verif.Bits.C13_pad_accepted`
* `Verif.Bits.C13_default_position`
* `Verif.Bits.C13_no_overlap`
* `Verif.Bits.C14_independent`
* `Verif.Bits.C14_rest_zero`
* `Verif.Bits.C15_export_import`
* `Verif.Bits.C15_reachable_partial`
* `Verif.Bits.C15_layout`
* `Verif.Registry.C16_pairing`
* `Verif.Registry.C16_load`
* `Verif.Registry.C16_construct`
* `Verif.Registry.C16_construct_accepts`
* `Verif.Registry.C16_boolean_register`
* `Verif.Registry.C17_register`
* `Verif.Registry.C17_bindings`
* `Verif.Registry.C17_stable`
* `Verif.Registry.C17_auto_increasing`
* `Verif.Registry.C18_create`
* `Verif.Registry.C18_lookups_agree`
* `Verif.Registry.C18_items_stay`
* `Verif.Registry.C18_report`
* `Verif.Registry.C18_accepts`
* `Verif.Registry.C19_members`
* `Verif.Serial.C20_bytes`
* `Verif.Serial.C20_update_restores`
* `Verif.Serial.C20_update_length`
* `Verif.Serial.C20_reachable`
* `Verif.Serial.C21_fragment_bytes`
* `Verif.Serial.C22_round_trip`
* `Verif.Serial.C22_into_copy`
* `Verif.Serial.C23_original_changes`
* `Verif.Serial.C23_copy_changes`
* `Verif.Serial.C23_append_array`
* `Verif.Serial.C23_copy`
* `Verif.Serial.C24_update`
* `Verif.Serial.C24_new`
* `Verif.Serial.C24_round_trip`
* `Verif.Serial.C24_truncated`
* `Verif.Serial.C25_ascii_partial`
* `Verif.Serial.C25_assigned_partial`
* `Verif.Serial.C25_round_trip_iff`
* `Verif.Serial.C25_non_ascii_fails`
* `Verif.Serial.C25_too_long_fails`
* `Verif.Serial.C27_delivery`
* `Verif.Serial.C27_accept`
* `Verif.Protocol.C28_set_get_field`
* `Verif.Protocol.C28_set_get_bits`
* `Verif.Protocol.C28_set_get_chunk`
* `Verif.Protocol.C28_array_shows_field_fails`
* `Verif.Protocol.C28_round_trip`
* `Verif.Protocol.C28_set`
* `Verif.Protocol.C29_repeated_serializable_fails`
* `Verif.Protocol.C29_copy_partial`
* `Verif.Protocol.C29_json_partial`
* `Verif.Protocol.C29_json_serializable_fails`
* `Verif.Protocol.C29_json_array_length_fails`
* `Verif.Message.C30_cut_independent`
* `Verif.Message.C30_received`
* `Verif.Message.C30_all_received`
* `Verif.Message.C30_overlong_fails`
* `Verif.Message.C31_abandoned_fails`
* `Verif.Message.C31_abandoned_witness_fails`
* `Verif.Event.C32_history`
* `Verif.Event.C32_parse`
* `Verif.Event.C33_cut_partial`
* `Verif.Event.C33_cut_in_value_fails`
* `Verif.Event.C33_abandoned_fails`
* `Verif.Event.C34_rate`
* `Verif.Environment.C35_frame`
* `Verif.Environment.C35_name_or_id`
* `Verif.Environment.C35_unknown`
* `Verif.Environment.C35_field_int`
* `Verif.Environment.C35_field_float`
* `Verif.Environment.C35_field_enum`
* `Verif.Environment.C35_channel_int`
* `Verif.Environment.C35_channel_bool`
* `Verif.Environment.C35_channel_float`
* `Verif.Environment.C35_channel_scaled`
* `Verif.Environment.C35_channel_enum`
* `Verif.Environment.C35_channel_bool_enum`
* `Verif.Environment.C35_channel_text`
* `Verif.Environment.C36_restore_partial`
* `Verif.Environment.C36_stops`
* `Verif.Environment.C36_history_partial`
* `Verif.Environment.C36_nan_fails`
* `Verif.Environment.C36_constant_scaling_fails`
* `Verif.Environment.C36_polynomial_fails`
* `Verif.Environment.C36_bool_int_enum_fails`
* `Verif.Environment.C37_change_allowed`
* `Verif.Environment.C37_refused`
* `Verif.Environment.C37_failure`
* `Verif.Environment.C37_success`
* `Verif.Environment.C37_permitted`
* `Verif.Environment.C37_remote`
* `Verif.Environment.C37_get`
* `Verif.Environment.C37_toggle`
* `Verif.Environment.C37_line`
* `Verif.Environment.C37_only_target_partial`
* `Verif.Environment.C37_shadowed_fails`
* `Verif.Tftp.C39_read`
* `Verif.Tftp.C39_no_missing_block`
* `Verif.Tftp.C39_tidy`
* `Verif.Tftp.C39_leftover_fails`
* `Verif.Tftp.C39_large_fails`
* `Verif.Tftp.C39_server_success_fails`
* `Verif.Tftp.C39_stale_fails`
* `Verif.Tftp.C39_completes`
* `Verif.Tftp.C40_request`
* `Verif.Tftp.C40_data`
* `Verif.Tftp.C40_ack`
* `Verif.Tftp.C40_block_numbers`
* `Verif.Tftp.C40_error_partial`
* `Verif.Tftp.C40_error_fails`
* `Verif.Tftp.C40_nul_fails`
* `Verif.Tftp.C40_data_only`
* `Verif.Tftp.C40_short`
* `Verif.Tftp.C40_unterminated`
* `Verif.Tftp.C41_absolute_fails`
* `Verif.Http.C42_bodiless`
* `Verif.Http.C42_bodiless_responses`
* `Verif.Http.C42_bad_request_fails`
* `Verif.Http.C42_cut_independent`
* `Verif.Http.C42_messages`
* `Verif.Http.C42_poisoned_fails`
* `Verif.Http.C42_length_fails`
* `Verif.Http.C42_stopped_fails`
* `Verif.Http.C43_request_lines`
* `Verif.Http.C43_response_lines`
* `Verif.Http.C43_requests`
* `Verif.Http.C43_responses`
* `Verif.Http.C43_injection_fails`
* `Verif.Http.C43_non_ascii_fails`
* `Verif.Telnet.C44_items`
* `Verif.Telnet.C44_every_stream`
* `Verif.Telnet.C44_pieces_partial`
* `Verif.Telnet.C44_text`
* `Verif.Telnet.C44_reserved`
* `Verif.Telnet.C44_escaped_fails`
* `Verif.Json.C45_replies`
* `Verif.Json.C45_exchange`
* `Verif.Json.C47_requests_finite`
* `Verif.Net.C48_initialized`
* `Verif.Net.C50_bounded`
* `Verif.Net.C50_counts`
* `Verif.Net.C50_exhausts`
* `Verif.Net.C50_published_fails`
* `Verif.Task.C54_limit_partial`
* `Verif.Task.C54_exact`
* `Verif.Server.C58_found`
* `Verif.Server.C58_missing`
* `Verif.Server.C58_total`
* `Verif.Server.C58_empty_key_fails`
* `Verif.Server.C58_ambiguous_fails`
* `Verif.Server.C58_request`
* `Verif.Metrics.C59_counters`
* `Verif.Metrics.C59_without_reset`
* `Verif.Metrics.C59_update`
* `Verif.Cursor.C61_inside_partial`
* `Verif.Cursor.C61_start`
* `Verif.Cursor.C61_move`
* `Verif.Cursor.C61_negative_fails`
* `Verif.Cursor.C61_shrink_fails`
* `Verif.Cursor.C61_reports`
* `Verif.Http.C62_authority`
* `Verif.Prim.C63_age`
* `Verif.Tftp.Writes.C64_write_partial`
* `Verif.Tftp.Writes.C64_empty_fails`
* `Verif.Tftp.Writes.C64_completes`
* `Verif.Tftp.Writes.C64_lost_fails`
* `Verif.Np05b.C65_transcript`
* `Verif.Np05b.C65_latest`
* `Verif.Np05b.C65_too_many_fails`
* `Verif.Np05b.C65_cut_fails`
* `Verif.Np05b.C65_fresh_partial`
* `Verif.Np05b.C65_at_once_partial`
* `Verif.Np05b.C65_index_fails`
* `Verif.Np05b.C65_stale_fails`
* `Verif.EnvArray.C67_when`
* `Verif.EnvArray.C67_refused`
* `Verif.EnvArray.C67_repeated_fails`
* `Verif.EnvArray.C67_once_partial`
* `Verif.Environment.C68_round_trip_partial`
* `Verif.Environment.C68_grows_fails`
* `Verif.Environment.C68_no_scaling`
* `Verif.Environment.C68_scaling_fails`
* `Verif.Environment.C68_dangling_fails`
* `Verif.Environment.C68_overlap_fails`
* `Verif.Environment.C68_late_field_fails`
* `Verif.Tabs.C69_points_partial`
* `Verif.Tabs.C69_observers_partial`
* `Verif.Tabs.C69_current_partial`
* `Verif.Tabs.C69_stale_fails`
* `Verif.Tabs.C69_twice_fails`
* `Verif.Tabs.C69_enum_fails`
* `Verif.Tabs.C69_hidden_first_fails`
* `Verif.Tabs.C69_nan_fails`
* `Verif.Server.Files.C70_inside_partial`
* `Verif.Server.Files.C70_serves_partial`
* `Verif.Server.Files.C70_absolute_fails`
* `Verif.Server.Files.C70_parent_fails`
* `Verif.Server.Files.C70_sibling_fails`
* `Verif.Server.Files.C70_shadow_fails`
* `Verif.Server.Files.C70_encoding_fails`
* `Verif.Server.Files.C70_favicon_fails`
* `Verif.Server.Files.C70_redirect_partial`
* `Verif.Server.Files.C70_fallback`
* `Verif.Server.Files.C70_other_forms`
* `Verif.Server.Files.C70_cases`
* `Verif.Http.Client.C71_response_unparsed`
* `Verif.Http.Client.C71_request_unparsed`
* `Verif.Codec.C73_add`
* `Verif.Codec.C73_sizes_partial`
* `Verif.Codec.C73_found_partial`
* `Verif.Codec.C73_unique_partial`
* `Verif.Codec.C73_primitive_name_fails`
* `Verif.Codec.C73_hidden_fails`
* `Verif.Codec.C73_refused_fails`
* `Verif.Codec.C73_byteOrder_fails`
* `Verif.Codec.C73_cases`
* `Verif.Codec.C73_cases_settled`
* `Verif.Codec.C73_resolve`
* `Verif.Arbiter.Names.C74_start_partial`
* `Verif.Arbiter.Names.C74_clash_fails`
* `Verif.Arbiter.Names.C74_housekeeping_fails`
* `Verif.Net.Pipes.C75_stdout`
* `Verif.Net.Pipes.C75_stderr_partial`
* `Verif.Net.Pipes.C75_servicing_partial`
* `Verif.Net.Pipes.C75_counted`
* `Verif.Net.Pipes.C75_cut_fails`
* `Verif.Net.Pipes.C75_cases`
* `Verif.LogCapture.C76_cases`
* `Verif.Restart.C77_unconnected_partial`
* `Verif.Restart.C77_order`
* `Verif.Restart.C77_unclosed_fails`
* `Verif.Stepper.C78_polls`
* `Verif.Stepper.C78_simulated`
* `Verif.Stepper.C78_source_partial`
* `Verif.Stepper.C78_time_fails`
* `Verif.Datagram.C79_intact`
* `Verif.Datagram.C79_sent`
* `Verif.Datagram.C79_echo`
* `Verif.Datagram.C79_stream`
* `Verif.Datagram.C79_split_fails`
* `Verif.Datagram.C79_stray_fails`
* `Verif.Datagram.C79_refused`
* `Verif.Datagram.C79_raise_fails`
* `Verif.Datagram.C79_default_fails`
* `Verif.Telemetry.C80_lossy`
* `Verif.Telemetry.C80_sequence`
* `Verif.Telemetry.C80_stray_fails`
* `Verif.Telemetry.C80_probe_fails`
* `Verif.Arbiter.Config.C81_front_fails`
* `Verif.Arbiter.Config.C81_cases`
* `Verif.Arbiter.Startup.C82_entered`
* `Verif.Arbiter.Startup.C82_proceeds`
* `Verif.Arbiter.Startup.C82_server_fails`
* `Verif.Arbiter.Search.C83_found`
* `Verif.Arbiter.Search.C83_twice_fails`
* `Verif.Arbiter.Search.C83_names_fails`
* `Verif.Arbiter.Search.C83_cases`
* `Verif.Net.Websocket.C84_order`
* `Verif.Net.Websocket.C84_all`
* `Verif.Net.Websocket.C84_echo`
* `Verif.Net.Websocket.C84_mixed_fails`
* `Verif.Net.Websocket.C84_counts`
* `Verif.Net.Websocket.C84_counted_fails`
* `Verif.Net.Websocket.C84_unread_fails`
* `Verif.Net.Websocket.C84_cases`
* `Verif.Arbiter.Ports.C85_ports`
* `Verif.Arbiter.Ports.C85_double_fails`
* `Verif.Arbiter.Ports.C85_tcp`
* `Verif.Arbiter.Ports.C85_udp`
* `Verif.Arbiter.Ports.C85_websocket`
* `Verif.Arbiter.Ports.C85_host_fails`
* `Verif.Arbiter.Ports.C85_tls_fails`
* `Verif.Arbiter.Ports.C85_cases`
* `Verif.Server.UiCount.C86_cases`
* `Verif.Environment.Remote.C87_text`
* `Verif.Environment.Remote.C87_effect`
* `Verif.Environment.Remote.C87_unknown`
* `Verif.Environment.Remote.C87_refused`
* `Verif.Environment.Remote.C87_in_order`
* `Verif.Environment.Remote.C87_custom_fails`
* `Verif.Environment.Remote.C87_result_fails`
* `Verif.Environment.Remote.C87_bounce_fails`
* `Verif.Environment.Remote.C87_cases`
* `Verif.Event.Record.C88_replay`
* `Verif.Event.Record.C88_moment`
* `Verif.Event.Record.C88_field_fails`
* `Verif.Event.Record.C88_path_fails`
* `Verif.Event.Record.C88_undisturbed`
* `Verif.Event.Record.C88_exception_fails`
* `Verif.Event.Record.C88_cases`
* `Verif.Net.Mirror.C89_past`
* `Verif.Net.Mirror.C89_completes`
* `Verif.Net.Mirror.C89_slow_fails`
* `Verif.Tftp.Endpoints.C90_isolated_partial`
* `Verif.Tftp.Endpoints.C90_read_follows`
* `Verif.Tftp.Endpoints.C90_write_follows`
* `Verif.Tftp.Endpoints.C90_same_host_fails`
* `Verif.Tftp.Endpoints.C90_stale_fails`
* `Verif.Tftp.Endpoints.C90_port_fails`
* `Verif.Controls.C91_toggle`
* `Verif.Controls.C91_refused`
* `Verif.Controls.C91_selected`
* `Verif.Controls.C91_choose_partial`
* `Verif.Controls.C91_reset_partial`
* `Verif.Controls.C91_all_defaults_partial`
* `Verif.Controls.C91_scaled_reset_fails`
* `Verif.Controls.C91_numeric_name_fails`
* `Verif.Controls.C91_cases`
* `Verif.Tui.C92_screen`
* `Verif.Tui.C92_shows_partial`
* `Verif.Tui.C92_bool`
* `Verif.Tui.C92_short`
* `Verif.Tui.C92_no_error`
* `Verif.Tui.C92_stale_fails`
* `Verif.Tui.C92_enum_fails`
* `Verif.Tui.C92_resize_fails`
* `Verif.Tui.C92_overflow_fails`
* `Verif.Tui.C92_cases`
* `Verif.Pages.C93_lookup_partial`
* `Verif.Pages.C93_suffix_fails`
* `Verif.Pages.C93_reserved_fails`
* `Verif.Pages.C93_plot_fails`
* `Verif.Pages.C93_twice_fails`
* `Verif.Pages.C93_filter_fails`
* `Verif.Pages.C93_filter_partial`
* `Verif.Pages.C93_cases`
* `Verif.WindowHash.C94_restores_partial`
* `Verif.WindowHash.C94_encoded_fails`
* `Verif.WindowHash.C94_special_fails`
* `Verif.WindowHash.C94_ignored`
* `Verif.WindowHash.C94_channel_filter_fails`
* `Verif.WindowHash.C94_option_name_fails`
* `Verif.WindowHash.C94_gone_fails`
* `Verif.WindowHash.C94_window_partial`
* `Verif.WindowHash.C94_window_fails`
* `Verif.WindowHash.C94_cases`
* `Verif.WindowHash.C94_cases_hyps`
* `Verif.Points.C95_order`
* `Verif.Points.C95_last`
* `Verif.Points.C95_ring`
* `Verif.Points.C95_resize_partial`
* `Verif.Points.C95_resize_fails`
* `Verif.Points.C95_wear_fails`
* `Verif.Points.C95_drawn`
* `Verif.Points.C95_drawn_value`
* `Verif.Points.C95_time`
* `Verif.Points.C95_value_partial`
* `Verif.Points.C95_spike_fails`
* `Verif.Points.C95_flat_fails`
* `Verif.Points.C95_short_fails`
* `Verif.Points.C95_cases_draw`
* `Verif.Plots.C96_boxes`
* `Verif.Plots.C96_first`
* `Verif.Plots.C96_plotted_partial`
* `Verif.Plots.C96_stale_fails`
* `Verif.Plots.C96_points`
* `Verif.Plots.C96_bump`
* `Verif.Plots.C96_depth`
* `Verif.Plots.C96_span`
* `Verif.Table.C98_shows`
* `Verif.Table.C98_keeps`
* `Verif.Table.C98_nan_fails`
* `Verif.Table.C98_stale`
* `Verif.Table.C98_stale_never`
* `Verif.Table.C98_bool`
* `Verif.Table.C98_stale_fails`
* `Verif.Table.C98_input`
* `Verif.Table.C98_input_fails`
* `Verif.Table.C98_int`
* `Verif.Table.C98_big_fails`
* `Verif.Table.C98_float`
* `Verif.Table.C98_align_fails`
* `Verif.Table.C98_name`
* `Verif.Table.C98_name_fails`
* `Verif.Table.C98_cases`
* `Verif.Table.C98_cases_text`
* `Verif.Stop.C99_one_partial`
* `Verif.Stop.C99_overlap_fails`
* `Verif.Floats.C100_nearest`
* `Verif.Floats.C100_roundtrip`
* `Verif.Floats.C100_wire`
* `Verif.Floats.C100_half_partial`
* `Verif.Floats.C100_half_fails`
* `Verif.Floats.C100_half_range_fails`
* `Verif.Floats.C100_equal`
* `Verif.Timing.C101_counts`
* `Verif.Timing.C101_raising_fails`
* `Verif.Timing.C101_shortened_fails`
* `Verif.Timing.C101_spacing`
* `Verif.Timing.C101_rate`
* `Verif.Timing.C101_drift`
* `Verif.Timing.C101_paused`
* `Verif.Timing.C101_paused_pace_partial`
* `Verif.Timing.C101_spin_fails`
* `Verif.Timing.C101_spin_reached`
* `Verif.Timing.C101_cases`
* `Verif.Driven.C102_wave`
* `Verif.Driven.C102_sin`
* `Verif.Driven.C102_last`
* `Verif.Driven.C102_bounded`
* `Verif.Driven.C102_period`
* `Verif.Driven.C102_default`
* `Verif.Driven.C102_circle`
* `Verif.Driven.C102_wrap_partial`
* `Verif.Driven.C102_wrap_fails`
* `Verif.Driven.C102_zero_fails`
* `Verif.Driven.C102_first_fails`
* `Verif.Driven.C102_change_fails`
* `Verif.Driven.C102_cases`
* `Verif.PeerEnd.C103_order`
* `Verif.PeerEnd.C103_clean`
* `Verif.PeerEnd.C103_host`
* `Verif.PeerEnd.C103_beats`
* `Verif.PeerEnd.C103_host_returns`
* `Verif.PeerEnd.C103_ends`
* `Verif.PeerEnd.C103_raised`
* `Verif.PeerEnd.C103_early_fails`
* `Verif.PeerEnd.C103_noted`
* `Verif.PeerEnd.C103_raise_fails`
* `Verif.PeerEnd.C103_stuck_fails`
* `Verif.PeerEnd.C103_cleanup_fails`
* `Verif.PeerEnd.C103_unanswered_fails`
* `Verif.PeerEnd.C103_killed_fails`
* `Verif.PeerEnd.C103_cases`
* `Verif.Connect.C105_cases`
* `Verif.Json.Browser.C106_sends`
* `Verif.Json.Browser.C106_server_receives`
* `Verif.Json.Browser.C106_browser_receives`
* `Verif.Json.Browser.C106_throw_fails`
* `Verif.Json.Browser.C106_keys`
* `Verif.Json.Browser.C106_names_fails`
* `Verif.Json.Browser.C107_reply`
* `Verif.Json.Browser.C107_answers`
* `Verif.Json.Browser.C107_loopback_test`
* `Verif.Json.Browser.C107_command_fails`
* `Verif.Json.Browser.C107_bound_partial`
* `Verif.Json.Browser.C107_dies_out_partial`
* `Verif.Json.Browser.C107_loopback_fails`
* `Verif.Slider.C108_nearest`
* `Verif.Slider.C108_keeps`
* `Verif.Slider.C108_integer_steps`
* `Verif.Slider.C108_integer_values`
* `Verif.Slider.C108_top_fails`
* `Verif.Slider.C108_float_steps`
* `Verif.Slider.C108_errors`
* `Verif.Slider.C108_canonical`
* `Verif.Slider.C108_steps_fails`
* `Verif.Slider.C108_returns`
* `Verif.Slider.C108_fine_fails`
* `Verif.Slider.C108_sent`
* `Verif.Slider.C108_unpressed`
* `Verif.Slider.C108_drag_partial`
* `Verif.Slider.C108_held`
* `Verif.Slider.C108_follows`
* `Verif.Slider.C108_click_fails`
* `Verif.Pacing.C109_apart`
* `Verif.Pacing.C109_rate`
* `Verif.Pacing.C109_due`
* `Verif.Pacing.C109_progress`
* `Verif.Pacing.C109_every`
* `Verif.Pacing.C109_nan_fails`
* `Verif.Overlay.C110_traverse`
* `Verif.Overlay.C110_shown`
* `Verif.Overlay.C110_unit`
* `Verif.Overlay.C110_order`
* `Verif.Overlay.C110_digits`
* `Verif.Overlay.C110_long_fails`
* `Verif.Overlay.C110_carry_fails`
* `Verif.Overlay.C110_text`
* `Verif.Overlay.C110_frame`
* `Verif.Overlay.C110_lines`
* `Verif.Overlay.C110_clicks`
* `Verif.Overlay.C110_aligned_partial`
* `Verif.Overlay.C110_aligned_fails`
* `Verif.Filters.C111_rows`
* `Verif.Filters.C111_typed_partial`
* `Verif.Filters.C111_resync`
* `Verif.Filters.C111_cleared`
* `Verif.Filters.C111_named_fails`
* `Verif.Filters.C111_caret_fails`
* `Verif.Filters.C111_invalid_fails`
* `Verif.Filters.C111_starts_partial`
* `Verif.Filters.C111_reload_fails`
* `Verif.Filters.C111_gone_fails`
* `Verif.Filters.C111_tabs`
* `Verif.Filters.C111_link_fails`
* `Verif.Filters.C111_left_fails`
* `Verif.Filters.C111_cases`
* `Verif.PageStart.C112_ports`
* `Verif.PageStart.C112_unique`
* `Verif.PageStart.C112_data_fails`
* `Verif.PageStart.C112_https_fails`
* `Verif.PageStart.C112_opened`
* `Verif.PageStart.C112_starts`
* `Verif.PageStart.C112_quiet`
* `Verif.PageStart.C112_delivered`
* `Verif.PageStart.C112_reloads`
* `Verif.PageStart.C112_stuck_fails`
* `Verif.PageStart.C112_name_fails`
* `Verif.PageStart.C112_cases`
* `Verif.Boxes.C113_hex`
* `Verif.Boxes.C113_line`
* `Verif.Boxes.C113_listed`
* `Verif.Boxes.C113_told`
* `Verif.Boxes.C113_clear_partial`
* `Verif.Boxes.C113_cases`
* `Verif.Hosts.C114_closed_partial`
* `Verif.Logs.C115_log`
* `Verif.Logs.C115_arrives`
* `Verif.Logs.C115_once`
* `Verif.Logs.C115_closed`
* `Verif.Logs.C115_message_partial`
* `Verif.Logs.C115_rows_fails`
* `Verif.Structs.C116_names`
* `Verif.Structs.C116_metrics`
* `Verif.Structs.C116_source`
* `Verif.Structs.C116_cases`
* `Verif.Server.Prefixes.C117_arrives`
* `Verif.Server.Prefixes.C117_own`
* `Verif.Server.Prefixes.C117_others`
* `Verif.Server.Prefixes.C117_loop_fails`
* `Verif.Server.Prefixes.C117_opened`
* `Verif.Server.Prefixes.C117_ports_fails`
* `Verif.Server.Prefixes.C117_cases`
* `Verif.Tls.C118_plain`
* `Verif.Tls.C118_context`
* `Verif.Tls.C118_rest`
* `Verif.Tls.C118_again`
* `Verif.Tls.C118_address`
* `Verif.Tls.C118_loopback`
* `Verif.Tls.C118_options`
* `Verif.Tls.C118_loop_tcp_fails`
* `Verif.Tls.C118_keyfile_fails`
* `Verif.Tls.C118_off_fails`
* `Verif.Tls.C118_bare_fails`
* `Verif.Tls.C118_cases`
* `Verif.Server.Scripts.C119_text`
* `Verif.Server.Scripts.C119_swallows_fails`
* `Verif.Server.Scripts.C119_cut_fails`
* `Verif.Server.Scripts.C119_read`
* `Verif.Server.Scripts.C119_worker`
* `Verif.Server.Scripts.C119_main`
* `Verif.Server.Scripts.C119_page`
* `Verif.Server.Scripts.C119_where`
* `Verif.Server.Scripts.C119_ends`
* `Verif.Server.Scripts.C119_cases`
* `Verif.Names.C120_channel`
* `Verif.Names.C120_default`
* `Verif.Names.C120_unrestricted`
* `Verif.Names.C120_narrower`
* `Verif.Names.C120_registry`
* `Verif.Names.C120_boolean`
* `Verif.Names.C120_accepted`
* `Verif.Names.C120_joined`
* `Verif.Names.C120_words`
* `Verif.Names.C120_option_fails`
* `Verif.Names.C120_page`
* `Verif.Names.C120_cases`
* `Verif.Flush.C121_order`
* `Verif.Flush.C121_flush`
* `Verif.Flush.C121_exact`
* `Verif.Served.C122_kept`
* `Verif.Served.C122_order`
* `Verif.Served.C122_progress`
* `Verif.Served.C122_once`
* `Verif.Served.C122_leaves`
* `Verif.Served.C122_ends`
* `Verif.Served.C122_unnoticed_fails`
* `Verif.Programs.C123_task`
* `Verif.Programs.C123_quiet`
* `Verif.Programs.C123_cases`
* `Verif.Divider.C125_visible`
* `Verif.Audio.C126_samples`
* `Verif.Audio.C126_silent`
* `Verif.Audio.C126_retuned`
* `Verif.Audio.C126_cases`
* `Verif.Defaults.C127_range_fails`
* `Verif.Defaults.C127_button`
* `Verif.Defaults.C128_data_partial`
* `Verif.Typed.C129_sound`
* `Verif.Typed.C129_found`
* `Verif.Typed.C129_loaded`
* `Verif.Typed.C129_plain_fails`
* `Verif.Typed.C129_refused_fails`
* `Verif.Typed.C129_add`
* `Verif.Scaled.C130_float`
* `Verif.Scaled.C130_float_equal`
* `Verif.Scaled.C130_falling_fails`
* `Verif.Scaled.C130_int`
* `Verif.Scaled.C130_int_exact`
* `Verif.Scaled.C130_nearest_fails`
* `Verif.Scaled.C130_int_plain`
* `Verif.Scaled.C130_raises_fails`
* `Verif.Scaled.C130_one_term_fails`
* `Verif.Scaled.C130_close`
* `Verif.Scaled.C130_enum`
* `Verif.Scaled.C130_enum_scaled_fails`
* `Verif.Scaled.C130_samples`
* `Verif.Scaled.C130_wait`
* `Verif.Scaled.C130_cases`
* `Verif.Script.C131_path`
* `Verif.Script.C131_name_partial`
* `Verif.Script.C131_quote_fails`
* `Verif.Script.C131_line_fails`
* `Verif.Script.C131_backslash_fails`
* `Verif.Script.C131_cases`
* `Verif.Reentrant.C132_stale_fails`
* `Verif.Reentrant.C132_silent`
* `Verif.Reentrant.C132_adds_fails`
* `Verif.PyEnum.C134_lower`
* `Verif.PyEnum.C134_roundtrip`
* `Verif.PyEnum.C134_apart`
* `Verif.PyEnum.C134_alias_fails`
* `Verif.PyEnum.C134_cases`
* `Verif.PyEnum.C134_log`
