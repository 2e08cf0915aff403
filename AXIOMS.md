# Axioms of each theorem named in MANIFEST.json

Printed by `#print axioms`, run outside the project. `propext`, `Quot.sound` and `Classical.choice` are the
three axioms of Lean's core library.

| theorem | axioms |
|---|---|
| C01_copy_eq | Classical.choice, Quot.sound, propext |
| C01_eq_equivalence | Classical.choice, Quot.sound, propext |
| C01_eq_iff_same_event | Classical.choice, Quot.sound, propext |
| C01_ne_is_not_eq | propext |
| C02_refuted | Classical.choice, Quot.sound, propext |
| C02_text_exact_partial | Classical.choice, Quot.sound, propext |
| C02_text_is_decimal_iff_partial | Classical.choice, Quot.sound, propext |
| C03_injective_partial | Classical.choice, Quot.sound, propext |
| C03_injective_refuted | propext |
| C03_refuted_by_quote | propext |
| C03_refuted_by_time | propext |
| C03_stream_decodes_partial | Classical.choice, Quot.sound, propext |
| C04_line_decodes_partial | Classical.choice, Quot.sound, propext |
| C04_refuted | propext |
| C05_documented_names | (none) |
| C05_names_injective | (none) |
| C05_other_for_unknown | Quot.sound, propext |
| C05_wide_event_is_narrow | Quot.sound, propext |
| C06_join_carries_both | (none) |
| C06_rename_event_survives_copies | propext |
| C07_darwin_wakes_once | propext |
| C07_never_early | Quot.sound, propext |
| C07_start_undisturbed | Classical.choice, Quot.sound, propext |
| C08_linux_next_query_partial | propext |
| C08_linux_refuted | propext |
| C08_stays_released_partial | propext |
| C09_check_sees_release | Classical.choice, Quot.sound, propext |
| C09_release_not_lost | Classical.choice, Quot.sound, propext |
| C103_end_to_end | Classical.choice, Quot.sound, propext |
| C103_every_history | Classical.choice, Quot.sound, propext |
| C104_end_to_end_partial | Classical.choice, Quot.sound, propext |
| C104_loss_not_silent_partial | Classical.choice, Quot.sound, propext |
| C104_no_recovery | Quot.sound, propext |
| C104_refuted | Quot.sound, propext |
| C105_entries_below_partial | Classical.choice, Quot.sound, propext |
| C105_paths_below_partial | Classical.choice, Quot.sound, propext |
| C105_refuted | Quot.sound, propext |
| C106_genuine_partial | Classical.choice, Quot.sound, propext |
| C106_paths_partial | Classical.choice, Quot.sound, propext |
| C106_refuted | Quot.sound, propext |
| C107_always_partial | Classical.choice, Quot.sound, propext |
| C107_in_order_partial | Classical.choice, Quot.sound, propext |
| C107_never_twice_partial | Classical.choice, Quot.sound, propext |
| C107_no_moves_partial | Classical.choice, Quot.sound, propext |
| C107_no_removal_partial | Classical.choice, Quot.sound, propext |
| C107_refuted | Quot.sound, propext |
| C107_unmoved_partial | Classical.choice, Quot.sound, propext |
| C108_keeping_up_end_to_end | Classical.choice, Quot.sound, propext |
| C109_answers | Classical.choice, Quot.sound, propext |
| C109_simple_model | Classical.choice, Quot.sound, propext |
| C109_true_is_last | Quot.sound, propext |
| C109_undefined_after_true | Quot.sound, propext |
| C109_undefined_only_after_true | Quot.sound, propext |
| C10_exactly_once | Quot.sound, propext |
| C10_linux_whole_watch | Classical.choice, Quot.sound, propext |
| C10_live_first_die_last | Quot.sound, propext |
| C110_deleted_iff_partial | Classical.choice, Quot.sound, propext |
| C110_leaked_for_good_partial | Classical.choice, Quot.sound, propext |
| C110_refuted | propext |
| C111_names_unchanged | Quot.sound, propext |
| C111_stream_in_order | Quot.sound, propext |
| C111_whole_story | Classical.choice, Quot.sound, propext |
| C112_never_ends | Quot.sound, propext |
| C112_quiet_partial | Quot.sound, propext |
| C112_refuted | Quot.sound, propext |
| C113_close_then_drop_is_undefined | Quot.sound, propext |
| C113_drop_only_partial | Classical.choice, Quot.sound, propext |
| C113_refuted_by_close | Quot.sound, propext |
| C113_refuted_by_drop | Quot.sound, propext |
| C113_safe_partial | Classical.choice, Quot.sound, propext |
| C114_ends_partial | Classical.choice, Quot.sound, propext |
| C114_in_order_partial | Classical.choice, Quot.sound, propext |
| C114_nothing_after_close_partial | Classical.choice, Quot.sound, propext |
| C114_refuted | Quot.sound, propext |
| C114_utf8_partial | Classical.choice, Quot.sound, propext |
| C115_closed_at_most_once | Classical.choice, Quot.sound, propext |
| C115_refuted | Quot.sound, propext |
| C115_safe_partial | Classical.choice, Quot.sound, propext |
| C116_exact | Classical.choice, Quot.sound, propext |
| C116_goes_on | Classical.choice, Quot.sound, propext |
| C117_nameless | Classical.choice, Quot.sound, propext |
| C117_undefined_iff | Classical.choice, Quot.sound, propext |
| C118_ended | Classical.choice, Quot.sound, propext |
| C118_exit_status | Classical.choice, Quot.sound, propext |
| C118_json | Classical.choice, Quot.sound, propext |
| C118_lines | Quot.sound, propext |
| C118_main | Classical.choice, Quot.sound, propext |
| C119_after_first_line_partial | Classical.choice, Quot.sound, propext |
| C119_healthy_partial | Classical.choice, Quot.sound, propext |
| C119_no_directory_partial | Classical.choice, Quot.sound, propext |
| C119_refuted | propext |
| C11_broken_signal_refuses | propext |
| C11_close_agrees_with_die | Classical.choice, Quot.sound, propext |
| C11_linux_whole_watch | Classical.choice, Quot.sound, propext |
| C120_never_ends_partial | Quot.sound, propext |
| C120_refuted | Quot.sound, propext |
| C121_mute_is_undefined | Quot.sound, propext |
| C121_over_when_returning | Classical.choice, Quot.sound, propext |
| C121_prints_in_order | Quot.sound, propext |
| C121_safe | Classical.choice, Quot.sound, propext |
| C122_line_exact | Classical.choice, Quot.sound, propext |
| C122_stream_exact | Classical.choice, Quot.sound, propext |
| C123_python_exact | Classical.choice, Quot.sound, propext |
| C124_batch_exact | Classical.choice, Quot.sound, propext |
| C124_one_report | Classical.choice, Quot.sound, propext |
| C124_short_batches | Classical.choice, Quot.sound, propext |
| C125_one_path | Classical.choice, Quot.sound, propext |
| C125_scanner_exact | Classical.choice, Quot.sound, propext |
| C125_scanner_life | Classical.choice, Quot.sound, propext |
| C127_darwin_exact | Classical.choice, Quot.sound, propext |
| C127_darwin_whole_life | Classical.choice, Quot.sound, propext |
| C127_one_story | propext |
| C128_exact | Classical.choice, Quot.sound, propext |
| C128_library_events | Classical.choice, Quot.sound, propext |
| C128_story_meaning | Quot.sound, propext |
| C128_whole_story | Classical.choice, Quot.sound, propext |
| C129_close_is_bounded | Classical.choice, Quot.sound, propext |
| C129_close_returns | Classical.choice, Quot.sound, propext |
| C129_never_stuck | Classical.choice, Quot.sound, propext |
| C12_at_most_one_success | Classical.choice, Quot.sound, propext |
| C12_later_closes_fail | Classical.choice, Quot.sound, propext |
| C130_burst | Classical.choice, Quot.sound, propext |
| C130_copies | Classical.choice, Quot.sound, propext |
| C130_refuted | Classical.choice, Quot.sound, propext |
| C131_refuted | propext |
| C131_safe_partial | Classical.choice, Quot.sound, propext |
| C132_no_watches | Quot.sound, propext |
| C133_only | Classical.choice, Quot.sound, propext |
| C133_story | Classical.choice, Quot.sound, propext |
| C134_c_bounded | Classical.choice, Quot.sound, propext |
| C134_c_hangs_in_callback | Classical.choice, Quot.sound, propext |
| C134_c_never_stuck | Classical.choice, Quot.sound, propext |
| C134_c_returns | Classical.choice, Quot.sound, propext |
| C134_python_bounded | Classical.choice, Quot.sound, propext |
| C134_python_hangs_in_callback | Classical.choice, Quot.sound, propext |
| C134_python_never_stuck | Classical.choice, Quot.sound, propext |
| C134_python_returns | Classical.choice, Quot.sound, propext |
| C134_rust_bounded | Classical.choice, Quot.sound, propext |
| C134_rust_never_stuck | Classical.choice, Quot.sound, propext |
| C134_rust_returns | Classical.choice, Quot.sound, propext |
| C135_exact_partial | Classical.choice, Quot.sound, propext |
| C135_refuted | propext |
| C135_same_text_partial | Classical.choice, Quot.sound, propext |
| C136_fanotify_partial | Classical.choice, Quot.sound, propext |
| C136_in_order_partial | Classical.choice, Quot.sound, propext |
| C136_inotify_partial | Classical.choice, Quot.sound, propext |
| C136_refuted | Quot.sound, propext |
| C136_same_events | Quot.sound, propext |
| C136_when | Quot.sound, propext |
| C137_answers_partial | Quot.sound, propext |
| C137_guarded_partial | Quot.sound, propext |
| C137_one_thread_partial | Quot.sound, propext |
| C137_refuted | propext |
| C137_unsynchronised | Quot.sound, propext |
| C138_bound_refuted | Quot.sound, propext |
| C138_errors_partial | Classical.choice, Quot.sound, propext |
| C138_first_alone_partial | Classical.choice, Quot.sound, propext |
| C138_low_addresses_partial | Classical.choice, Quot.sound, propext |
| C138_refuted | Quot.sound, propext |
| C139_lines_partial | Classical.choice, Quot.sound, propext |
| C139_refuted | Quot.sound, propext |
| C139_utf8_partial | Classical.choice, Quot.sound, propext |
| C139_whole_story_partial | Classical.choice, Quot.sound, propext |
| C13_needs_working_signal | propext |
| C13_silence_after_close | Classical.choice, Quot.sound, propext |
| C13_silence_after_destructor | Classical.choice, Quot.sound, propext |
| C140_bounded_partial | Classical.choice, Quot.sound, propext |
| C140_ends_partial | Classical.choice, Quot.sound, propext |
| C140_mute_is_undefined | Quot.sound, propext |
| C140_never_stuck_partial | Classical.choice, Quot.sound, propext |
| C140_over_partial | Classical.choice, Quot.sound, propext |
| C140_path_partial | Quot.sound, propext |
| C140_refuted | Quot.sound, propext |
| C140_safe_partial | Classical.choice, Quot.sound, propext |
| C140_status_partial | Classical.choice, Quot.sound, propext |
| C141_exact_partial | Classical.choice, Quot.sound, propext |
| C141_refuted | Classical.choice, Quot.sound, propext |
| C141_silent_partial | Classical.choice, Quot.sound, propext |
| C142_end_is_bounded | Classical.choice, Quot.sound, propext |
| C142_ends_only_closed | Classical.choice, Quot.sound, propext |
| C142_never_stuck | Classical.choice, Quot.sound, propext |
| C143_closed_first_partial | Classical.choice, Quot.sound, propext |
| C143_copies_partial | Classical.choice, Quot.sound, propext |
| C143_exact_partial | Classical.choice, Quot.sound, propext |
| C143_refuted | propext |
| C144_enough_partial | Classical.choice, Quot.sound, propext |
| C144_exact_partial | Classical.choice, Quot.sound, propext |
| C144_is_the_walk | Quot.sound, propext |
| C144_open_streams | Classical.choice, Quot.sound, propext |
| C144_overflow_partial | Classical.choice, Quot.sound, propext |
| C144_refuted | Classical.choice, Quot.sound, propext |
| C144_silent | Classical.choice, Quot.sound, propext |
| C145_after_removal_partial | Classical.choice, Quot.sound, propext |
| C145_exact_partial | Classical.choice, Quot.sound, propext |
| C145_memory_grows | Quot.sound, propext |
| C145_refuted | Classical.choice, Quot.sound, propext |
| C146_refuted | Quot.sound, propext |
| C146_silent_partial | Quot.sound, propext |
| C146_waits_partial | Quot.sound, propext |
| C147_refuted | propext |
| C147_silent_partial | Quot.sound, propext |
| C147_terminated_partial | Classical.choice, Quot.sound, propext |
| C147_without_signal_partial | Classical.choice, Quot.sound, propext |
| C148_ends_partial | Quot.sound, propext |
| C148_interrupted_partial | Quot.sound, propext |
| C148_ready_partial | Quot.sound, propext |
| C148_refuted | Quot.sound, propext |
| C148_undisturbed_partial | Quot.sound, propext |
| C149_given_path_partial | Classical.choice, Quot.sound, propext |
| C149_real_path_partial | Classical.choice, Quot.sound, propext |
| C149_refuted | Quot.sound, propext |
| C149_walk_partial | Classical.choice, Quot.sound, propext |
| C14_early_close_fails_partial | Classical.choice, Quot.sound, propext |
| C14_refuted | propext |
| C150_deaf_partial | Classical.choice, Quot.sound, propext |
| C150_fanotify_deaf_partial | Quot.sound, propext |
| C150_fanotify_refuted | Quot.sound, propext |
| C150_refuted | Quot.sound, propext |
| C151_linux_partial | Classical.choice, Quot.sound, propext |
| C151_refuted | Quot.sound, propext |
| C151_windows | Quot.sound, propext |
| C152_callbacks | Quot.sound, propext |
| C152_close_partial | Quot.sound, propext |
| C152_destructor | Quot.sound, propext |
| C152_refuted | propext |
| C153_callbacks | Classical.choice, Quot.sound, propext |
| C153_end | Quot.sound, propext |
| C154_callbacks | Classical.choice, Quot.sound, propext |
| C154_end | Classical.choice, Quot.sound, propext |
| C155_fanotify_partial | Classical.choice, Quot.sound, propext |
| C155_inotify_partial | Classical.choice, Quot.sound, propext |
| C155_refuted | Quot.sound, propext |
| C155_windows_partial | Classical.choice, Quot.sound, propext |
| C156_darwin | Classical.choice, Quot.sound, propext |
| C156_fanotify | Classical.choice, Quot.sound, propext |
| C156_inotify | Classical.choice, Quot.sound, propext |
| C156_scanner | Classical.choice, Quot.sound, propext |
| C156_windows | Classical.choice, Quot.sound, propext |
| C157_event_partial | Quot.sound, propext |
| C157_message_partial | Classical.choice, Quot.sound, propext |
| C157_refuted | propext |
| C158_event_partial | Classical.choice, Quot.sound, propext |
| C158_message_partial | Classical.choice, Quot.sound, propext |
| C158_refuted | Quot.sound, propext |
| C159_leak_partial | Quot.sound, propext |
| C159_null_partial | (none) |
| C159_refuted | (none) |
| C159_safe_partial | propext |
| C15_close_returns | Classical.choice, Quot.sound, propext |
| C15_quiet_close_terminates | Quot.sound, propext |
| C15_refuted_under_load | Quot.sound, propext |
| C15_worker_never_stuck | Classical.choice, Quot.sound, propext |
| C160_clean_partial | Classical.choice, Quot.sound, propext |
| C160_own | Classical.choice, Quot.sound, propext |
| C160_refuted | Quot.sound, propext |
| C161_fanotify_refuted | Quot.sound, propext |
| C161_fanotify_silent_partial | Classical.choice, Quot.sound, propext |
| C161_known | propext |
| C161_refuted | Quot.sound, propext |
| C161_silent_partial | Classical.choice, Quot.sound, propext |
| C162_no_starving | Classical.choice, Quot.sound, propext |
| C162_read_returns | Classical.choice, Quot.sound, propext |
| C163_always_partial | Classical.choice, Quot.sound, propext |
| C163_lone_partial | Classical.choice, Quot.sound, propext |
| C163_missed_partial | Classical.choice, Quot.sound, propext |
| C163_no_removal_partial | Classical.choice, Quot.sound, propext |
| C163_no_starving_partial | Classical.choice, Quot.sound, propext |
| C163_refuted | Quot.sound, propext |
| C163_unmoved_partial | Classical.choice, Quot.sound, propext |
| C164_end_to_end | Classical.choice, Quot.sound, propext |
| C164_exact | Classical.choice, Quot.sound, propext |
| C164_half_told | Quot.sound, propext |
| C164_no_new_name | Quot.sound, propext |
| C164_refuted | Classical.choice, Quot.sound, propext |
| C164_to_itself | Quot.sound, propext |
| C164_two_moves_partial | Classical.choice, Quot.sound, propext |
| C165_no_starving_end_to_end | Classical.choice, Quot.sound, propext |
| C165_wakes_up | Classical.choice, Quot.sound, propext |
| C166_always_partial | Classical.choice, Quot.sound, propext |
| C166_missed_partial | Classical.choice, Quot.sound, propext |
| C166_no_removal_partial | Classical.choice, Quot.sound, propext |
| C166_no_starving_end_to_end_partial | Classical.choice, Quot.sound, propext |
| C166_refuted | Quot.sound, propext |
| C166_unmoved_partial | Classical.choice, Quot.sound, propext |
| C166_wakes_up_partial | Classical.choice, Quot.sound, propext |
| C167_exactly | Quot.sound, propext |
| C167_refuted | propext |
| C167_room_again | propext |
| C167_room_partial | Quot.sound, propext |
| C16_close_in_callback_hangs | Classical.choice, Quot.sound, propext |
| C16_close_waits | Classical.choice, Quot.sound, propext |
| C17_no_worker_step_after | Classical.choice, Quot.sound, propext |
| C17_signal_outlives_worker | Classical.choice, Quot.sound, propext |
| C18_bad_path | Classical.choice, Quot.sound, propext |
| C19_classes_partition | Quot.sound, propext |
| C19_codes_injective | propext |
| C19_message_shape | Quot.sound, propext |
| C19_messages_injective | Quot.sound, propext |
| C19_own_name | propext |
| C19_text_tells_class | Classical.choice, Quot.sound, propext |
| C20_error_announced_before_die | Classical.choice, Quot.sound, propext |
| C20_fatal_status_is_announced | Classical.choice, Quot.sound, propext |
| C20_linux_whole_watch | Classical.choice, Quot.sound, propext |
| C20_masked_error_refuted | propext |
| C21_deliveries_continue | Quot.sound, propext |
| C21_warnings_never_stop | Classical.choice, Quot.sound, propext |
| C22_fallback_exactly_when_unavailable | propext |
| C22_no_fallback_once_running | Classical.choice, Quot.sound, propext |
| C23_inotify_no_leak | Quot.sound, propext |
| C23_no_leak_partial | Quot.sound, propext |
| C23_refuted_by_descriptor_zero | Quot.sound, propext |
| C23_walk_closes | Quot.sound, propext |
| C24_open_refused_iff | Quot.sound, propext |
| C24_refuted_by_long_path | Quot.sound, propext |
| C24_walk_exact_partial | Classical.choice, Quot.sound, propext |
| C25_batch_safe | Classical.choice, Quot.sound, propext |
| C25_forever | Classical.choice, Quot.sound, propext |
| C25_no_data | Quot.sound, propext |
| C25_record_count | Quot.sound, propext |
| C26_batch_exact | Classical.choice, Quot.sound, propext |
| C26_known_batch | Classical.choice, Quot.sound, propext |
| C26_no_inventions | Classical.choice, Quot.sound, propext |
| C27_effect | Classical.choice, Quot.sound, propext |
| C27_requested | Classical.choice, Quot.sound, propext |
| C27_silent | Classical.choice, Quot.sound, propext |
| C28_refuted | Classical.choice, Quot.sound, propext |
| C28_same_dir_partial | Classical.choice, Quot.sound, propext |
| C28_split | Classical.choice, Quot.sound, propext |
| C29_refuted | Classical.choice, Quot.sound, propext |
| C29_unknown_partial | Classical.choice, Quot.sound, propext |
| C30_fanotify_refuted | Quot.sound, propext |
| C30_fanotify_silent | Classical.choice, Quot.sound, propext |
| C30_never | Classical.choice, Quot.sound, propext |
| C30_overflow_partial | Classical.choice, Quot.sound, propext |
| C30_refuted | Classical.choice, Quot.sound, propext |
| C31_all_histories_partial | Classical.choice, Quot.sound, propext |
| C31_every_change_once_partial | Classical.choice, Quot.sound, propext |
| C31_refuted | Quot.sound, propext |
| C32_keeping_up | Classical.choice, Quot.sound, propext |
| C33_once_noticed_partial | Classical.choice, Quot.sound, propext |
| C33_refuted | Quot.sound, propext |
| C34_others_partial | Classical.choice, Quot.sound, propext |
| C34_refuted | Quot.sound, propext |
| C35_no_leak_partial | Classical.choice, Quot.sound, propext |
| C35_refuted | Quot.sound, propext |
| C35_table_partial | Classical.choice, Quot.sound, propext |
| C36_batch_safe_partial | Quot.sound, propext |
| C36_refuted_by_full_buffer | Quot.sound, propext |
| C36_refuted_without_proc | Quot.sound, propext |
| C37_complete_in_order_partial | Classical.choice, Quot.sound, propext |
| C37_exact_partial | Classical.choice, Quot.sound, propext |
| C37_refuted | Quot.sound, propext |
| C38_adjacent_partial | Classical.choice, Quot.sound, propext |
| C38_refuted | Quot.sound, propext |
| C39_fanotify_inverted | Quot.sound, propext |
| C39_inotify_partial | Quot.sound, propext |
| C39_refuted | Quot.sound, propext |
| C40_before_partial | Classical.choice, Quot.sound, propext |
| C40_refuted | Quot.sound, propext |
| C41_path_partial | Classical.choice, Quot.sound, propext |
| C41_refuted | Quot.sound, propext |
| C42_pair | Classical.choice, Quot.sound, propext |
| C42_single | Classical.choice, Quot.sound, propext |
| C43_marked_or_warned | Quot.sound, propext |
| C44_darwin_alternates | Quot.sound, propext |
| C44_darwin_alternates_any_schedule | Quot.sound, propext |
| C45_darwin_destroy_partial | Classical.choice, Quot.sound, propext |
| C45_darwin_remade_file_reported_destroyed_partial | Classical.choice, Quot.sound, propext |
| C45_full_refuted | Quot.sound, propext |
| C46_darwin_pairs | Classical.choice, Quot.sound, propext |
| C46_darwin_pairs_unique | Classical.choice, Quot.sound, propext |
| C46_darwin_shape | Classical.choice, Quot.sound, propext |
| C46_darwin_two_each | Classical.choice, Quot.sound, propext |
| C47_darwin_flags | Classical.choice, Quot.sound, propext |
| C47_darwin_metadata | Classical.choice, Quot.sound, propext |
| C47_darwin_unrecognised | Quot.sound, propext |
| C48_darwin_all_delivered_partial | Quot.sound, propext |
| C48_darwin_close_partial | Quot.sound, propext |
| C48_darwin_quiet_partial | Quot.sound, propext |
| C48_full_refuted | Quot.sound, propext |
| C48_overlap_dropped | Quot.sound, propext |
| C49_full_refuted | Quot.sound, propext |
| C49_short_name_lost | propext |
| C49_windows_batch_partial | Classical.choice, Quot.sound, propext |
| C49_windows_plain_partial | Classical.choice, Quot.sound, propext |
| C50_first_loop_ends_partial | (none) |
| C50_first_loop_never_ends | Quot.sound, propext |
| C50_full_refuted | Quot.sound, propext |
| C50_odd_name_never_ends | Quot.sound, propext |
| C50_windows_batch_ends_partial | Quot.sound, propext |
| C50_windows_ends_partial | Quot.sound, propext |
| C51_full_refuted | (none) |
| C51_windows_copy_partial | Classical.choice, Quot.sound, propext |
| C52_quiet_from_start | Classical.choice, Quot.sound, propext |
| C52_quiet_tree | Classical.choice, Quot.sound, propext |
| C53_full_refuted | propext |
| C53_scanner_told_partial | Classical.choice, Quot.sound, propext |
| C54_full_refuted | propext |
| C54_scanner_destroy_partial | Quot.sound, propext |
| C54_scanner_return_partial | Classical.choice, Quot.sound, propext |
| C55_all_languages_partial | Quot.sound, propext |
| C55_c_event | propext |
| C55_codes_agree | propext |
| C55_foreign_codes | Quot.sound, propext |
| C55_refuted | Quot.sound, propext |
| C56_answers | Quot.sound, propext |
| C56_failed_close_leaks | Quot.sound, propext |
| C56_freed_iff_closed | Classical.choice, Quot.sound, propext |
| C56_no_use_after_free | Classical.choice, Quot.sound, propext |
| C56_rule_is_needed | Classical.choice, Quot.sound, propext |
| C57_refuted | Quot.sound, propext |
| C57_safe_iff_partial | Quot.sound, propext |
| C58_python | Quot.sound, propext |
| C58_python_failed_constructor | propext |
| C58_python_one_call | Quot.sound, propext |
| C58_typescript | Quot.sound, propext |
| C59_burst_loses | Quot.sound, propext |
| C59_no_invention | Quot.sound, propext |
| C59_nothing_lost_partial | Quot.sound, propext |
| C59_refuted | Quot.sound, propext |
| C60_error_partial | Classical.choice, Quot.sound, propext |
| C60_nearest_partial | Quot.sound, propext |
| C60_order_partial | Quot.sound, propext |
| C60_refuted | Classical.choice, Quot.sound, propext |
| C61_abort_iff | Classical.choice, Quot.sound, propext |
| C61_documented_use_partial | Classical.choice, Quot.sound, propext |
| C61_duration | Classical.choice, Quot.sound, propext |
| C61_exit_and_help | Classical.choice, Quot.sound, propext |
| C61_overflow | Classical.choice, Quot.sound, propext |
| C61_refuted | Classical.choice, Quot.sound, propext |
| C62_arrival_partial | Classical.choice, Quot.sound, propext |
| C62_refuted | Quot.sound, propext |
| C63_refuted | Quot.sound, propext |
| C63_single_effect_partial | Classical.choice, Quot.sound, propext |
| C64_darwin_result_partial | propext |
| C64_full_refuted | propext |
| C65_darwin_lone_moves_silent_partial | Quot.sound, propext |
| C65_darwin_moves_partial | Classical.choice, Quot.sound, propext |
| C65_full_refuted | Quot.sound, propext |
| C65_mispaired | Quot.sound, propext |
| C66_deaf_for_ever | propext |
| C66_failed_read_is_silent | propext |
| C66_full_refuted | propext |
| C66_windows_all_batches_partial | Quot.sound, propext |
| C66_windows_not_deaf_partial | Quot.sound, propext |
| C67_full_refuted | propext |
| C67_windows_handles_partial | propext |
| C67_windows_unopenable_noticed_partial | propext |
| C68_full_refuted | (none) |
| C68_read_always_outstanding | Quot.sound, propext |
| C69_full_refuted | propext |
| C69_no_options | propext |
| C69_scanner_goes_on_partial | Classical.choice, Quot.sound, propext |
| C70_full_refuted | propext |
| C70_scanner_root_gone_partial | propext |
| C70_scanner_root_replaced_partial | propext |
| C70_undefined_reachable | propext |
| C71_locked_partial | Quot.sound, propext |
| C71_refuted | propext |
| C72_exact_partial | Classical.choice, Quot.sound, propext |
| C72_node_longest_partial | Classical.choice, Quot.sound, propext |
| C72_refuted | Quot.sound, propext |
| C73_exact_partial | Quot.sound, propext |
| C73_refuted | Quot.sound, propext |
| C74_json_partial | Classical.choice, Quot.sound, propext |
| C74_refuted | Quot.sound, propext |
| C75_context_outlives_thread_partial | Quot.sound, propext |
| C75_refuted | propext |
| C76_only_waiting_partial | Quot.sound, propext |
| C76_refuted | (none) |
| C77_default_is_cwd_partial | Classical.choice, Quot.sound, propext |
| C77_missing_path_never_watched | Classical.choice, Quot.sound, propext |
| C77_refuted | Classical.choice, Quot.sound, propext |
| C78_exit | (none) |
| C78_lines_decode_partial | Quot.sound, propext |
| C78_refuted | propext |
| C79_caught_up | Classical.choice, Quot.sound, propext |
| C79_in_order | Classical.choice, Quot.sound, propext |
| C79_nothing_lost | Classical.choice, Quot.sound, propext |
| C80_end_to_end_partial | Classical.choice, Quot.sound, propext |
| C80_refuted | Quot.sound, propext |
| C81_refuted | Quot.sound, propext |
| C81_whole_life_safe_partial | Classical.choice, Quot.sound, propext |
| C82_nothing_invented | Classical.choice, Quot.sound, propext |
| C83_keeping_up | Classical.choice, Quot.sound, propext |
| C84_genuine_partial | Classical.choice, Quot.sound, propext |
| C84_log | Classical.choice, Quot.sound, propext |
| C84_paths_partial | Classical.choice, Quot.sound, propext |
| C84_refuted_by_removed_directory | Quot.sound, propext |
| C85_always_partial | Classical.choice, Quot.sound, propext |
| C85_lone_partial | Classical.choice, Quot.sound, propext |
| C85_missed_needs_removal | Classical.choice, Quot.sound, propext |
| C85_missed_partial | Classical.choice, Quot.sound, propext |
| C85_no_removal_partial | Classical.choice, Quot.sound, propext |
| C85_noticed_partial | Classical.choice, Quot.sound, propext |
| C85_refuted_by_crossed_moves | Quot.sound, propext |
| C85_refuted_by_removed_directory | Quot.sound, propext |
| C85_unmoved_partial | Classical.choice, Quot.sound, propext |
| C86_always_partial | Classical.choice, Quot.sound, propext |
| C86_in_order_partial | Classical.choice, Quot.sound, propext |
| C86_lone_partial | Classical.choice, Quot.sound, propext |
| C86_missed_partial | Classical.choice, Quot.sound, propext |
| C86_no_moves_partial | Classical.choice, Quot.sound, propext |
| C86_no_removal_partial | Classical.choice, Quot.sound, propext |
| C86_refuted_by_merging | Quot.sound, propext |
| C86_unmoved_partial | Classical.choice, Quot.sound, propext |
| DLife.C100_bad_path | Classical.choice, Quot.sound, propext |
| DLife.C100_early_close_fails_partial | Classical.choice, Quot.sound, propext |
| DLife.C100_full_refuted | Quot.sound, propext |
| DLife.C101_alternates | Classical.choice, Quot.sound, propext |
| DLife.C101_delivers_exactly | Classical.choice, Quot.sound, propext |
| DLife.C101_nothing_dropped | Classical.choice, Quot.sound, propext |
| DLife.C102_full_refuted | Quot.sound, propext |
| DLife.C102_late_event | Quot.sound, propext |
| DLife.C102_no_use_after_return_partial | Classical.choice, Quot.sound, propext |
| DLife.C95_live_first_die_last | Classical.choice, Quot.sound, propext |
| DLife.C95_messages | Classical.choice, Quot.sound, propext |
| DLife.C95_one_at_a_time | Classical.choice, Quot.sound, propext |
| DLife.C96_close_answers | Classical.choice, Quot.sound, propext |
| DLife.C96_what_success_means | Classical.choice, Quot.sound, propext |
| DLife.C97_silence | Classical.choice, Quot.sound, propext |
| DLife.C97_waits | Classical.choice, Quot.sound, propext |
| DLife.C98_close_returns_partial | Classical.choice, Quot.sound, propext |
| DLife.C98_close_terminates_partial | Classical.choice, Quot.sound, propext |
| DLife.C98_flag | Classical.choice, Quot.sound, propext |
| DLife.C98_full_refuted | Quot.sound, propext |
| DLife.C98_worker_steps | Classical.choice, Quot.sound, propext |
| DLife.C99_close_in_event_callback_hangs | Classical.choice, Quot.sound, propext |
| DLife.C99_close_in_message_callback_hangs | Classical.choice, Quot.sound, propext |
| Poll.C126_deaf_after | Classical.choice, Quot.sound, propext |
| Poll.C126_every_notification_told | Classical.choice, Quot.sound, propext |
| Poll.C126_one_history | Quot.sound, propext |
| Poll.C126_one_story | Classical.choice, Quot.sound, propext |
| Poll.C126_windows_whole_life | Classical.choice, Quot.sound, propext |
| Poll.C87_live_first_die_last | Classical.choice, Quot.sound, propext |
| Poll.C87_scanner_messages | Classical.choice, Quot.sound, propext |
| Poll.C87_windows_batches | Quot.sound, propext |
| Poll.C87_windows_messages | Classical.choice, Quot.sound, propext |
| Poll.C88_at_most_one_success | Classical.choice, Quot.sound, propext |
| Poll.C88_close_agrees_with_die | Classical.choice, Quot.sound, propext |
| Poll.C88_first_close_is_the_result | Classical.choice, Quot.sound, propext |
| Poll.C88_later_closes_fail | Classical.choice, Quot.sound, propext |
| Poll.C89_destructor_waits | Classical.choice, Quot.sound, propext |
| Poll.C89_no_worker_step_after | Classical.choice, Quot.sound, propext |
| Poll.C89_silence_after_close | Classical.choice, Quot.sound, propext |
| Poll.C89_silence_after_destructor | Classical.choice, Quot.sound, propext |
| Poll.C90_flag | Classical.choice, Quot.sound, propext |
| Poll.C90_scanner_close_returns | Classical.choice, Quot.sound, propext |
| Poll.C90_scanner_close_terminates | Classical.choice, Quot.sound, propext |
| Poll.C91_full_refuted | Quot.sound, propext |
| Poll.C91_windows_close_returns_partial | Classical.choice, Quot.sound, propext |
| Poll.C91_windows_close_terminates_partial | Classical.choice, Quot.sound, propext |
| Poll.C92_close_in_callback_hangs | Classical.choice, Quot.sound, propext |
| Poll.C92_close_in_callback_waits | Classical.choice, Quot.sound, propext |
| Poll.C93_bad_path | Classical.choice, Quot.sound, propext |
| Poll.C93_early_close_fails_partial | Classical.choice, Quot.sound, propext |
| Poll.C93_full_refuted | propext |
| Poll.C94_scanner_delivers_exactly | Classical.choice, Quot.sound, propext |
| Poll.C94_scanner_quiet_life | Classical.choice, Quot.sound, propext |
| Poll.C94_windows_delivers_exactly | Classical.choice, Quot.sound, propext |
| Poll.C94_windows_smooth_life | Classical.choice, Quot.sound, propext |
