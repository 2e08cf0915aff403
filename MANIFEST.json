{
 "claims": [
  {
   "property": "C01",
   "status": "proved",
   "theorems": [
    "Verif.Props.C01_eq_iff_same_event",
    "Verif.Props.C01_eq_equivalence",
    "Verif.Props.C01_ne_is_not_eq",
    "Verif.Props.C01_copy_eq"
   ],
   "note": "Equality of events is characterised field by field at every depth; paths compare by components."
  },
  {
   "property": "C02",
   "status": "partial",
   "theorems": [
    "Verif.Props.C02_refuted",
    "Verif.Props.C02_text_is_decimal_iff_partial",
    "Verif.Props.C02_text_exact_partial"
   ],
   "note": "False of the code as stated (numeral padded with NULs or empty); exact characterisation proved and the full claim refuted."
  },
  {
   "property": "C03",
   "status": "partial",
   "theorems": [
    "Verif.Props.C03_stream_decodes_partial",
    "Verif.Props.C03_injective_partial",
    "Verif.Props.C03_refuted_by_quote",
    "Verif.Props.C03_refuted_by_time",
    "Verif.Props.C03_injective_refuted"
   ],
   "note": "Full claim refuted (quote in a name, short time, colliding rename events); proved for names without bytes JSON must escape and 19-character times."
  },
  {
   "property": "C04",
   "status": "partial",
   "theorems": [
    "Verif.Props.C04_line_decodes_partial",
    "Verif.Props.C04_refuted"
   ],
   "note": "Full claim refuted; proved for chains of any depth with plain names and 19-character times."
  },
  {
   "property": "C05",
   "status": "proved",
   "theorems": [
    "Verif.Props.C05_documented_names",
    "Verif.Props.C05_names_injective",
    "Verif.Props.C05_other_for_unknown",
    "Verif.Props.C05_wide_event_is_narrow"
   ],
   "note": "All enumerators, all other integers, narrow and wide."
  },
  {
   "property": "C06",
   "status": "proved",
   "theorems": [
    "Verif.Props.C06_join_carries_both",
    "Verif.Props.C06_rename_event_survives_copies"
   ],
   "note": "Two-event constructor and copies."
  },
  {
   "property": "C07",
   "status": "proved",
   "theorems": [
    "Verif.Props.C07_start_undisturbed",
    "Verif.Props.C07_never_early",
    "Verif.Props.C07_darwin_wakes_once"
   ],
   "note": "All three stop-signal implementations; plus the whole-life consequence for Linux."
  },
  {
   "property": "C08",
   "status": "partial",
   "theorems": [
    "Verif.Props.C08_linux_refuted",
    "Verif.Props.C08_stays_released_partial",
    "Verif.Props.C08_linux_next_query_partial"
   ],
   "note": "False on Linux (a successful query consumes the signal; the next one reports an error): refuted and the exact behaviour proved. Proved for the other two implementations."
  },
  {
   "property": "C09",
   "status": "proved",
   "theorems": [
    "Verif.Props.C09_release_not_lost",
    "Verif.Props.C09_check_sees_release"
   ],
   "note": "All interleavings, working eventfd."
  },
  {
   "property": "C10",
   "status": "proved",
   "theorems": [
    "Verif.Props.C10_linux_whole_watch",
    "Verif.Props.C10_live_first_die_last",
    "Verif.Props.C10_exactly_once"
   ],
   "note": "All interleavings, callback behaviours and kernel answers; what a back end may deliver in between is proved of the inotify and fanotify models in Lemmas/Adapter and used in Props/Adapter."
  },
  {
   "property": "C11",
   "status": "proved",
   "theorems": [
    "Verif.Props.C11_linux_whole_watch",
    "Verif.Props.C11_close_agrees_with_die",
    "Verif.Props.C11_broken_signal_refuses"
   ],
   "note": "With a working stop signal; the broken-signal case is characterised separately."
  },
  {
   "property": "C12",
   "status": "proved",
   "theorems": [
    "Verif.Props.C12_at_most_one_success",
    "Verif.Props.C12_later_closes_fail"
   ],
   "note": "All interleavings of one owner thread and the worker."
  },
  {
   "property": "C13",
   "status": "proved",
   "theorems": [
    "Verif.Props.C13_silence_after_close",
    "Verif.Props.C13_silence_after_destructor",
    "Verif.Props.C13_needs_working_signal"
   ],
   "note": "With a working stop signal for close, always for the destructor; the exception is shown to be real."
  },
  {
   "property": "C14",
   "status": "partial",
   "theorems": [
    "Verif.Props.C14_refuted",
    "Verif.Props.C14_early_close_fails_partial"
   ],
   "note": "False as documented: a close between the start-up check and the live message succeeds; refuted. Proved for a close that released before the check."
  },
  {
   "property": "C15",
   "status": "proved",
   "theorems": [
    "Verif.Props.C15_refuted_under_load",
    "Verif.Props.C15_quiet_close_terminates",
    "Verif.Props.C15_worker_never_stuck",
    "Verif.Props.C15_close_returns"
   ],
   "note": "Ranking bound, no stuck state and a finishing schedule once the file system is quiet; that the condition is needed is shown (C15_refuted_under_load)."
  },
  {
   "property": "C16",
   "status": "proved",
   "theorems": [
    "Verif.Props.C16_close_waits",
    "Verif.Props.C16_close_in_callback_hangs"
   ],
   "note": "With a working stop signal."
  },
  {
   "property": "C17",
   "status": "proved",
   "theorems": [
    "Verif.Props.C17_signal_outlives_worker",
    "Verif.Props.C17_no_worker_step_after"
   ],
   "note": "All interleavings."
  },
  {
   "property": "C18",
   "status": "proved",
   "theorems": [
    "Verif.Props.C18_bad_path"
   ],
   "note": "All interleavings."
  },
  {
   "property": "C19",
   "status": "proved",
   "theorems": [
    "Verif.Props.C19_text_tells_class",
    "Verif.Props.C19_classes_partition",
    "Verif.Props.C19_messages_injective",
    "Verif.Props.C19_message_shape",
    "Verif.Props.C19_codes_injective",
    "Verif.Props.C19_own_name"
   ],
   "note": "All 16-bit codes."
  },
  {
   "property": "C20",
   "status": "partial",
   "theorems": [
    "Verif.Props.C20_linux_whole_watch",
    "Verif.Props.C20_error_announced_before_die",
    "Verif.Props.C20_fatal_status_is_announced",
    "Verif.Props.C20_masked_error_refuted"
   ],
   "note": "Announcement and order proved for every ending; the corner where the stop signal masks an error of the same wake-up is refuted."
  },
  {
   "property": "C21",
   "status": "proved",
   "theorems": [
    "Verif.Props.C21_warnings_never_stop",
    "Verif.Props.C21_deliveries_continue"
   ],
   "note": "Safety and progress part."
  },
  {
   "property": "C22",
   "status": "proved",
   "theorems": [
    "Verif.Props.C22_no_fallback_once_running",
    "Verif.Props.C22_fallback_exactly_when_unavailable"
   ],
   "note": "Both directions."
  },
  {
   "property": "C23",
   "status": "partial",
   "theorems": [
    "Verif.Props.C23_walk_closes",
    "Verif.Props.C23_refuted_by_descriptor_zero",
    "Verif.Props.C23_inotify_no_leak",
    "Verif.Props.C23_no_leak_partial"
   ],
   "note": "inotify: proved for all answers of the system calls. fanotify: refuted when descriptor 0 is free, proved otherwise; directory streams of the walk proved."
  },
  {
   "property": "C24",
   "status": "partial",
   "theorems": [
    "Verif.Props.C24_open_refused_iff",
    "Verif.Props.C24_walk_exact_partial",
    "Verif.Props.C24_refuted_by_long_path"
   ],
   "note": "Exact for all finite trees whose paths fit into PATH_MAX; refuted for longer ones (path is cut)."
  },
  {
   "property": "C25",
   "status": "proved",
   "theorems": [
    "Verif.Props.C25_batch_safe",
    "Verif.Props.C25_forever",
    "Verif.Props.C25_record_count",
    "Verif.Props.C25_no_data"
   ],
   "note": "Byte-level model of the buffer; every batch, every table, every file-system behaviour during the batch, any number of batches from the table made at opening."
  },
  {
   "property": "C26",
   "status": "proved",
   "theorems": [
    "Verif.Props.C26_batch_exact",
    "Verif.Props.C26_known_batch",
    "Verif.Props.C26_no_inventions"
   ],
   "note": "Exact output and table for every batch; file events equal the independent list of due events when all watches are known; no inventions for any batch."
  },
  {
   "property": "C27",
   "status": "proved",
   "theorems": [
    "Verif.Props.C27_effect",
    "Verif.Props.C27_silent",
    "Verif.Props.C27_requested"
   ],
   "note": "All 32-bit masks."
  },
  {
   "property": "C28",
   "status": "partial",
   "theorems": [
    "Verif.Props.C28_same_dir_partial",
    "Verif.Props.C28_split",
    "Verif.Props.C28_refuted"
   ],
   "note": "False for a rename between two directories (new path is put below the old directory) and when the halves fall into different reads: both shown. Proved for renames inside one directory at any place of any batch."
  },
  {
   "property": "C29",
   "status": "partial",
   "theorems": [
    "Verif.Props.C29_unknown_partial",
    "Verif.Props.C29_refuted"
   ],
   "note": "Proved except when the stray record stands between the halves of one rename (then refuted)."
  },
  {
   "property": "C30",
   "status": "partial",
   "theorems": [
    "Verif.Props.C30_fanotify_silent",
    "Verif.Props.C30_fanotify_refuted",
    "Verif.Props.C30_never",
    "Verif.Props.C30_refuted",
    "Verif.Props.C30_overflow_partial"
   ],
   "note": "The documented text is never produced (proved for every batch); what is proved instead: each overflow record gives one phantom warning (inotify). On fanotify nothing at all is announced (C30_fanotify_refuted, C30_fanotify_silent)."
  },
  {
   "property": "C31",
   "status": "partial",
   "theorems": [
    "Verif.Props.C31_every_change_once_partial",
    "Verif.Props.C31_refuted",
    "Verif.Props.C31_all_histories_partial"
   ],
   "note": "Proved for every history (any interleaving, any batch boundaries, operations between any two system calls of the watcher, failing watches) in which no file is moved between two watched directories; C31_all_histories_partial drops the condition on directory renames, C103 all conditions. The full claim is false of the code (C31_refuted): a move between two watched directories is reported with a new path that joins the old directory and the new name."
  },
  {
   "property": "C32",
   "status": "proved",
   "theorems": [
    "Verif.Props.C32_keeping_up"
   ],
   "note": "For all trees whose directories were marked and all sequences of the calm operations (files and directories created, modified, removed, renamed inside a directory, moved in and out; directories not moved), the events are exactly those of a specification that knows nothing of watches. Descriptor numbers are 31 bit."
  },
  {
   "property": "C33",
   "status": "partial",
   "theorems": [
    "Verif.Props.C33_refuted",
    "Verif.Props.C33_once_noticed_partial"
   ],
   "note": "The full claim is false of the code (C33_refuted): an entry made between the creation of its directory and the reading of that event is lost. Proved after every history: once the creation of the directory has been read, entries are reported."
  },
  {
   "property": "C34",
   "status": "partial",
   "theorems": [
    "Verif.Props.C34_refuted",
    "Verif.Props.C34_others_partial"
   ],
   "note": "The full claim is false of the code (C34_refuted): paths below a renamed directory stay the old ones. Proved: changes are told under the path their directory was first watched under, hence correctly wherever that is still its path."
  },
  {
   "property": "C35",
   "status": "partial",
   "theorems": [
    "Verif.Props.C35_refuted",
    "Verif.Props.C35_table_partial",
    "Verif.Props.C35_no_leak_partial"
   ],
   "note": "Proved for histories in which no directory is moved; the set of descriptors is right for all histories. The full claim is false of the code (C35_refuted): the path of a renamed directory is not updated."
  },
  {
   "property": "C36",
   "status": "partial",
   "theorems": [
    "Verif.Props.C36_batch_safe_partial",
    "Verif.Props.C36_refuted_by_full_buffer",
    "Verif.Props.C36_refuted_without_proc"
   ],
   "note": "Proved for every batch that leaves at least 4 bytes of the buffer free or does not end in a rename, on a file system where an opened directory has a path. False otherwise: a rename at the end of a completely full buffer reads behind it (C36_refuted_by_full_buffer), and without /proc path_buf[-1] is written (C36_refuted_without_proc)."
  },
  {
   "property": "C37",
   "status": "partial",
   "theorems": [
    "Verif.Props.C37_complete_in_order_partial",
    "Verif.Props.C37_exact_partial",
    "Verif.Props.C37_refuted"
   ],
   "note": "Exact report proved for every batch in which no moved-to record is directly followed by a moved-from record. Otherwise false (C37_refuted): the second record is reported again and later records are lost."
  },
  {
   "property": "C38",
   "status": "partial",
   "theorems": [
    "Verif.Props.C38_refuted",
    "Verif.Props.C38_adjacent_partial"
   ],
   "note": "Proved: folded records are adjacent, moved-from then moved-to. False of the code in general (C38_refuted): there is no check that they belong to the same rename."
  },
  {
   "property": "C39",
   "status": "partial",
   "theorems": [
    "Verif.Props.C39_inotify_partial",
    "Verif.Props.C39_refuted",
    "Verif.Props.C39_fanotify_inverted"
   ],
   "note": "Proved for inotify. False of fanotify (C39_refuted, C39_fanotify_inverted): the condition is the wrong way round."
  },
  {
   "property": "C40",
   "status": "partial",
   "theorems": [
    "Verif.Props.C40_before_partial",
    "Verif.Props.C40_refuted"
   ],
   "note": "Proved: everything before the stale record is reported and the watcher goes on. What follows it in the batch is lost (C40_refuted)."
  },
  {
   "property": "C41",
   "status": "partial",
   "theorems": [
    "Verif.Props.C41_path_partial",
    "Verif.Props.C41_refuted"
   ],
   "note": "Proved for all directories but the root, where two separators are reported (C41_refuted)."
  },
  {
   "property": "C42",
   "status": "proved",
   "theorems": [
    "Verif.Props.C42_single",
    "Verif.Props.C42_pair"
   ],
   "note": "All 2^64 masks, single records and pairs; the second half of a pair takes its path type from the first record, which is right whenever the two records agree (as the halves of one rename do)."
  },
  {
   "property": "C43",
   "status": "proved",
   "theorems": [
    "Verif.Props.C43_marked_or_warned"
   ],
   "note": "For every content of the buffer, not only well-formed batches."
  },
  {
   "property": "C44",
   "status": "proved",
   "theorems": [
    "Verif.Props.C44_darwin_alternates",
    "Verif.Props.C44_darwin_alternates_any_schedule"
   ],
   "note": "All notification histories and all schedules; paths compared as the strings the system gives."
  },
  {
   "property": "C45",
   "status": "partial",
   "theorems": [
    "Verif.Props.C45_full_refuted",
    "Verif.Props.C45_darwin_destroy_partial",
    "Verif.Props.C45_darwin_remade_file_reported_destroyed_partial"
   ],
   "note": "Full claim refuted: removal of a path not created while watching is silent. Proved: exactly which removals are reported; a file removed and remade between two notifications is last reported destroyed."
  },
  {
   "property": "C46",
   "status": "proved",
   "theorems": [
    "Verif.Props.C46_darwin_pairs",
    "Verif.Props.C46_darwin_pairs_unique",
    "Verif.Props.C46_darwin_two_each",
    "Verif.Props.C46_darwin_shape"
   ],
   "note": "Rename events of every history are the unique pairing of neighbouring rename notifications; shape of the events."
  },
  {
   "property": "C47",
   "status": "proved",
   "theorems": [
    "Verif.Props.C47_darwin_unrecognised",
    "Verif.Props.C47_darwin_flags",
    "Verif.Props.C47_darwin_metadata"
   ],
   "note": "All flag words, all histories: set, order, path and type of the events of a notification; unrecognised effects; metadata-only changes."
  },
  {
   "property": "C48",
   "status": "partial",
   "theorems": [
    "Verif.Props.C48_full_refuted",
    "Verif.Props.C48_overlap_dropped",
    "Verif.Props.C48_darwin_close_partial",
    "Verif.Props.C48_darwin_all_delivered_partial",
    "Verif.Props.C48_darwin_quiet_partial"
   ],
   "note": "Full claim refuted: batches flushed while closing (or handed over while another is handled) are dropped. Proved for all schedules: whole batches in order, each handled or dropped once; everything delivered when none is dropped; nothing after the mutex is taken."
  },
  {
   "property": "C49",
   "status": "partial",
   "theorems": [
    "Verif.Props.C49_full_refuted",
    "Verif.Props.C49_short_name_lost",
    "Verif.Props.C49_windows_batch_partial",
    "Verif.Props.C49_windows_plain_partial"
   ],
   "note": "Full claim refuted: a rename split over two batches is lost; a lone one-character name is lost. Proved from the bytes of the buffer for all batches of at least 16 bytes: exact report when renames have both halves; all other changes always."
  },
  {
   "property": "C50",
   "status": "partial",
   "theorems": [
    "Verif.Props.C50_odd_name_never_ends",
    "Verif.Props.C50_first_loop_never_ends",
    "Verif.Props.C50_full_refuted",
    "Verif.Props.C50_windows_ends_partial",
    "Verif.Props.C50_windows_batch_ends_partial",
    "Verif.Props.C50_first_loop_ends_partial"
   ],
   "note": "Full claim refuted: a name of odd length, or a first read answered at once, is processed for ever. Proved: ends for arbitrary bytes without odd lengths, with a bound."
  },
  {
   "property": "C51",
   "status": "partial",
   "theorems": [
    "Verif.Props.C51_full_refuted",
    "Verif.Props.C51_windows_copy_partial"
   ],
   "note": "Full claim refuted (long paths are written past the buffer). Proved: exactly the lengths for which the copy is defined."
  },
  {
   "property": "C52",
   "status": "proved",
   "theorems": [
    "Verif.Props.C52_quiet_tree",
    "Verif.Props.C52_quiet_from_start"
   ],
   "note": "After every history, any number of passes over any tree whose directories and times can be read; and from the start."
  },
  {
   "property": "C53",
   "status": "partial",
   "theorems": [
    "Verif.Props.C53_full_refuted",
    "Verif.Props.C53_scanner_told_partial"
   ],
   "note": "Full claim refuted: files appearing in an empty tree are swallowed. Proved exactly for all series of passes when the first tree is not empty, also with changes in the middle of a pass."
  },
  {
   "property": "C54",
   "status": "partial",
   "theorems": [
    "Verif.Props.C54_full_refuted",
    "Verif.Props.C54_scanner_destroy_partial",
    "Verif.Props.C54_scanner_return_partial"
   ],
   "note": "Full claim refuted: deletions are never reported (pruning is only reached with an empty bucket). Proved: when destroy events are sent at all, and what is reported when a file comes back."
  },
  {
   "property": "C55",
   "status": "partial",
   "theorems": [
    "Verif.Props.C55_c_event",
    "Verif.Props.C55_codes_agree",
    "Verif.Props.C55_foreign_codes",
    "Verif.Props.C55_all_languages_partial",
    "Verif.Props.C55_refuted"
   ],
   "note": "C event: all fields proved for all names without a zero byte (all OS names); codes: all three decoders give the documented names. Missing: names that are not UTF-8 - refuted (Rust: empty path; Python: event lost)."
  },
  {
   "property": "C56",
   "status": "proved",
   "theorems": [
    "Verif.Props.C56_no_use_after_free",
    "Verif.Props.C56_freed_iff_closed",
    "Verif.Props.C56_answers",
    "Verif.Props.C56_rule_is_needed",
    "Verif.Props.C56_failed_close_leaks"
   ],
   "note": "All call sequences: no use after free under the handle rule, freed iff close answered true, null answers false; also proved: a close that answered false after the thread ended leaks the watcher for ever. What close() itself answers is C11/C12."
  },
  {
   "property": "C57",
   "status": "partial",
   "theorems": [
    "Verif.Props.C57_safe_iff_partial",
    "Verif.Props.C57_refuted"
   ],
   "note": "Exact characterisation with a writable stop signal; the full claim is refuted: close() then drop is a use after free."
  },
  {
   "property": "C58",
   "status": "proved",
   "theorems": [
    "Verif.Props.C58_python",
    "Verif.Props.C58_python_one_call",
    "Verif.Props.C58_python_failed_constructor",
    "Verif.Props.C58_typescript"
   ],
   "note": "Python: safe and one C call for all sequences of close/exit/deinit/del with events in between when the stop signal can be written; at most one C call in every case. TypeScript: same, with the answers. A failed stop signal followed by freeing the context is C75."
  },
  {
   "property": "C59",
   "status": "partial",
   "theorems": [
    "Verif.Props.C59_no_invention",
    "Verif.Props.C59_nothing_lost_partial",
    "Verif.Props.C59_burst_loses",
    "Verif.Props.C59_refuted"
   ],
   "note": "All schedules: nothing invented, repeated, reordered or freed twice, at most 1024 wait; complete delivery while JavaScript is at most 1024 events behind. Full claim refuted: a burst of n > 1024 loses n - 1024 events and leaks their copies."
  },
  {
   "property": "C60",
   "status": "partial",
   "theorems": [
    "Verif.Props.C60_refuted",
    "Verif.Props.C60_nearest_partial",
    "Verif.Props.C60_error_partial",
    "Verif.Props.C60_order_partial"
   ],
   "note": "Nearest double, exact iff 53 significant bits, error at most 128 ns (0..2043) and 512 ns (all), monotone. Exactness refuted for a 2024 time."
  },
  {
   "property": "C61",
   "status": "partial",
   "theorems": [
    "Verif.Props.C61_exit_and_help",
    "Verif.Props.C61_documented_use_partial",
    "Verif.Props.C61_overflow",
    "Verif.Props.C61_abort_iff",
    "Verif.Props.C61_duration",
    "Verif.Props.C61_refuted"
   ],
   "note": "Proved for all argument vectors: exit status, what is watched, when help is shown, how long is watched, when the program aborts. The documented uses are proved to do what the usage text says up to 2^63 ns; the full claim is refuted: unknown units, missing or malformed times and extra arguments are not answered with help, and longer durations overflow."
  },
  {
   "property": "C62",
   "status": "partial",
   "theorems": [
    "Verif.Props.C62_refuted",
    "Verif.Props.C62_arrival_partial"
   ],
   "note": "The full claim is false of the code (C62_refuted): only creations lead to a mark, arrivals do not. Proved: the arrival itself is reported."
  },
  {
   "property": "C63",
   "status": "partial",
   "theorems": [
    "Verif.Props.C63_refuted",
    "Verif.Props.C63_single_effect_partial"
   ],
   "note": "False of the code (C63_refuted); proved for masks with one effect."
  },
  {
   "property": "C64",
   "status": "partial",
   "theorems": [
    "Verif.Props.C64_full_refuted",
    "Verif.Props.C64_darwin_result_partial"
   ],
   "note": "Full claim refuted: a stream that could not be opened is waited on until the owner closes. Proved: the answer given then."
  },
  {
   "property": "C65",
   "status": "partial",
   "theorems": [
    "Verif.Props.C65_full_refuted",
    "Verif.Props.C65_mispaired",
    "Verif.Props.C65_darwin_moves_partial",
    "Verif.Props.C65_darwin_lone_moves_silent_partial"
   ],
   "note": "Full claim refuted: a move out of the tree is connected to the next rename. Proved for any series of moves inside the tree; lone moves in or out are silent."
  },
  {
   "property": "C66",
   "status": "partial",
   "theorems": [
    "Verif.Props.C66_full_refuted",
    "Verif.Props.C66_deaf_for_ever",
    "Verif.Props.C66_failed_read_is_silent",
    "Verif.Props.C66_windows_not_deaf_partial",
    "Verif.Props.C66_windows_all_batches_partial"
   ],
   "note": "Full claim refuted: after an overflow, or after the failure of a read that was queued, nothing is reported any more, silently. Proved for all histories without these; exact output for histories without errors."
  },
  {
   "property": "C67",
   "status": "partial",
   "theorems": [
    "Verif.Props.C67_full_refuted",
    "Verif.Props.C67_windows_handles_partial",
    "Verif.Props.C67_windows_unopenable_noticed_partial"
   ],
   "note": "Full claim refuted: the directory handle is never closed. Proved: it is the only one, for all outcomes."
  },
  {
   "property": "C68",
   "status": "partial",
   "theorems": [
    "Verif.Props.C68_full_refuted",
    "Verif.Props.C68_read_always_outstanding"
   ],
   "note": "Refuted: in every history without errors a read is outstanding when the watch ends. Only negative results."
  },
  {
   "property": "C69",
   "status": "partial",
   "theorems": [
    "Verif.Props.C69_full_refuted",
    "Verif.Props.C69_no_options",
    "Verif.Props.C69_scanner_goes_on_partial"
   ],
   "note": "Full claim refuted: the options are combined with & (none), so an unreadable directory throws in a noexcept function. Proved when everything can be read."
  },
  {
   "property": "C70",
   "status": "partial",
   "theorems": [
    "Verif.Props.C70_full_refuted",
    "Verif.Props.C70_undefined_reachable",
    "Verif.Props.C70_scanner_root_gone_partial",
    "Verif.Props.C70_scanner_root_replaced_partial"
   ],
   "note": "Full claim refuted: an empty watched directory replaced by a file reaches the end of a value-returning function. Proved: the other outcomes."
  },
  {
   "property": "C71",
   "status": "partial",
   "theorems": [
    "Verif.Props.C71_refuted",
    "Verif.Props.C71_locked_partial"
   ],
   "note": "Refuted by an interleaving of two threads; proved for callers that hold a lock."
  },
  {
   "property": "C72",
   "status": "partial",
   "theorems": [
    "Verif.Props.C72_exact_partial",
    "Verif.Props.C72_refuted",
    "Verif.Props.C72_node_longest_partial"
   ],
   "note": "Exact conditions for C, Python, Rust and Node.js; what is watched otherwise is a beginning of the path (Rust panics). Full claim refuted."
  },
  {
   "property": "C73",
   "status": "partial",
   "theorems": [
    "Verif.Props.C73_exact_partial",
    "Verif.Props.C73_refuted"
   ],
   "note": "Exact conditions; refuted at 4095 bytes (one byte written behind the buffer) and above (event dropped without notice)."
  },
  {
   "property": "C74",
   "status": "partial",
   "theorems": [
    "Verif.Props.C74_json_partial",
    "Verif.Props.C74_refuted"
   ],
   "note": "Names without quotation mark, backslash and control character, all times; refuted otherwise, including a crafted name that adds a member."
  },
  {
   "property": "C75",
   "status": "partial",
   "theorems": [
    "Verif.Props.C75_context_outlives_thread_partial",
    "Verif.Props.C75_refuted"
   ],
   "note": "Proved when the stop signal can be written; refuted otherwise for Rust, Python and Node.js."
  },
  {
   "property": "C76",
   "status": "partial",
   "theorems": [
    "Verif.Props.C76_refuted",
    "Verif.Props.C76_only_waiting_partial"
   ],
   "note": "Refuted; proved: exactly the events that waited at close (at most 1024) are delivered later, nothing else."
  },
  {
   "property": "C77",
   "status": "partial",
   "theorems": [
    "Verif.Props.C77_missing_path_never_watched",
    "Verif.Props.C77_refuted",
    "Verif.Props.C77_default_is_cwd_partial"
   ],
   "note": "Default without arguments proved; the promise about nonexistent paths is refuted: no run with a missing path ever watches anything."
  },
  {
   "property": "C78",
   "status": "partial",
   "theorems": [
    "Verif.Props.C78_lines_decode_partial",
    "Verif.Props.C78_refuted",
    "Verif.Props.C78_exit"
   ],
   "note": "Proved for all sequences of events whose names contain no newline and no \" -> \"; refuted in general. The exit status part is proved in full."
  },
  {
   "property": "C79",
   "status": "proved",
   "theorems": [
    "Verif.Props.C79_nothing_lost",
    "Verif.Props.C79_caught_up",
    "Verif.Props.C79_in_order"
   ],
   "note": "Composition of lifecycle, fanotify and inotify models; also C10, C11 and C20 are restated for the composed model, so that what back ends deliver is no longer an assumption."
  },
  {
   "property": "C80",
   "status": "partial",
   "theorems": [
    "Verif.Props.C80_end_to_end_partial",
    "Verif.Props.C80_refuted"
   ],
   "note": "Proved for all histories of the modelled kernel without moves between two watched directories and without moved directories; refuted with such a move. All histories: C103; queue overflow: C104. Fanotify is not covered by this property (C37, C38)."
  },
  {
   "property": "C81",
   "status": "partial",
   "theorems": [
    "Verif.Props.C81_whole_life_safe_partial",
    "Verif.Props.C81_refuted"
   ],
   "note": "Inotify: all batches. Fanotify: batches that leave 4 bytes of the buffer free or do not end in a rename, file systems where an opened directory has a path that fits; refuted for a full buffer (as C36)."
  },
  {
   "property": "C82",
   "status": "proved",
   "theorems": [
    "Verif.Props.C82_nothing_invented"
   ],
   "note": "For every batch and every answer of the system with Sound (an opened directory has a path that fits), whenever processing is defined (C36)."
  },
  {
   "property": "C83",
   "status": "proved",
   "theorems": [
    "Verif.Props.C83_keeping_up"
   ],
   "note": "Every tree, every set of marked directories and every sequence of operations of the kernel of Model/FKernel.lean (its simplifications are in its head), with a read after each operation. Exchanges of two directories in one call: C164."
  },
  {
   "property": "C84",
   "status": "partial",
   "theorems": [
    "Verif.Props.C84_refuted_by_removed_directory",
    "Verif.Props.C84_genuine_partial",
    "Verif.Props.C84_paths_partial",
    "Verif.Props.C84_log"
   ],
   "note": "False as stated: a directory removed while it is looked up is reported as \"x (deleted)\". Proved for all histories up to that suffix, and as stated for all histories in which no directory is removed during a read (removals at other times are allowed)."
  },
  {
   "property": "C85",
   "status": "partial",
   "theorems": [
    "Verif.Props.C85_refuted_by_removed_directory",
    "Verif.Props.C85_refuted_by_crossed_moves",
    "Verif.Props.C85_noticed_partial",
    "Verif.Props.C85_missed_partial",
    "Verif.Props.C85_always_partial",
    "Verif.Props.C85_no_removal_partial",
    "Verif.Props.C85_unmoved_partial",
    "Verif.Props.C85_missed_needs_removal",
    "Verif.Props.C85_lone_partial"
   ],
   "note": "False as stated: a removed directory or crossed moves make the watcher drop records. Proved for every history in which the directories of the records read are still there (Present), none is removed during a read, and no read returns a new name directly followed by an old name or a full buffer ending in a rename (Fine). C85_no_removal_partial: without Present if no directory is ever removed. C85_missed_partial: without Present, every change is mentioned or pending or was missed in one way: at some read its record was about a directory that had gone, behind such a record, or the old name of a rename into such a directory (Missed). C85_always_partial: without any hypothesis on when directories are removed, during reads as well; the path of an event may then bear the mark of a removed directory. C85_unmoved_partial: without any condition on reads when nothing is moved (directories may still be removed at any time). C85_lone_partial: if every read gets at most one record (all else allowed), each change is pending, mentioned, or its directory has gone; C85_missed_needs_removal: without a removed directory nothing is missed."
  },
  {
   "property": "C86",
   "status": "partial",
   "theorems": [
    "Verif.Props.C86_always_partial",
    "Verif.Props.C86_refuted_by_merging",
    "Verif.Props.C86_in_order_partial",
    "Verif.Props.C86_missed_partial",
    "Verif.Props.C86_no_removal_partial",
    "Verif.Props.C86_no_moves_partial",
    "Verif.Props.C86_unmoved_partial",
    "Verif.Props.C86_lone_partial"
   ],
   "note": "False as stated: the kernel merges pending records and the watcher reports one effect of them. Proved for every history without merging whose reads are Fine and Present and that removes no directory during a read (C86_no_removal_partial: without Present if no directory is removed), and for every history without moves and removals of directories whatever the reads. C86_missed_partial: without Present, what is told is in order and once, and the rest of what was read was missed as in C85_missed_partial; C86_always_partial: removals during reads allowed as well; paths may then bear the mark of a removed directory. C86_unmoved_partial: the same without any condition on reads when nothing is moved. C86_lone_partial: if every read gets at most one record, all changes read in directories still there are told."
  },
  {
   "property": "C87",
   "status": "proved",
   "theorems": [
    "Verif.Props.Poll.C87_live_first_die_last",
    "Verif.Props.Poll.C87_scanner_messages",
    "Verif.Props.Poll.C87_windows_batches",
    "Verif.Props.Poll.C87_windows_messages"
   ],
   "note": "All schedules of the two threads, for every back end that polls the flag (Backend), and for the scanner and Windows in particular; assumes sequential consistency and a callback that does not throw."
  },
  {
   "property": "C88",
   "status": "proved",
   "theorems": [
    "Verif.Props.Poll.C88_close_agrees_with_die",
    "Verif.Props.Poll.C88_first_close_is_the_result",
    "Verif.Props.Poll.C88_at_most_one_success",
    "Verif.Props.Poll.C88_later_closes_fail"
   ],
   "note": "All schedules, every polling back end."
  },
  {
   "property": "C89",
   "status": "proved",
   "theorems": [
    "Verif.Props.Poll.C89_silence_after_close",
    "Verif.Props.Poll.C89_silence_after_destructor",
    "Verif.Props.Poll.C89_no_worker_step_after",
    "Verif.Props.Poll.C89_destructor_waits"
   ],
   "note": "All schedules, every polling back end."
  },
  {
   "property": "C90",
   "status": "proved",
   "theorems": [
    "Verif.Props.Poll.C90_scanner_close_terminates",
    "Verif.Props.Poll.C90_scanner_close_returns",
    "Verif.Props.Poll.C90_flag"
   ],
   "note": "All schedules and all answers of the file system for which the scanner has defined behaviour (C69, C70); the bound counts steps of the worker, a callback that does not return is not a step."
  },
  {
   "property": "C91",
   "status": "partial",
   "theorems": [
    "Verif.Props.Poll.C91_full_refuted",
    "Verif.Props.Poll.C91_windows_close_terminates_partial",
    "Verif.Props.Poll.C91_windows_close_returns_partial"
   ],
   "note": "False as stated: the loop at line 1950 never asks for the stop flag, so with a first read that is answered at once close() waits for ever. Proved for all schedules in which reads are queued."
  },
  {
   "property": "C92",
   "status": "proved",
   "theorems": [
    "Verif.Props.Poll.C92_close_in_callback_hangs",
    "Verif.Props.Poll.C92_close_in_callback_waits"
   ],
   "note": "All schedules, every polling back end."
  },
  {
   "property": "C93",
   "status": "partial",
   "theorems": [
    "Verif.Props.Poll.C93_bad_path",
    "Verif.Props.Poll.C93_full_refuted",
    "Verif.Props.Poll.C93_early_close_fails_partial"
   ],
   "note": "The part about bad paths is proved. The part about early closes is false as stated (a close() between the check of the flag and the live message succeeds); proved for closes before the check."
  },
  {
   "property": "C94",
   "status": "proved",
   "theorems": [
    "Verif.Props.Poll.C94_scanner_delivers_exactly",
    "Verif.Props.Poll.C94_scanner_quiet_life",
    "Verif.Props.Poll.C94_windows_delivers_exactly",
    "Verif.Props.Poll.C94_windows_smooth_life"
   ],
   "note": "All schedules; what the back ends deliver is Warthog.watch and Windows.turns, whose contents are the subject of C52 - C54 and C66."
  },
  {
   "property": "C95",
   "status": "proved",
   "theorems": [
    "Verif.Props.DLife.C95_live_first_die_last",
    "Verif.Props.DLife.C95_one_at_a_time",
    "Verif.Props.DLife.C95_messages"
   ],
   "note": "All schedules of owner, worker and any number of threads of the system; assumes sequential consistency, the documented behaviour of stopping a stream (C102 without it) and a callback that does not throw."
  },
  {
   "property": "C96",
   "status": "proved",
   "theorems": [
    "Verif.Props.DLife.C96_close_answers",
    "Verif.Props.DLife.C96_what_success_means"
   ],
   "note": "All schedules, under the documented behaviour of stopping a stream."
  },
  {
   "property": "C97",
   "status": "proved",
   "theorems": [
    "Verif.Props.DLife.C97_silence",
    "Verif.Props.DLife.C97_waits"
   ],
   "note": "All schedules, under the documented behaviour of stopping a stream (C102_late_event shows it is needed)."
  },
  {
   "property": "C98",
   "status": "partial",
   "theorems": [
    "Verif.Props.DLife.C98_worker_steps",
    "Verif.Props.DLife.C98_full_refuted",
    "Verif.Props.DLife.C98_close_terminates_partial",
    "Verif.Props.DLife.C98_close_returns_partial",
    "Verif.Props.DLife.C98_flag"
   ],
   "note": "False as stated: the worker waits for the mutex, which threads of the system may take again and again while files change. Proved: the worker makes at most 13 steps; without new notifications the number of all steps is bounded; from every state the end can be reached."
  },
  {
   "property": "C99",
   "status": "proved",
   "theorems": [
    "Verif.Props.DLife.C99_close_in_event_callback_hangs",
    "Verif.Props.DLife.C99_close_in_message_callback_hangs"
   ],
   "note": "All schedules and continuations."
  },
  {
   "property": "C100",
   "status": "partial",
   "theorems": [
    "Verif.Props.DLife.C100_bad_path",
    "Verif.Props.DLife.C100_full_refuted",
    "Verif.Props.DLife.C100_early_close_fails_partial"
   ],
   "note": "The part about bad paths is proved. The part about early closes is false as stated (a close() between the check of the flag and the live message succeeds); proved for closes before the check."
  },
  {
   "property": "C101",
   "status": "proved",
   "theorems": [
    "Verif.Props.DLife.C101_delivers_exactly",
    "Verif.Props.DLife.C101_alternates",
    "Verif.Props.DLife.C101_nothing_dropped"
   ],
   "note": "All schedules; what a notification becomes is recvOne of Model/Darwin.lean, the subject of C44 - C47."
  },
  {
   "property": "C102",
   "status": "partial",
   "theorems": [
    "Verif.Props.DLife.C102_full_refuted",
    "Verif.Props.DLife.C102_late_event",
    "Verif.Props.DLife.C102_no_use_after_return_partial"
   ],
   "note": "False as stated for a system whose stopping functions do not wait; proved for one that does."
  },
  {
   "property": "C103",
   "status": "proved",
   "theorems": [
    "Verif.Props.C103_every_history",
    "Verif.Props.C103_end_to_end"
   ],
   "note": "Every history of the kernel of Model/Kernel.lean, all operations included; also for the whole library with its threads (C103_end_to_end). That the paths can be old or wrong after moves is C28, C31, C34."
  },
  {
   "property": "C104",
   "status": "partial",
   "theorems": [
    "Verif.Props.C104_loss_not_silent_partial",
    "Verif.Props.C104_end_to_end_partial",
    "Verif.Props.C104_refuted",
    "Verif.Props.C104_no_recovery"
   ],
   "note": "False as stated: the callback gets the warning \"w/sys/phantom@\" instead of the overflow message. Proved for every limit and every history: what the kernel kept is told once and in order, and a loss is announced by that warning."
  },
  {
   "property": "C105",
   "status": "partial",
   "theorems": [
    "Verif.Props.C105_refuted",
    "Verif.Props.C105_paths_below_partial",
    "Verif.Props.C105_entries_below_partial"
   ],
   "note": "False as stated: a directory moved out of the tree stays watched. Proved: the paths of all events lie below the watched directory after every history; without moves between directories the entries do, too."
  },
  {
   "property": "C106",
   "status": "partial",
   "theorems": [
    "Verif.Props.C106_genuine_partial",
    "Verif.Props.C106_paths_partial",
    "Verif.Props.C106_refuted"
   ],
   "note": "False as stated (a directory removed while its record is looked up is named with the suffix readlink gives it). Proved for every history of the whole library on the fanotify kernel: exactly as stated if no directory is removed during a read, otherwise up to that suffix."
  },
  {
   "property": "C107",
   "status": "partial",
   "theorems": [
    "Verif.Props.C107_always_partial",
    "Verif.Props.C107_unmoved_partial",
    "Verif.Props.C107_in_order_partial",
    "Verif.Props.C107_never_twice_partial",
    "Verif.Props.C107_no_removal_partial",
    "Verif.Props.C107_no_moves_partial",
    "Verif.Props.C107_refuted"
   ],
   "note": "False as stated (records merged by the kernel are reported once). Proved for all histories without merged records in which directories go neither during a read nor while a record about them is pending and whose reads are fine (C107_never_twice_partial: they may go while a record is pending: what is told is in order and none twice; C107_always_partial: they may go at any time; C107_no_removal_partial: no directory is removed at all; C107_no_moves_partial: no moves either, all reads); merging and the buffer end are C86 and C36. C107_unmoved_partial: the same without any condition on reads when nothing is moved."
  },
  {
   "property": "C108",
   "status": "proved",
   "theorems": [
    "Verif.Props.C108_keeping_up_end_to_end"
   ],
   "note": "All trees, marks, operations and thread schedules, including stops at any moment; the watcher reads everything pending before the next change. The history is the composed model of owner, worker, callback, fanotify back end and kernel."
  },
  {
   "property": "C109",
   "status": "proved",
   "theorems": [
    "Verif.Props.C109_answers",
    "Verif.Props.C109_true_is_last",
    "Verif.Props.C109_undefined_only_after_true",
    "Verif.Props.C109_undefined_after_true",
    "Verif.Props.C109_simple_model"
   ],
   "note": "All schedules of the watcher thread and the caller inside wtr_watcher_close; shows that the one-step handle of Model/Bindings.lean (C56) is right."
  },
  {
   "property": "C110",
   "status": "partial",
   "theorems": [
    "Verif.Props.C110_refuted",
    "Verif.Props.C110_deleted_iff_partial",
    "Verif.Props.C110_leaked_for_good_partial"
   ],
   "note": "False as stated: when close() answers false the C function does not delete the object, and later calls answer false again. Proved: deleted exactly by the calls that answer true; a handle whose first call answered false is never deleted."
  },
  {
   "property": "C111",
   "status": "proved",
   "theorems": [
    "Verif.Props.C111_stream_in_order",
    "Verif.Props.C111_whole_story",
    "Verif.Props.C111_names_unchanged"
   ],
   "note": "All schedules; the channel is unbounded as in the code. A name that is not UTF-8 arrives as the empty string (SameEvent says so)."
  },
  {
   "property": "C112",
   "status": "partial",
   "theorems": [
    "Verif.Props.C112_never_ends",
    "Verif.Props.C112_refuted",
    "Verif.Props.C112_quiet_partial"
   ],
   "note": "False of the code: the stream owns its own sender, so it never ends. Proved: it never yields an end in any history, and after the watch has ended it yields what is queued and then stays pending."
  },
  {
   "property": "C113",
   "status": "partial",
   "theorems": [
    "Verif.Props.C113_refuted_by_close",
    "Verif.Props.C113_refuted_by_drop",
    "Verif.Props.C113_safe_partial",
    "Verif.Props.C113_drop_only_partial",
    "Verif.Props.C113_close_then_drop_is_undefined"
   ],
   "note": "False as stated, in two ways: close() that answers Ok followed by the drop uses a deleted object; and without descriptors for the stop signal drop frees the channel while the thread runs. Proved: with a working stop signal, undefined behaviour comes only from close or drop after an Ok; a program that never calls close is safe."
  },
  {
   "property": "C114",
   "status": "partial",
   "theorems": [
    "Verif.Props.C114_in_order_partial",
    "Verif.Props.C114_utf8_partial",
    "Verif.Props.C114_nothing_after_close_partial",
    "Verif.Props.C114_ends_partial",
    "Verif.Props.C114_refuted"
   ],
   "note": "C114_full refuted: an event with a name that is not UTF-8 never reaches the callback (the decoding raises inside ctypes). Proved: exactly the other events, in order; all events if their names are UTF-8; and after close (working stop signal) nothing more, with live and die message as first and last call. One thread uses the object (several: C71)."
  },
  {
   "property": "C115",
   "status": "partial",
   "theorems": [
    "Verif.Props.C115_refuted",
    "Verif.Props.C115_safe_partial",
    "Verif.Props.C115_closed_at_most_once"
   ],
   "note": "False as stated when the stop signal cannot be created. Proved: safe otherwise, for every sequence of calls; and the C function is called at most once per object."
  },
  {
   "property": "C116",
   "status": "proved",
   "theorems": [
    "Verif.Props.C116_exact",
    "Verif.Props.C116_goes_on"
   ],
   "note": "Every batch, every buffer content, every answer of the system; the specification is over records, not bytes, and includes the wrong and undefined cases (C36, C37, C38, C40 are instances). Assumes that open_by_handle_at without a positive descriptor leaves errno set."
  },
  {
   "property": "C117",
   "status": "proved",
   "theorems": [
    "Verif.Props.C117_undefined_iff",
    "Verif.Props.C117_nameless"
   ],
   "note": "The exact condition for systems that answer and records of one effect; with unanswered look-ups the exact condition is C116, and C117_nameless gives the second source."
  },
  {
   "property": "C118",
   "status": "proved",
   "theorems": [
    "Verif.Props.C118_lines",
    "Verif.Props.C118_exit_status",
    "Verif.Props.C118_ended",
    "Verif.Props.C118_main",
    "Verif.Props.C118_json"
   ],
   "note": "Any formatting function, so for both C++ programs; every schedule, every result of opening, waiting and reading, also with a broken stop signal. Linux life cycle; printing does not fail."
  },
  {
   "property": "C119",
   "status": "partial",
   "theorems": [
    "Verif.Props.C119_refuted",
    "Verif.Props.C119_healthy_partial",
    "Verif.Props.C119_after_first_line_partial",
    "Verif.Props.C119_no_directory_partial"
   ],
   "note": "Full statement C119_full refuted (C119_refuted): closing before the thread has looked at the stop signal gives status 1. Proved: the exact condition (first line), status 0 after the first line, both lines and status 1 for no directory."
  },
  {
   "property": "C120",
   "status": "partial",
   "theorems": [
    "Verif.Props.C120_never_ends_partial",
    "Verif.Props.C120_refuted"
   ],
   "note": "Full statement C120_full refuted: the stream never ends (C112), so the program ends only by Ctrl-C (C120_never_ends_partial)."
  },
  {
   "property": "C121",
   "status": "proved",
   "theorems": [
    "Verif.Props.C121_prints_in_order",
    "Verif.Props.C121_safe",
    "Verif.Props.C121_over_when_returning",
    "Verif.Props.C121_mute_is_undefined"
   ],
   "note": "Every schedule and every moment of Ctrl-C; C121_mute_is_undefined shows that the assumption of a working stop signal is needed for C121_safe."
  },
  {
   "property": "C122",
   "status": "proved",
   "theorems": [
    "Verif.Props.C122_line_exact",
    "Verif.Props.C122_stream_exact"
   ],
   "note": "An equivalence for every chain of events with 64-bit times, against a reader that knows all JSON escapes. The reader does not check that a name is UTF-8."
  },
  {
   "property": "C123",
   "status": "proved",
   "theorems": [
    "Verif.Props.C123_python_exact"
   ],
   "note": "An equivalence for every event Python delivers."
  },
  {
   "property": "C124",
   "status": "proved",
   "theorems": [
    "Verif.Props.C124_batch_exact",
    "Verif.Props.C124_short_batches",
    "Verif.Props.C124_one_report"
   ],
   "note": "An equivalence for every batch, also with halves of renames; is_directory is asked of one world for the whole batch."
  },
  {
   "property": "C125",
   "status": "proved",
   "theorems": [
    "Verif.Props.C125_scanner_exact",
    "Verif.Props.C125_one_path",
    "Verif.Props.C125_scanner_life"
   ],
   "note": "Exact output for every series of trees whose listings succeed, and for whole lives over the two-thread model."
  },
  {
   "property": "C126",
   "status": "proved",
   "theorems": [
    "Verif.Props.Poll.C126_windows_whole_life",
    "Verif.Props.Poll.C126_one_history",
    "Verif.Props.Poll.C126_one_story",
    "Verif.Props.Poll.C126_every_notification_told",
    "Verif.Props.Poll.C126_deaf_after"
   ],
   "note": "Exact output for every schedule and every history of documented answers, from the bytes of the buffer. is_directory is asked of one world for each batch."
  },
  {
   "property": "C127",
   "status": "proved",
   "theorems": [
    "Verif.Props.C127_darwin_exact",
    "Verif.Props.C127_one_story",
    "Verif.Props.C127_darwin_whole_life"
   ],
   "note": "Exact output for every history of notifications with any flags, and for whole lives over the threads of DarwinLife (streams whose stopping waits, as documented)."
  },
  {
   "property": "C128",
   "status": "proved",
   "theorems": [
    "Verif.Props.C128_exact",
    "Verif.Props.C128_library_events",
    "Verif.Props.C128_story_meaning",
    "Verif.Props.C128_whole_story"
   ],
   "note": "All schedules of the watcher thread and the JavaScript thread. The functions of Node-API are assumed to succeed except for a full queue."
  },
  {
   "property": "C129",
   "status": "proved",
   "theorems": [
    "Verif.Props.C129_close_is_bounded",
    "Verif.Props.C129_never_stuck",
    "Verif.Props.C129_close_returns"
   ],
   "note": "Ranking bound, no stuck state and a finishing schedule, as C15; also without a working stop signal."
  },
  {
   "property": "C130",
   "status": "proved",
   "theorems": [
    "Verif.Props.C130_copies",
    "Verif.Props.C130_burst",
    "Verif.Props.C130_refuted"
   ],
   "note": "An exact count; that lost events leak their copies (any number of them) is C130_burst, C130_refuted."
  },
  {
   "property": "C131",
   "status": "partial",
   "theorems": [
    "Verif.Props.C131_refuted",
    "Verif.Props.C131_safe_partial"
   ],
   "note": "Full statement C131_full refuted (C131_refuted): when the stop signal cannot be written, close() frees what the watcher thread uses. Proved when it works."
  },
  {
   "property": "C132",
   "status": "proved",
   "theorems": [
    "Verif.Props.C132_no_watches"
   ],
   "note": "All schedules of the composed Linux watch (Model/Adapter.lean) from the opening on, for any kernel that refuses every watch."
  },
  {
   "property": "C133",
   "status": "proved",
   "theorems": [
    "Verif.Props.C133_story",
    "Verif.Props.C133_only"
   ],
   "note": "All histories of answers, readable or not; the story of Spec/WarthogExact.lean exists (C133_story) and is the only one (C133_only)."
  },
  {
   "property": "C134",
   "status": "proved",
   "theorems": [
    "Verif.Props.C134_c_bounded",
    "Verif.Props.C134_c_never_stuck",
    "Verif.Props.C134_c_returns",
    "Verif.Props.C134_rust_bounded",
    "Verif.Props.C134_rust_never_stuck",
    "Verif.Props.C134_rust_returns",
    "Verif.Props.C134_python_bounded",
    "Verif.Props.C134_python_never_stuck",
    "Verif.Props.C134_python_returns",
    "Verif.Props.C134_c_hangs_in_callback",
    "Verif.Props.C134_python_hangs_in_callback"
   ],
   "note": "C, Rust and Python: bound, no stuck state and a finishing schedule, also without a working stop signal; callbacks that call close themselves hang (working stop signal), as C16."
  },
  {
   "property": "C135",
   "status": "partial",
   "theorems": [
    "Verif.Props.C135_exact_partial",
    "Verif.Props.C135_same_text_partial",
    "Verif.Props.C135_refuted"
   ],
   "note": "C135_full refuted: a name that is not UTF-8 ends the program (path::wstring throws inside noexcept functions). Proved: exactly the events whose shown names are UTF-8 have a wide text, and it is the narrow text character by character. POSIX; the conversion is the library behaviour of libstdc++."
  },
  {
   "property": "C136",
   "status": "partial",
   "theorems": [
    "Verif.Props.C136_same_events",
    "Verif.Props.C136_inotify_partial",
    "Verif.Props.C136_fanotify_partial",
    "Verif.Props.C136_in_order_partial",
    "Verif.Props.C136_when",
    "Verif.Props.C136_refuted"
   ],
   "note": "C136_full refuted on both back ends: a warning about a new directory that cannot be watched is told before the event of its creation but has a later time. Proved: that is the only disorder, for every sequence of messages, marks and reads; times lie between the beginning and the end; associated events are not later. Linux; clock steady."
  },
  {
   "property": "C137",
   "status": "partial",
   "theorems": [
    "Verif.Props.C137_refuted",
    "Verif.Props.C137_guarded_partial",
    "Verif.Props.C137_one_thread_partial",
    "Verif.Props.C137_answers_partial",
    "Verif.Props.C137_unsynchronised"
   ],
   "note": "C137_full refuted: two threads that call close() race on the std::future. Proved for the three kinds of stop signal and any number of threads: with a mutex around the calls, or with calls in one thread only, nothing undefined happens, the first call that returns answers the result and all others false; without synchronisation no execution in which close() returns in two threads is defined. The destructor and wtr_watcher_close (which deletes) are not called from several threads in this model."
  },
  {
   "property": "C138",
   "status": "partial",
   "theorems": [
    "Verif.Props.C138_refuted",
    "Verif.Props.C138_first_alone_partial",
    "Verif.Props.C138_errors_partial",
    "Verif.Props.C138_low_addresses_partial",
    "Verif.Props.C138_bound_refuted"
   ],
   "note": "C138_full refuted: _LIB is set before the types of its functions, so an object made meanwhile in another thread gets its handle cut to 32 bits and later closes an address that is no watch. Proved: once one object has opened its watch alone, any number of objects in any threads each close just the watch they opened, and constructors raise errors only if the library is missing or the path cannot be encoded; and any history at all if the addresses of all watches are below 2^31, a bound that is exact (C138_bound_refuted). Each object is used by one thread (C71)."
  },
  {
   "property": "C139",
   "status": "partial",
   "theorems": [
    "Verif.Props.C139_lines_partial",
    "Verif.Props.C139_utf8_partial",
    "Verif.Props.C139_whole_story_partial",
    "Verif.Props.C139_refuted"
   ],
   "note": "C139_full refuted: an event whose name is not UTF-8 gives no line (and see C74 for names whose line is not JSON). Proved: one text for each other event, in order, and read line by line exactly their JSON documents if the names are plain; after the end, the whole story with the live and the die message at its ends."
  },
  {
   "property": "C140",
   "status": "partial",
   "theorems": [
    "Verif.Props.C140_status_partial",
    "Verif.Props.C140_over_partial",
    "Verif.Props.C140_safe_partial",
    "Verif.Props.C140_bounded_partial",
    "Verif.Props.C140_never_stuck_partial",
    "Verif.Props.C140_ends_partial",
    "Verif.Props.C140_path_partial",
    "Verif.Props.C140_refuted",
    "Verif.Props.C140_mute_is_undefined"
   ],
   "note": "C140_full refuted: the status is 0 for a path that cannot be watched. Proved: the program waits as long as the input goes on; its status says how the input ended and nothing else; after the input it is never stuck, can end and takes boundedly many steps; then the thread of the watcher has ended and nothing more is printed; no undefined behaviour if the stop signal works (otherwise there is, shown); which path is watched."
  },
  {
   "property": "C141",
   "status": "partial",
   "theorems": [
    "Verif.Props.C141_exact_partial",
    "Verif.Props.C141_silent_partial",
    "Verif.Props.C141_refuted"
   ],
   "note": "C141_full refuted: the object that a global name holds is closed when the interpreter is already finalizing; the watcher has to call the callback with its last message, which needs the interpreter lock, which it does not get any more, and the main thread waits for it. Proved exactly when it ends: at once if the watch was closed before; also if the callback had been called for the last time and had returned; otherwise never. The behaviour of the interpreter is a model of CPython 3.14."
  },
  {
   "property": "C142",
   "status": "proved",
   "theorems": [
    "Verif.Props.C142_ends_only_closed",
    "Verif.Props.C142_end_is_bounded",
    "Verif.Props.C142_never_stuck"
   ],
   "note": "For a program whose only concern is one watch; the event loop of Node.js is modelled after its documentation."
  },
  {
   "property": "C143",
   "status": "partial",
   "theorems": [
    "Verif.Props.C143_refuted",
    "Verif.Props.C143_exact_partial",
    "Verif.Props.C143_closed_first_partial",
    "Verif.Props.C143_copies_partial"
   ],
   "note": "C143_full refuted: a Worker (or process) that is ended with an open watch leaves the watcher thread running; the second event after the end uses the thread-safe function after napi_closing (callback_bridge does not look at the answer). Proved exactly when: only then; safe if closed first or if the program ends by itself; and which copies stay allocated. Node.js is modelled after its documentation."
  },
  {
   "property": "C144",
   "status": "partial",
   "theorems": [
    "Verif.Props.C144_overflow_partial",
    "Verif.Props.C144_exact_partial",
    "Verif.Props.C144_enough_partial",
    "Verif.Props.C144_is_the_walk",
    "Verif.Props.C144_open_streams",
    "Verif.Props.C144_refuted",
    "Verif.Props.C144_silent"
   ],
   "note": "C144_full refuted: the walk holds a directory stream and more than 8 KiB of stack per level, so a chain of 1100 directories (paths of 2202 bytes) overflows an 8 MiB stack, or, with fewer descriptors, its deepest directories are silently not watched (C144_silent). Proved for every limit: exactly when it overflows, exactly what is visited, and which limits are enough for every tree."
  },
  {
   "property": "C145",
   "status": "partial",
   "theorems": [
    "Verif.Props.C145_refuted",
    "Verif.Props.C145_exact_partial",
    "Verif.Props.C145_after_removal_partial",
    "Verif.Props.C145_memory_grows"
   ],
   "note": "C145_full refuted: a file created at a path whose earlier file was renamed away is not reported as created (saving twice through a temporary file). Proved exactly when: unless the last creation or removal at that path was a creation. Also: the set of remembered paths grows without bound while the tree stays empty."
  },
  {
   "property": "C146",
   "status": "partial",
   "theorems": [
    "Verif.Props.C146_silent_partial",
    "Verif.Props.C146_waits_partial",
    "Verif.Props.C146_refuted"
   ],
   "note": "C146_full refuted: when fanotify is available but refuses every mark (a file system without file handles), the watcher neither falls back to inotify nor ends: it waits. Proved: the callback gets one warning per directory and then nothing but the die message of success after a close; without a close it never ends. C132 is the same for inotify, where the claim holds."
  },
  {
   "property": "C147",
   "status": "partial",
   "theorems": [
    "Verif.Props.C147_silent_partial",
    "Verif.Props.C147_terminated_partial",
    "Verif.Props.C147_without_signal_partial",
    "Verif.Props.C147_refuted"
   ],
   "note": "C147_full refuted: an exception from a callback is stored in the future, and close() and the destructor, which are noexcept, rethrow it: std::terminate. Proved: nothing is delivered after the throw; with a working stop signal no close() and no destructor returns and the program is terminated within five steps of the call; without one no harm is done. Linux; descriptors that leak are not modelled."
  },
  {
   "property": "C148",
   "status": "partial",
   "theorems": [
    "Verif.Props.C148_undisturbed_partial",
    "Verif.Props.C148_interrupted_partial",
    "Verif.Props.C148_ends_partial",
    "Verif.Props.C148_refuted",
    "Verif.Props.C148_ready_partial"
   ],
   "note": "C148_full refuted: epoll_wait returning EINTR is treated as an error. Proved: without failures a watch nobody closes never ends; an interrupted one delivers exactly the epoll error and the die message of failure and ends after six steps of its thread; a wait that was not interrupted delivers exactly the events it brought, in order, and waits again."
  },
  {
   "property": "C149",
   "status": "partial",
   "theorems": [
    "Verif.Props.C149_real_path_partial",
    "Verif.Props.C149_walk_partial",
    "Verif.Props.C149_refuted",
    "Verif.Props.C149_given_path_partial"
   ],
   "note": "C149_full refuted: directories are resolved with realpath before they are watched, so a directory watched through a symbolic link is reported under its real path, while all messages carry the given one (the same for the documented example watch(\".\"), whose absolute path ends in /. and is resolved as well). Proved: all changes are reported below the real path of the watched directory, with both back ends, all schedules and kernel answers; the walk visits only such directories; a path without symbolic links is the one in the events."
  },
  {
   "property": "C150",
   "status": "partial",
   "theorems": [
    "Verif.Props.C150_deaf_partial",
    "Verif.Props.C150_refuted",
    "Verif.Props.C150_fanotify_deaf_partial",
    "Verif.Props.C150_fanotify_refuted"
   ],
   "note": "C150_full and C150_fanotify_full refuted: neither back end reports the removal of the watched directory itself (inotify asks for it but only cleans its table). Proved: once the tree is gone (inotify: any history of file and directory operations and any timing of reads, no directory moved before; fanotify: any state without marks) the callback is never called again whatever happens, also when the directory is made again at the same path, and the watch does not end."
  },
  {
   "property": "C151",
   "status": "partial",
   "theorems": [
    "Verif.Props.C151_linux_partial",
    "Verif.Props.C151_refuted",
    "Verif.Props.C151_windows"
   ],
   "note": "C151_full refuted: a program without standard input (descriptor 0 free) can be told of a change with an empty path by the fanotify back end, which takes descriptor 0 for a failure. Proved: on Linux every path told is absolute under the soundness of the open (descriptor above 0 on success); on Windows every path begins with the watched path, for all batches and answers. Not modelled: std::filesystem::absolute on Windows."
  },
  {
   "property": "C152",
   "status": "partial",
   "theorems": [
    "Verif.Props.C152_close_partial",
    "Verif.Props.C152_destructor",
    "Verif.Props.C152_callbacks",
    "Verif.Props.C152_refuted"
   ],
   "note": "C152_full refuted: if eventfd() failed, close() answers false at once and the callback goes on beside the owner. Proved: with an event descriptor everything the callback ever does happens before the return of every close(), whichever its answer, and always before the return of the destructor; of two calls of the callback the earlier returned and happened before the later. Happens-before is the transitive closure of thread order and std::future only."
  },
  {
   "property": "C153",
   "status": "proved",
   "theorems": [
    "Verif.Props.C153_end",
    "Verif.Props.C153_callbacks"
   ],
   "note": "Any back end of the polled life cycle (Windows, scanner), all schedules; happens-before from thread order and std::future only."
  },
  {
   "property": "C154",
   "status": "proved",
   "theorems": [
    "Verif.Props.C154_end",
    "Verif.Props.C154_callbacks"
   ],
   "note": "All schedules of owner, worker and the threads of the system, with the documented behaviour of FSEventStreamFlushSync/Stop/Invalidate (without it: C102); happens-before from thread order, std::future, the mutex and the start of the stream."
  },
  {
   "property": "C155",
   "status": "partial",
   "theorems": [
    "Verif.Props.C155_inotify_partial",
    "Verif.Props.C155_refuted",
    "Verif.Props.C155_fanotify_partial",
    "Verif.Props.C155_windows_partial"
   ],
   "note": "C155_full refuted: on Linux a symbolic link (or a pipe, a device) is told as a file. Proved: inotify and fanotify tell directories from everything else, in every batch; Windows tells what the path is when the event is sent, so a removed directory is told as a file. Darwin: C47, C127."
  },
  {
   "property": "C156",
   "status": "proved",
   "theorems": [
    "Verif.Props.C156_inotify",
    "Verif.Props.C156_fanotify",
    "Verif.Props.C156_windows",
    "Verif.Props.C156_scanner",
    "Verif.Props.C156_darwin"
   ],
   "note": "inotify and fanotify: every batch; Windows: every batch of at least 16 bytes; scanner: every history of answers; Darwin: every history of notifications."
  },
  {
   "property": "C157",
   "status": "partial",
   "theorems": [
    "Verif.Props.C157_event_partial",
    "Verif.Props.C157_message_partial",
    "Verif.Props.C157_refuted"
   ],
   "note": "C157_full refuted: the exception ends the program. Proved for every back end of the polled life cycle and all schedules: an exception at an event terminates at once; at the live or die message nothing more is told, no close() and no destructor returns, and the third step of the first of them terminates the program. Linux: C147."
  },
  {
   "property": "C158",
   "status": "partial",
   "theorems": [
    "Verif.Props.C158_event_partial",
    "Verif.Props.C158_message_partial",
    "Verif.Props.C158_refuted"
   ],
   "note": "C158_full refuted: the exception ends the program. Proved for all schedules of owner, worker and system threads (with a system that waits for its calls, as documented): an exception at an event terminates at once; at the live or die message nothing more is told, no close() and no destructor returns, and at the latest the fourth step of the first of them terminates the program. Assumed: the system terminates a program whose task on a dispatch queue throws."
  },
  {
   "property": "C159",
   "status": "partial",
   "theorems": [
    "Verif.Props.C159_safe_partial",
    "Verif.Props.C159_leak_partial",
    "Verif.Props.C159_null_partial",
    "Verif.Props.C159_refuted"
   ],
   "note": "C159_full refuted: each working watch leaves its semaphore, string and array. Proved for all answers of the system and any number of watches: no reference error and no stream left if the path can be made a string, nothing but the semaphore left when opening fails, exactly three objects per working watch; without a string the array retains null."
  },
  {
   "property": "C160",
   "status": "partial",
   "theorems": [
    "Verif.Props.C160_own",
    "Verif.Props.C160_clean_partial",
    "Verif.Props.C160_refuted"
   ],
   "note": "C160_full refuted only by descriptor 0 (as C23). Proved for any number of watch objects and other careful threads, every interleaving and every answer of the system calls: nobody closes what is not his (C160_own, without restriction), and a watch that has gone has left nothing open unless fanotify was given descriptor 0. Directory handles of the walk are in C23_walk_closes."
  },
  {
   "property": "C161",
   "status": "partial",
   "theorems": [
    "Verif.Props.C161_silent_partial",
    "Verif.Props.C161_refuted",
    "Verif.Props.C161_fanotify_silent_partial",
    "Verif.Props.C161_fanotify_refuted",
    "Verif.Props.C161_known"
   ],
   "note": "C161_full and C161_fanotify_full refuted: IN_UNMOUNT is not looked at, and fanotify has no such event. Proved instead, after any history: the callback is never called again, the watch does not end, and (inotify) the table keeps the entries of the watches the kernel has dropped."
  },
  {
   "property": "C162",
   "status": "proved",
   "theorems": [
    "Verif.Props.C162_no_starving",
    "Verif.Props.C162_read_returns"
   ],
   "note": "For any queue limit (changes for which there was no room are C104). C162_read_returns shows that such calls of read() are always possible."
  },
  {
   "property": "C163",
   "status": "partial",
   "theorems": [
    "Verif.Props.C163_unmoved_partial",
    "Verif.Props.C163_lone_partial",
    "Verif.Props.C163_no_starving_partial",
    "Verif.Props.C163_no_removal_partial",
    "Verif.Props.C163_missed_partial",
    "Verif.Props.C163_refuted",
    "Verif.Props.C163_always_partial"
   ],
   "note": "C163_full refuted (as C85_full: a record that cannot be looked up takes the rest of its batch down). Proved for every history in which no directory is removed during a read or while a record about it is pending (Present) and no read is like those of Fine, merging included; C163_no_removal_partial: the same if no directory is removed at all. C163_missed_partial: without Present, a change not mentioned by then was missed as in C85_missed_partial; C163_always_partial: removals during reads allowed as well. C163_unmoved_partial: the same without any condition on reads when nothing is moved. C163_lone_partial: if every read gets at most one record, every change in a directory still there is mentioned."
  },
  {
   "property": "C164",
   "status": "partial",
   "theorems": [
    "Verif.Props.C164_exact",
    "Verif.Props.C164_two_moves_partial",
    "Verif.Props.C164_end_to_end",
    "Verif.Props.C164_refuted",
    "Verif.Props.C164_half_told",
    "Verif.Props.C164_to_itself",
    "Verif.Props.C164_no_new_name"
   ],
   "note": "C164_full refuted: the kernel merges the four records of an exchange, so one of the two moves is not told (C164_half_told); half watched, a rename of a directory to itself (C164_to_itself) or one without a new name. Proved: exactly what is told, for all operations (C164_exact, C164_end_to_end), and the full statement where no exchange is merged or half watched."
  },
  {
   "property": "C165",
   "status": "proved",
   "theorems": [
    "Verif.Props.C165_no_starving_end_to_end",
    "Verif.Props.C165_wakes_up"
   ],
   "note": "C162 lifted to the whole watch: owner, worker, stop signal, callback, inotify back end and kernel together, arbitrary schedules and queue limits. wakes counts wake-ups that read; C165_wakes_up shows that one is possible whenever the watch waits."
  },
  {
   "property": "C166",
   "status": "partial",
   "theorems": [
    "Verif.Props.C166_unmoved_partial",
    "Verif.Props.C166_always_partial",
    "Verif.Props.C166_wakes_up_partial",
    "Verif.Props.C166_no_starving_end_to_end_partial",
    "Verif.Props.C166_no_removal_partial",
    "Verif.Props.C166_missed_partial",
    "Verif.Props.C166_refuted"
   ],
   "note": "C166_full refuted, for the reason C163 is: rm -r loses what was read with the records of the removed directory. Proved for histories in which directories are removed neither during a read nor while a record about them is pending (PresentReads) and without the reads C37/C36 refute (FineReads), for arbitrary schedules, merging and operations during system calls; C166_no_removal_partial is the case without removals. C166_missed_partial: without PresentReads, a change that was pending is told by then, or was missed as in C85_missed_partial at one of the reads; C166_always_partial: removals during reads allowed as well. C166_wakes_up_partial (no hypothesis on directories): a wake-up that reads is possible whenever the watch waits (for record counts that fit the buffer: the size of a record is not bounded in the model). C166_unmoved_partial: the same without any condition on reads when nothing is moved."
  },
  {
   "property": "C167",
   "status": "partial",
   "theorems": [
    "Verif.Props.C167_exactly",
    "Verif.Props.C167_room_partial",
    "Verif.Props.C167_refuted",
    "Verif.Props.C167_room_again"
   ],
   "note": "C167_full refuted: std::async throws inside the noexcept constructor if no thread or memory can be had. C167_exactly says exactly when; C167_room_partial: never if there is memory and room for one more thread than the open watches and the threads of the program itself, however many watches come and go."
  }
 ]
}