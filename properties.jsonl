{"id": "C01", "title": "Event equality is a congruence on every field", "statement": "Comparing two events with == is an equivalence relation; it answers true exactly when both have the same effect time, path type, effect type, the same path (compared as a path, component by component) and either no associated event on both sides or equal associated events, to any depth; != is always the opposite answer, and a copy of an event compares equal to the original.", "quantifier": "all pairs and triples of events, with associated events nested to any depth", "why_tests_cant": "Events form an unbounded recursive type; tests compare a handful of flat events.", "anchors": ["include/wtr/watcher.hpp:event::operator==", "include/wtr/watcher.hpp:event::operator!=", "include/wtr/watcher.hpp:event::event(event const&)"]}
{"id": "C02", "title": "The text of an effect time is its decimal value", "statement": "Converting an effect time to a string yields exactly the decimal digits of that time, of every 64-bit value.", "quantifier": "all 2^64 values of a long long time stamp", "why_tests_cant": "The value space is 2^64 and the failing part (times that do not have exactly nineteen characters) is not reached by a test that uses the current clock.", "anchors": ["include/wtr/watcher.hpp:num_to_str", "include/wtr/watcher.hpp:to<std::basic_string<char>>(effect_time)", "include/wtr/watcher.hpp:to<std::basic_string<wchar_t>>(effect_time)"]}
{"id": "C03", "title": "The stream/JSON text of an event decodes back to the event", "statement": "The text produced by streaming an event, put between braces, is valid JSON and decodes to exactly the event's time, effect type, path name, path type and (first level) associated event; different events never produce the same text.", "quantifier": "all events, all path names (arbitrary bytes), with or without an associated event", "why_tests_cant": "Quantifies over every possible byte string in a path name; quoting bugs hide in bytes tests do not use.", "anchors": ["include/wtr/watcher.hpp:wtr_event_to_str_cls_as_json", "include/wtr/watcher.hpp:operator<<(event)"]}
{"id": "C04", "title": "Every line the command line program prints is one JSON document for the whole event chain", "statement": "The line printed for an event is valid JSON and decodes to the event and its associated events at every depth.", "quantifier": "all events, to any nesting depth of associated events, all path names", "why_tests_cant": "Unbounded recursion depth and all byte strings.", "anchors": ["src/wtr/watcher/main.cpp:json"]}
{"id": "C05", "title": "Names of effect types and path types are unambiguous and the same in narrow and wide text", "statement": "Every effect type and every path type has its documented name, two different values never share a name, and the wide-character text is the narrow text widened character by character.", "quantifier": "all effect types, all path types, both character widths, and out-of-range enumerator values", "why_tests_cant": "Ranges over every value of the underlying integer, including values no named enumerator has.", "anchors": ["include/wtr/watcher.hpp:wtr_effect_type_to_str_lit", "include/wtr/watcher.hpp:wtr_path_type_to_str_lit", "include/wtr/watcher.hpp:to<std::basic_string<wchar_t>>"]}
{"id": "C06", "title": "A rename event built from two events carries both of them completely", "statement": "Combining a base event and an associated event gives an event with the base's path name, path type and effect type whose associated event is the second event unchanged (including its own associated events); the combined event's time is the time of combining.", "quantifier": "all pairs of events, any nesting, any clock", "why_tests_cant": "Unbounded recursive data and clock values.", "anchors": ["include/wtr/watcher.hpp:event::event(event const&, event&&)"]}
{"id": "C07", "title": "The stop signal is never reported before it was given", "statement": "As long as nobody has released the stop signal, asking for its state answers 'pending', on every platform, whatever the history of previous questions.", "quantifier": "all histories of state queries, on Linux, Darwin and other platforms", "why_tests_cant": "Unbounded histories.", "anchors": ["include/wtr/watcher.hpp:semabin::state", "include/wtr/watcher.hpp:semabin::release"]}
{"id": "C08", "title": "Once the stop signal was released it stays released", "statement": "After a successful release every later state query answers 'released'.", "quantifier": "all histories of release and state calls on Linux, Darwin and other platforms", "why_tests_cant": "Unbounded histories; the Linux state query consumes the event counter so the answer depends on how often it was asked.", "anchors": ["include/wtr/watcher.hpp:semabin::state", "include/wtr/watcher.hpp:semabin::release"]}
{"id": "C09", "title": "A release is never lost", "statement": "Whatever the interleaving of the closing thread's release with the watching thread's start-up check, either the start-up check sees the release, or the descriptor the watching thread waits on is readable when it starts waiting and stays readable.", "quantifier": "all interleavings of the individual atomic and system-call steps of release and state", "why_tests_cant": "Needs every interleaving of two threads at the granularity of single atomic operations.", "anchors": ["include/wtr/watcher.hpp:semabin::release", "include/wtr/watcher.hpp:semabin::state", "include/wtr/watcher.hpp:watch::watch", "include/wtr/watcher.hpp:adapter::watch"]}
{"id": "C10", "title": "Every watch begins with one live message and ends with one die message", "statement": "In every execution the first event the callback receives is a create/watcher event with a live message, the last one after the watcher stopped is a destroy/watcher event with a die message for the same path, both are sent exactly once, and no event is delivered before the first or after the last.", "quantifier": "all schedules of the opening, closing and watching threads, all behaviours of the platform back end", "why_tests_cant": "All schedules and all back-end behaviours; a test sees one schedule.", "anchors": ["include/wtr/watcher.hpp:watch::watch", "include/wtr/watcher.hpp:watch::close"]}
{"id": "C11", "title": "The result of close agrees with the die message", "statement": "A first close() that is not refused by a broken stop signal returns true exactly when the die message begins with 's', which requires the live message to begin with 's' and the back end to have stopped without a fatal error.", "quantifier": "all schedules and all back-end results", "why_tests_cant": "All schedules and outcomes, including failures that are hard to provoke.", "anchors": ["include/wtr/watcher.hpp:watch::watch", "include/wtr/watcher.hpp:watch::close"]}
{"id": "C12", "title": "A watcher can be closed successfully at most once", "statement": "Among all close() calls on one watcher at most one returns true; every call after one that reached the end of watching returns false.", "quantifier": "all sequences of close calls in all schedules", "why_tests_cant": "Unbounded call sequences over all schedules.", "anchors": ["include/wtr/watcher.hpp:watch::close"]}
{"id": "C13", "title": "Silence after close", "statement": "After close() has returned from a stop signal that worked, and after the destructor has returned in any case, the callback is never called again.", "quantifier": "all schedules, all back-end behaviours", "why_tests_cant": "A late callback needs a particular schedule.", "anchors": ["include/wtr/watcher.hpp:watch::close", "include/wtr/watcher.hpp:watch::~watch"]}
{"id": "C14", "title": "Closing before the live message is an error", "statement": "If close() is called before the live message has been delivered, close() returns false (readme: 'closing the watcher will always produce an error if the self/live message has not yet been sent').", "quantifier": "all schedules of close against the start-up of the watching thread", "why_tests_cant": "Depends on the exact interleaving of close with four steps of the watching thread.", "anchors": ["include/wtr/watcher.hpp:watch::watch", "include/wtr/watcher.hpp:watch::close", "readme.md:State Changes and Special Events"]}
{"id": "C15", "title": "Closing terminates", "statement": "After a successful release, the watching thread finishes after a bounded number of its own steps once the file system stops producing events (and callbacks return without calling close), so close() and the destructor return; endless activity can postpone it for ever.", "quantifier": "all schedules from all reachable states", "why_tests_cant": "Liveness over all schedules.", "anchors": ["include/wtr/watcher.hpp:adapter::watch", "include/wtr/watcher.hpp:watch::close", "include/wtr/watcher.hpp:watch::~watch"]}
{"id": "C16", "title": "Close waits for the watching thread, so it can never return when called from inside the callback", "statement": "close() that waits returns only after the watching thread has finished; consequently a close() issued from inside the callback never returns and the die message is never sent.", "quantifier": "all schedules, all moments at which the callback calls close", "why_tests_cant": "A statement about all future executions (non-termination).", "anchors": ["include/wtr/watcher.hpp:watch::close", "include/wtr/watcher.hpp:watch::watch"]}
{"id": "C17", "title": "The stop signal outlives its users", "statement": "In every schedule the stop signal's descriptor is closed only after the watching thread has made its last use of it.", "quantifier": "all schedules of destructor and watching thread", "why_tests_cant": "Use after close needs a particular schedule.", "anchors": ["include/wtr/watcher.hpp:watch::living", "include/wtr/watcher.hpp:watch::watching", "include/wtr/watcher.hpp:semabin::~semabin", "include/wtr/watcher.hpp:watch::~watch"]}
{"id": "C18", "title": "A path that cannot be watched produces exactly two error messages", "statement": "If the given path is not an existing directory the callback receives exactly two events, 'e/self/live@path' and 'e/self/die@path', the platform back end is never started, and close() returns false.", "quantifier": "all paths and all schedules", "why_tests_cant": "All schedules and all ways the path check can fail.", "anchors": ["include/wtr/watcher.hpp:watch::watch"]}
{"id": "C19", "title": "Message codes are classified consistently", "statement": "Every status code of the Linux back end below 'complete' means keep running and every code above it is fatal; every status is reported under its own name, fatal messages start with 'e', warnings with 'w', no two codes share a message, and unknown codes are reported as an error.", "quantifier": "all 2^16 values of the code's underlying type", "why_tests_cant": "Covers values without an enumerator, which tests do not construct.", "anchors": ["include/wtr/watcher.hpp:adapter::result", "include/wtr/watcher.hpp:adapter::to_str"]}
{"id": "C20", "title": "A fatal error is always announced and makes close fail", "statement": "When the Linux back end stops because of a fatal condition, exactly one 'e/...@path' message is sent, after all file events and directly before the die message, and close() returns false; when it stops because of close, no such message is sent.", "quantifier": "all sequences of wake-ups, all read results", "why_tests_cant": "Error results of system calls combined with all wake-up orders.", "anchors": ["include/wtr/watcher.hpp:adapter::watch"]}
{"id": "C21", "title": "Warnings never stop the watcher", "statement": "A non-fatal condition leaves the watcher running, and it keeps delivering the events of later wake-ups.", "quantifier": "all sequences of wake-ups and results", "why_tests_cant": "Unbounded sequences.", "anchors": ["include/wtr/watcher.hpp:adapter::watch"]}
{"id": "C22", "title": "The back end falls back from fanotify to inotify exactly when fanotify is unavailable", "statement": "Without root or when fanotify cannot be opened, inotify is used; in every other case the result of the fanotify back end is final.", "quantifier": "all system-call outcomes", "why_tests_cant": "Requires every failure mode of the privileged interface.", "anchors": ["include/wtr/watcher.hpp:adapter::watch::try_fanotify"]}
{"id": "C23", "title": "Watching leaks no file descriptors", "statement": "When the Linux back end returns, every descriptor it opened has been closed, whatever failed on the way.", "quantifier": "all outcomes of every system call", "why_tests_cant": "All failure combinations.", "anchors": ["include/wtr/watcher.hpp:adapter::watch", "include/wtr/watcher.hpp:fanotify::make_sysres", "include/wtr/watcher.hpp:inotify::make_sysres", "include/wtr/watcher.hpp:make_ep", "include/wtr/watcher.hpp:fanotify::pathof"]}
{"id": "C24", "title": "Opening a watch marks every directory of the tree once and nothing else", "statement": "The initial walk visits the root and every directory reachable through real (non-symbolic-link) sub-directories exactly once, never a non-directory, never through a symbolic link and never '.' or '..'.", "quantifier": "all finite directory trees", "why_tests_cant": "All tree shapes and sizes.", "anchors": ["include/wtr/watcher.hpp:walkdir_do"]}
{"id": "C25", "title": "Reading an inotify batch is memory safe and never trips the internal limits", "statement": "For every batch of records the kernel can put into the buffer, processing reads only bytes the kernel wrote, terminates, and never ends with the internal 'impossible' error.", "quantifier": "all well-formed batches up to the buffer size, all stale buffer contents behind them", "why_tests_cant": "All byte-level layouts.", "anchors": ["include/wtr/watcher.hpp:inotify::do_ev_recv", "include/wtr/watcher.hpp:inotify::peek", "include/wtr/watcher.hpp:inotify::parse_ev", "include/wtr/watcher.hpp:inotify::defer_dm_rm_wd"]}
{"id": "C26", "title": "An inotify batch is reported completely, in order and without inventions", "statement": "For every batch the callback receives, in kernel order, exactly one event for each reportable record of a known directory, with rename pairs folded into one event, and nothing else except warnings.", "quantifier": "all well-formed batches and all directory tables", "why_tests_cant": "All record sequences.", "anchors": ["include/wtr/watcher.hpp:inotify::do_ev_recv", "include/wtr/watcher.hpp:inotify::parse_ev"]}
{"id": "C27", "title": "Kernel masks are translated faithfully and access-only events are not reported", "statement": "An event's effect and path type are determined by the kernel mask (create, destroy, rename, modify; directory or file) and a record that carries none of these effects, or only information about the watched directory itself, is never reported.", "quantifier": "all 2^32 masks", "why_tests_cant": "2^32 masks.", "anchors": ["include/wtr/watcher.hpp:inotify::parse_ev", "include/wtr/watcher.hpp:inotify::do_ev_recv::is_real_event", "tool/test/access-events-are-not-reported"]}
{"id": "C28", "title": "A rename is reported as one event with the right old and new path", "statement": "When an entry is renamed inside the watched tree the callback receives one rename event with the old path whose associated event carries the new path.", "quantifier": "all directories, names and surrounding events, on inotify", "why_tests_cant": "All pairs of directories, and all batch boundaries.", "anchors": ["include/wtr/watcher.hpp:inotify::parse_ev", "tool/test/rename-file-accuracy"]}
{"id": "C29", "title": "Events of unknown watches become one warning each and do not disturb the rest", "statement": "A record whose watch is not known produces exactly one 'w/sys/phantom@' warning and the other records of the batch are processed as if it were not there.", "quantifier": "all batches", "why_tests_cant": "All positions and combinations in a batch.", "anchors": ["include/wtr/watcher.hpp:inotify::do_ev_recv"]}
{"id": "C30", "title": "A kernel queue overflow is announced", "statement": "When the kernel reports that events were dropped the callback receives the queue-overflow warning 'w/sys/q_overflow@...'.", "quantifier": "all batches that contain an overflow record, on inotify and on fanotify", "why_tests_cant": "Overflow cannot be provoked reliably.", "anchors": ["include/wtr/watcher.hpp:inotify::do_ev_recv", "include/wtr/watcher.hpp:fanotify::do_ev_recv"]}
{"id": "C31", "title": "Every observed change is reported exactly once, in order, with its path (inotify)", "statement": "For every history of file-system operations and reads, in any interleaving, the file events delivered are exactly the operations done in directories that were being watched at that moment, in the order they were done, each with the path it was done to (directories not being renamed).", "quantifier": "all histories of operations, all batch boundaries, all interleavings with the processing of a batch", "why_tests_cant": "Unbounded histories and all interleavings.", "anchors": ["include/wtr/watcher.hpp:inotify::do_ev_recv", "include/wtr/watcher.hpp:inotify::do_mark", "include/wtr/watcher.hpp:inotify::make_sysres"]}
{"id": "C32", "title": "Keeping up means missing nothing (inotify)", "statement": "If no directory is renamed or moved (that is C34) and every operation's events are processed before the next operation, every operation anywhere in the tree, including inside directories created later, is reported with its path, for ever.", "quantifier": "all initial trees, all operation sequences", "why_tests_cant": "Unbounded histories and trees.", "anchors": ["include/wtr/watcher.hpp:inotify::do_ev_recv", "include/wtr/watcher.hpp:inotify::do_mark", "include/wtr/watcher.hpp:walkdir_do"]}
{"id": "C33", "title": "Entries made in a new directory are reported even before the directory was noticed", "statement": "After a directory is created inside the watched tree, every entry created in it is reported, even when it is created before the watcher has processed the directory's own event.", "quantifier": "all interleavings of directory creation, entry creation and event processing", "why_tests_cant": "A race between the kernel queue and the process.", "anchors": ["include/wtr/watcher.hpp:inotify::do_ev_recv", "include/wtr/watcher.hpp:fanotify::do_mark_if_newdir"]}
{"id": "C34", "title": "Paths stay right after a directory is renamed", "statement": "After a directory inside the watched tree has been renamed, events below it are reported with the new path.", "quantifier": "all trees, all renames, all later operations", "why_tests_cant": "Unbounded histories.", "anchors": ["include/wtr/watcher.hpp:inotify::do_ev_recv", "include/wtr/watcher.hpp:inotify::do_mark"]}
{"id": "C35", "title": "The watch table follows the kernel", "statement": "After any history, once all pending events are processed, the watcher's table of watched directories contains exactly the kernel's live watches, each with the directory's path, so it does not grow with deleted directories.", "quantifier": "all histories of operations and reads", "why_tests_cant": "Unbounded histories.", "anchors": ["include/wtr/watcher.hpp:inotify::ke_in_ev::dm", "include/wtr/watcher.hpp:inotify::defer_dm_rm_wd", "include/wtr/watcher.hpp:inotify::do_mark"]}
{"id": "C36", "title": "Reading a fanotify batch is memory safe and never trips the internal limits", "statement": "For every batch the kernel can put into the buffer, processing terminates, does not end with an internal error and looks only at bytes inside the buffer.", "quantifier": "all well-formed batches up to the buffer size", "why_tests_cant": "All byte-level layouts.", "anchors": ["include/wtr/watcher.hpp:fanotify::do_ev_recv", "include/wtr/watcher.hpp:fanotify::peek", "include/wtr/watcher.hpp:fanotify::parse_ev"]}
{"id": "C37", "title": "A fanotify batch is reported completely and in order", "statement": "For every batch of resolvable records the callback receives exactly one event for each record, in kernel order, with adjacent moved-from/moved-to records folded into one rename event.", "quantifier": "all well-formed batches", "why_tests_cant": "All record sequences, including both orders of the two halves of a rename.", "anchors": ["include/wtr/watcher.hpp:fanotify::do_ev_recv", "include/wtr/watcher.hpp:fanotify::parse_ev", "include/wtr/watcher.hpp:fanotify::peek"]}
{"id": "C38", "title": "fanotify only pairs halves of the same rename", "statement": "Two records are folded into one rename event only if they are the two halves of one rename.", "quantifier": "all batches", "why_tests_cant": "Needs unrelated moves to be adjacent.", "anchors": ["include/wtr/watcher.hpp:fanotify::parse_ev"]}
{"id": "C39", "title": "'Nothing to read' is not a fatal error, and a failed read is", "statement": "A read that would block leaves the watcher running; a read that fails for another reason ends it with an error.", "quantifier": "all read results and error numbers, on inotify and on fanotify", "why_tests_cant": "Read failures cannot be provoked by a test.", "anchors": ["include/wtr/watcher.hpp:fanotify::do_ev_recv", "include/wtr/watcher.hpp:inotify::do_ev_recv"]}
{"id": "C40", "title": "One stale fanotify record does not lose its neighbours", "statement": "If the directory of one record can no longer be opened, the other records of the same batch are still reported.", "quantifier": "all batches, all positions of the stale record", "why_tests_cant": "Race between deletion and reading.", "anchors": ["include/wtr/watcher.hpp:fanotify::do_ev_recv", "include/wtr/watcher.hpp:fanotify::pathof"]}
{"id": "C41", "title": "fanotify paths are the directory's path, one separator, and the entry's name", "statement": "The reported path is the directory's absolute path, one '/', and the name; for a record about the directory itself it is the directory's path.", "quantifier": "all directories, names and handle sizes", "why_tests_cant": "All byte layouts and lengths.", "anchors": ["include/wtr/watcher.hpp:fanotify::pathof"]}
{"id": "C42", "title": "fanotify masks are translated faithfully", "statement": "A reported event's path type and effect are determined by the mask, and an effect present in the mask is what is reported.", "quantifier": "all 2^64 masks", "why_tests_cant": "2^64 masks.", "anchors": ["include/wtr/watcher.hpp:fanotify::parse_ev"]}
{"id": "C43", "title": "Newly created directories are watched before their creation is announced (fanotify)", "statement": "When a directory-creation event is delivered, the directory has been marked or a 'not watched' warning for it has been delivered just before.", "quantifier": "all batches", "why_tests_cant": "All batch layouts and mark results.", "anchors": ["include/wtr/watcher.hpp:fanotify::do_mark_if_newdir", "include/wtr/watcher.hpp:fanotify::do_mark", "include/wtr/watcher.hpp:fanotify::do_ev_recv"]}
{"id": "C44", "title": "Darwin: no duplicate creations, no unexplained destructions", "statement": "For every path, the create and destroy events delivered alternate, starting with create, however the system batches and repeats its notifications.", "quantifier": "all notification histories", "why_tests_cant": "Unbounded histories of repeated flags.", "anchors": ["include/wtr/watcher.hpp:event_recv_one", "include/wtr/watcher.hpp:ContextData::seen_created_paths"]}
{"id": "C45", "title": "Darwin: deleting a path is reported", "statement": "Every notification that a path was removed leads to a destroy event.", "quantifier": "all histories, including paths that existed before watching started", "why_tests_cant": "All histories.", "anchors": ["include/wtr/watcher.hpp:event_recv_one"]}
{"id": "C46", "title": "Darwin: rename events connect the two consecutive rename notifications", "statement": "A rename event is sent exactly when a rename notification for another path follows one for a path that no longer exists, with the old path first; each notification takes part in at most one event.", "quantifier": "all notification histories", "why_tests_cant": "All histories.", "anchors": ["include/wtr/watcher.hpp:event_recv_one", "include/wtr/watcher.hpp:ContextData::last_rename_path"]}
{"id": "C47", "title": "Darwin: flags are translated faithfully", "statement": "Path type and the set and order of the effects reported for one notification are determined by its flags; metadata-only changes are not reported and unrecognised effects are reported as 'other'.", "quantifier": "all 2^32 flag words", "why_tests_cant": "2^32 flag words.", "anchors": ["include/wtr/watcher.hpp:event_recv_one"]}
{"id": "C48", "title": "Darwin: outstanding events are delivered before close returns", "statement": "Notifications flushed while closing are delivered to the callback.", "quantifier": "all schedules of notification delivery and close", "why_tests_cant": "Schedules.", "anchors": ["include/wtr/watcher.hpp:close_event_stream", "include/wtr/watcher.hpp:event_recv"]}
{"id": "C49", "title": "Windows: a batch is reported completely and in order with renames paired", "statement": "For every batch of notifications, every notification is reported, in order, with the old and new name of a rename folded into one event.", "quantifier": "all batches", "why_tests_cant": "All record sequences, including split renames.", "anchors": ["include/wtr/watcher.hpp:do_event_send (windows)"]}
{"id": "C50", "title": "Windows: processing a batch terminates", "statement": "Handling any batch ends after finitely many steps.", "quantifier": "all batches", "why_tests_cant": "Non-termination.", "anchors": ["include/wtr/watcher.hpp:do_event_send (windows)", "include/wtr/watcher.hpp:watch (windows)"]}
{"id": "C51", "title": "Windows: any path can be opened safely", "statement": "Opening a watch does not write outside the fixed path buffer, whatever the length of the path.", "quantifier": "all path lengths", "why_tests_cant": "All lengths.", "anchors": ["include/wtr/watcher.hpp:watch_event_proxy::watch_event_proxy"]}
{"id": "C52", "title": "Portable scanner: nothing is reported when nothing changes", "statement": "While the tree does not change no events are sent, after the first pass.", "quantifier": "all trees, any number of passes", "why_tests_cant": "Unbounded.", "anchors": ["include/wtr/watcher.hpp:warthog scan", "include/wtr/watcher.hpp:warthog tend_bucket"]}
{"id": "C53", "title": "Portable scanner: new and changed files are reported exactly once", "statement": "A regular file that appears is reported as created exactly once and one whose write time changes is reported as modified exactly once.", "quantifier": "all trees and histories of snapshots", "why_tests_cant": "Unbounded.", "anchors": ["include/wtr/watcher.hpp:warthog scan", "include/wtr/watcher.hpp:warthog tend_bucket"]}
{"id": "C54", "title": "Portable scanner: deleted files are reported", "statement": "A file that disappears is reported as destroyed, and as created again when it comes back.", "quantifier": "all histories of snapshots", "why_tests_cant": "Unbounded.", "anchors": ["include/wtr/watcher.hpp:warthog tend_bucket", "include/wtr/watcher.hpp:warthog scan"]}
{"id": "C55", "title": "The C view of an event loses nothing it promises", "statement": "The C event carries the same time, path, effect and path type codes as the event and the associated path exactly when there is an associated event; the Rust, Python and TypeScript decodings of the codes give the same names.", "quantifier": "all events", "why_tests_cant": "All events including non-UTF-8 names.", "anchors": ["watcher-c/src/watcher-c.cpp:wtr_watcher_open", "watcher-c/include/wtr/watcher-c.h", "watcher-rs/src/lib.rs:ev_from_c", "watcher-py/watcher/watcher.py:_c_event_to_event", "watcher-nodejs/lib/watcher.ts:watch"]}
{"id": "C56", "title": "Closing through the C API is safe and final", "statement": "Closing a null handle returns false; closing a handle returns what close returned and frees the watcher when it succeeded; no sequence of calls that respects 'do not use a handle after a successful close' touches freed memory.", "quantifier": "all sequences of open and close calls", "why_tests_cant": "Unbounded call sequences.", "anchors": ["watcher-c/src/watcher-c.cpp:wtr_watcher_close"]}
{"id": "C57", "title": "The Rust watch can be closed and then dropped", "statement": "Closing a Rust watch any number of times and dropping it never touches freed memory.", "quantifier": "all sequences of method calls", "why_tests_cant": "Undefined behaviour that may go unnoticed.", "anchors": ["watcher-rs/src/lib.rs:Watch::close", "watcher-rs/src/lib.rs:Watch::drop"]}
{"id": "C58", "title": "The Python and TypeScript watches can be closed any number of times", "statement": "Any sequence of close, context exit and finalisation calls the C close at most once and never with a freed handle.", "quantifier": "all sequences of method calls", "why_tests_cant": "Unbounded.", "anchors": ["watcher-py/watcher/watcher.py:Watch", "watcher-nodejs/lib/watcher.ts:watch"]}
{"id": "C59", "title": "Node.js receives every event", "statement": "Every event delivered by the watcher is handed to the JavaScript callback, in order, and its memory is freed exactly once.", "quantifier": "all schedules of producer and JavaScript loop", "why_tests_cant": "Needs a slow consumer and all interleavings.", "anchors": ["watcher-nodejs/lib/watcher-napi.cpp:callback_bridge", "watcher-nodejs/lib/watcher-napi.cpp:callback_js_receiver"]}
{"id": "C60", "title": "Node.js event times are exact", "statement": "effectTime in JavaScript equals the event's time in nanoseconds.", "quantifier": "all 64-bit times", "why_tests_cant": "2^64 values.", "anchors": ["watcher-nodejs/lib/watcher-napi.cpp:event_to_js_obj"]}
{"id": "C61", "title": "The command line program's exit status and duration follow its arguments", "statement": "The program exits 0 exactly when help was asked for or a watch was opened on an existing path and closed successfully; it shows help on bad arguments, and watches for the requested number of the requested units.", "quantifier": "all argument vectors", "why_tests_cant": "All argument vectors.", "anchors": ["src/wtr/watcher/main.cpp:Args::try_parse", "src/wtr/watcher/main.cpp:main"]}
{"id": "C62", "title": "Directories moved into the tree are watched", "statement": "After a directory has been moved into the watched tree from outside and the watcher has caught up, changes inside it are reported.", "quantifier": "all trees, all arriving directories, all later operations", "why_tests_cant": "Unbounded histories and trees.", "anchors": ["include/wtr/watcher.hpp:inotify::do_ev_recv", "include/wtr/watcher.hpp:fanotify::do_mark_if_newdir"]}
{"id": "C63", "title": "fanotify reports every effect of a merged record", "statement": "If the kernel merges several changes of one entry into one record, each of the effects in its mask is reported.", "quantifier": "all masks with several effect bits", "why_tests_cant": "Merging depends on the timing of reads; 2^64 masks.", "anchors": ["include/wtr/watcher.hpp:fanotify::parse_ev"]}
{"id": "C64", "title": "Darwin: a watch that cannot be opened says so", "statement": "When the system refuses to open the event stream, the watch ends (with a message) without waiting to be closed.", "quantifier": "all outcomes of opening, all states of the stop signal", "why_tests_cant": "Failure of the system call at any point.", "anchors": ["include/wtr/watcher.hpp:open_event_stream", "include/wtr/watcher.hpp:close_event_stream", "include/wtr/watcher.hpp:watch"]}
{"id": "C65", "title": "Darwin: rename events are the moves inside the tree", "statement": "For every series of moves inside, out of and into the watched tree, the rename events connect exactly the old and new name of each file moved inside the tree.", "quantifier": "all series of moves", "why_tests_cant": "Unbounded histories; a stray notification affects later ones.", "anchors": ["include/wtr/watcher.hpp:event_recv_one", "include/wtr/watcher.hpp:ContextData::last_rename_path"]}
{"id": "C66", "title": "Windows: a watch that can no longer report changes says so", "statement": "At every moment while watching, either the system has been asked to report changes, or the user has been told that reading failed; every batch the system completes is reported, in order and once.", "quantifier": "all sequences of answers of the system, including overflows and errors", "why_tests_cant": "Overflow and error answers are rare and the watch must be checked after every history.", "anchors": ["include/wtr/watcher.hpp:watch (windows)", "include/wtr/watcher.hpp:do_event_recv (windows)"]}
{"id": "C67", "title": "Windows: closing gives back every handle", "statement": "Every handle made while opening a watch is closed when the watch ends, once, whichever of the calls failed.", "quantifier": "all outcomes of the calls made while opening", "why_tests_cant": "All combinations of failures; a leak is not visible in the events.", "anchors": ["include/wtr/watcher.hpp:watch_event_proxy"]}
{"id": "C68", "title": "Windows: the system does not use the watcher's memory after the watch has ended", "statement": "When the watch ends, no read into its buffers is outstanding.", "quantifier": "all histories", "why_tests_cant": "A late write corrupts memory only if a change happens after closing.", "anchors": ["include/wtr/watcher.hpp:watch (windows)", "include/wtr/watcher.hpp:watch_event_proxy::~watch_event_proxy"]}
{"id": "C69", "title": "Portable scanner: a directory that may not be read does not end the program", "statement": "Whatever directories of the tree may not be read, the scanner goes on with the rest.", "quantifier": "all trees, all sets of unreadable directories", "why_tests_cant": "All trees.", "anchors": ["include/wtr/watcher.hpp:scan_dir_opts", "include/wtr/watcher.hpp:warthog scan", "include/wtr/watcher.hpp:warthog tend_bucket"]}
{"id": "C70", "title": "Portable scanner: the watched path itself may vanish or be replaced", "statement": "Every pass has a defined outcome whatever the watched path has become; the watch ends with failure when it is gone.", "quantifier": "all states of the scanner and all kinds of paths", "why_tests_cant": "Undefined behaviour that depends on the history.", "anchors": ["include/wtr/watcher.hpp:warthog tend_bucket", "include/wtr/watcher.hpp:warthog watch"]}
{"id": "C71", "title": "A Python watch may be closed from several threads", "statement": "Any number of threads may call close on one Python watch; the native watcher is closed once and never used after it was freed.", "quantifier": "all numbers of threads and all interleavings of their close calls", "why_tests_cant": "A race that needs particular interleavings.", "anchors": ["watcher-py/watcher/watcher.py:Watch.close"]}
{"id": "C72", "title": "Each binding watches the path it is given", "statement": "The path the native watcher opens is, byte for byte, the (UTF-8 encoded) path given to the C, Python, Rust or Node.js function.", "quantifier": "all byte strings", "why_tests_cant": "Needs paths with zero bytes and very long paths.", "anchors": ["watcher-c/src/watcher-c.cpp:wtr_watcher_open", "watcher-rs/src/lib.rs:Watch::try_new", "watcher-py/watcher/watcher.py:Watch.__init__", "watcher-nodejs/lib/watcher-napi.cpp:watch"]}
{"id": "C73", "title": "Windows: every event reaches the C callback", "statement": "On Windows the C callback is called for every event with the UTF-8 form of its paths, and the conversion stays inside its buffer.", "quantifier": "all path lengths, with and without an associated event", "why_tests_cant": "Needs paths at the exact limit.", "anchors": ["watcher-c/src/watcher-c.cpp:utf16_to_utf8", "watcher-c/src/watcher-c.cpp:wtr_watcher_open"]}
{"id": "C74", "title": "Python's to_json prints JSON", "statement": "For every event Python delivers, to_json is one JSON document with exactly the event's time, paths and types.", "quantifier": "all events", "why_tests_cant": "All names including quotation marks and control characters.", "anchors": ["watcher-py/watcher/watcher.py:Event.to_json"]}
{"id": "C75", "title": "Bindings keep the callback's context as long as the watcher can call it", "statement": "In Rust, Python and Node.js the memory the native callback uses is not freed while the watcher's thread can still deliver an event.", "quantifier": "all outcomes of close and all numbers of later events", "why_tests_cant": "Use after free that may go unnoticed.", "anchors": ["watcher-rs/src/lib.rs:Watch::drop", "watcher-py/watcher/watcher.py:Watch.__del__", "watcher-nodejs/lib/watcher-napi.cpp:close"]}
{"id": "C76", "title": "Node.js: no callback after close", "statement": "After close() has returned, the JavaScript callback is not called again.", "quantifier": "all schedules of producer, JavaScript loop and close", "why_tests_cant": "Depends on what waits in the queue when close is called.", "anchors": ["watcher-nodejs/lib/watcher-napi.cpp:close", "watcher-nodejs/lib/watcher.ts:watch"]}
{"id": "C77", "title": "The command line program's default path", "statement": "Without a path the current directory is watched; and, as the usage text says, if the given path doesn't exist the current directory is used.", "quantifier": "all argument vectors and file systems", "why_tests_cant": "All argument vectors and all answers of the file system.", "anchors": ["src/wtr/watcher/main.cpp:Args::help", "src/wtr/watcher/main.cpp:Args::try_parse"]}
{"id": "C78", "title": "The example program's lines tell what happened", "statement": "Every event is shown on a line of its own as effect, path type, path and, for associated events, an arrow and the other path, from which these can be read back; the program exits 0 exactly when closing worked.", "quantifier": "all sequences of events and all names", "why_tests_cant": "Unbounded names and sequences.", "anchors": ["src/wtr/tiny_watcher/main.cpp:show", "src/wtr/tiny_watcher/main.cpp:main"]}
{"id": "C79", "title": "Nothing is lost, repeated or reordered between the back end and the callback", "statement": "Whenever a watch on Linux has finished, the callback has received exactly: the live message, every event and warning the back end in use handed over, in that order and each once, at most one error announcement, and the die message; at every earlier moment it has received a beginning of that, and all of it whenever the watcher waits for the next change. In particular no event of an abandoned first back end is mixed in.", "quantifier": "all interleavings of owner, worker, callback and other processes, all answers of all system calls, both back ends, the fall-back included", "why_tests_cant": "Schedules and histories are unbounded; a test sees one.", "anchors": ["include/wtr/watcher.hpp:platform_watch", "include/wtr/watcher.hpp:watch", "include/wtr/watcher.hpp:do_ev_recv", "include/wtr/watcher.hpp:make_sysres"]}
{"id": "C80", "title": "End to end: the callback is told every change in a watched directory", "statement": "In any history of a watch by inotify, whenever the watcher waits or has finished, the file events the callback received tell, in order and each exactly once, the changes made in watched directories, up to those still pending in the kernel; and the run never reaches undefined behaviour.", "quantifier": "all trees, all operations of other processes at any time (also between two system calls of the watcher), all sizes of reads, all thread schedules, all callback behaviours, closing at any time", "why_tests_cant": "Histories, schedules and read sizes are unbounded.", "anchors": ["include/wtr/watcher.hpp:watch", "include/wtr/watcher.hpp:platform_watch", "include/wtr/watcher.hpp:do_ev_recv", "include/wtr/watcher.hpp:semabin"]}
{"id": "C81", "title": "No undefined memory access in the whole life of a watch", "statement": "From construction to destruction, as long as the kernel answers each read with an error or with whole records that fit into the buffer, the worker never looks at a byte outside what was read and never writes outside its buffers.", "quantifier": "all schedules, all system-call answers, both back ends, any number of reads", "why_tests_cant": "The number of reads and their contents are unbounded; a sanitizer run sees one sequence.", "anchors": ["include/wtr/watcher.hpp:do_ev_recv", "include/wtr/watcher.hpp:parse_ev", "include/wtr/watcher.hpp:pathof"]}
{"id": "C82", "title": "Fanotify invents nothing", "statement": "Every file event the fanotify back end delivers for one read is about a record of that read: effect, kind and file name are the record's, the directory is one that the record's directory had when it was looked up, an associated event is about a neighbouring record of a rename, and events come in the order of the records. No stale byte of an earlier read, no byte behind what was read, and no other record's name shows up.", "quantifier": "all batches of records (renames cut, crossed or merged, overflows, vanished directories), all contents of the buffer beforehand, all answers of the system calls", "why_tests_cant": "The parser looks ahead past the record it works on; whether stale buffer contents leak into an event depends on the exact sizes and on what earlier reads left behind.", "anchors": ["include/wtr/watcher.hpp:do_ev_recv", "include/wtr/watcher.hpp:parse_ev", "include/wtr/watcher.hpp:peek", "include/wtr/watcher.hpp:pathof"]}
{"id": "C83", "title": "Keeping up means missing nothing (fanotify)", "statement": "If the watcher reads after each operation, the callback receives exactly the events the operations mean, in order and with the entries' real paths: creations, changes and removals of files and directories, one event with both paths for a move between watched directories, one about the watched end for a move in or out. Directories made in watched directories are watched from then on; directories renamed or moved keep being watched, under their new path.", "quantifier": "all trees of directories, all sets of directories marked at the start, all sequences of operations by any processes, including moves of whole directories (exchanges of two directories in one call: C164)", "why_tests_cant": "Histories are unbounded, and the paths depend on every earlier move of a directory and on which directories were marked on the way.", "anchors": ["include/wtr/watcher.hpp:do_ev_recv", "include/wtr/watcher.hpp:parse_ev", "include/wtr/watcher.hpp:pathof", "include/wtr/watcher.hpp:do_mark", "include/wtr/watcher.hpp:do_mark_if_newdir"]}
{"id": "C84", "title": "fanotify events are about real changes at real paths", "statement": "Whatever other processes do, also between the system calls of the watcher, each file event is about a change that happened in a watched directory, with that change's effect, kind and name, under a path this directory has or had; an associated event is about an old name and a new name.", "quantifier": "all histories: operations before, during and between reads, any merging of records by the kernel, reads that return any number of records", "why_tests_cant": "The race between a look-up and a move or removal of the directory cannot be scheduled in a test, and the number of interleavings is unbounded.", "anchors": ["include/wtr/watcher.hpp:do_ev_recv", "include/wtr/watcher.hpp:parse_ev", "include/wtr/watcher.hpp:pathof", "include/wtr/watcher.hpp:do_mark", "include/wtr/watcher.hpp:do_mark_if_newdir"]}
{"id": "C85", "title": "Every change read is mentioned (fanotify)", "statement": "As long as the watch runs, every change made in a watched directory is mentioned by an event once its record was read, whatever happened to its neighbours.", "quantifier": "all histories as in C84", "why_tests_cant": "Whether a record is skipped depends on its neighbours in the same read and on concurrent removals.", "anchors": ["include/wtr/watcher.hpp:do_ev_recv", "include/wtr/watcher.hpp:parse_ev", "include/wtr/watcher.hpp:pathof", "include/wtr/watcher.hpp:do_mark", "include/wtr/watcher.hpp:do_mark_if_newdir"]}
{"id": "C86", "title": "Every change is told exactly once and in order (fanotify)", "statement": "Once everything pending was read, the file events tell the changes made in watched directories, in the order in which they happened and each exactly once, an old name directly followed by a new name in one event.", "quantifier": "all histories as in C84", "why_tests_cant": "Order and multiplicity must hold for unbounded histories, for every cut of the queue by reads and every interleaving.", "anchors": ["include/wtr/watcher.hpp:do_ev_recv", "include/wtr/watcher.hpp:parse_ev", "include/wtr/watcher.hpp:pathof", "include/wtr/watcher.hpp:do_mark", "include/wtr/watcher.hpp:do_mark_if_newdir"]}
{"id": "C87", "title": "Windows and scanner: live first, die last", "statement": "On Windows and with the portable scanner, too, the callback first gets exactly one live message, then only events that are neither a live nor a die message, and last, exactly once, the die message.", "quantifier": "all schedules of owner and worker, all answers of the system, all callbacks that return or call close()", "why_tests_cant": "A test sees one schedule; the interleavings of owner and worker are unbounded in number and length.", "anchors": ["include/wtr/watcher.hpp:watch", "include/wtr/watcher.hpp:watch::close", "include/wtr/watcher.hpp:~watch", "include/wtr/watcher.hpp:semabin", "include/wtr/watcher.hpp:do_event_recv", "include/wtr/watcher.hpp:do_event_send", "include/wtr/watcher.hpp:warthog scan"]}
{"id": "C88", "title": "Windows and scanner: the result of close", "statement": "The first close() returns true exactly if the die message says 's', which requires the live message to say 's'; every later close() returns false; at most one ever returns true.", "quantifier": "all schedules of owner and worker, all answers of the system, all callbacks that return or call close()", "why_tests_cant": "A test sees one schedule; the interleavings of owner and worker are unbounded in number and length.", "anchors": ["include/wtr/watcher.hpp:watch", "include/wtr/watcher.hpp:watch::close", "include/wtr/watcher.hpp:~watch", "include/wtr/watcher.hpp:semabin"]}
{"id": "C89", "title": "Windows and scanner: silence after close and destructor", "statement": "After close() or the destructor has returned the callback is never called again and the watching thread never touches the object again.", "quantifier": "all schedules of owner and worker, all answers of the system, all callbacks that return or call close(), closes and the destructor at any point", "why_tests_cant": "A test sees one schedule; the interleavings of owner and worker are unbounded in number and length.", "anchors": ["include/wtr/watcher.hpp:watch", "include/wtr/watcher.hpp:watch::close", "include/wtr/watcher.hpp:~watch", "include/wtr/watcher.hpp:semabin"]}
{"id": "C90", "title": "Closing the scanner terminates", "statement": "Once close() or the destructor has set the stop flag, the scanner's thread makes a bounded number of further steps besides the deliveries of the pass it is in, and then close() and the destructor return.", "quantifier": "all schedules of owner and worker, all answers of the system, all callbacks that return or call close(), every contents of the watched tree", "why_tests_cant": "Termination is a claim about every continuation of every schedule.", "anchors": ["include/wtr/watcher.hpp:watch", "include/wtr/watcher.hpp:watch::close", "include/wtr/watcher.hpp:~watch", "include/wtr/watcher.hpp:semabin", "include/wtr/watcher.hpp:warthog scan"]}
{"id": "C91", "title": "Closing on Windows terminates", "statement": "Once close() or the destructor has set the stop flag, the Windows thread makes a bounded number of further steps besides deliveries, and then close() and the destructor return.", "quantifier": "all schedules of owner and worker, all answers of the system, all callbacks that return or call close()", "why_tests_cant": "Termination is a claim about every continuation of every schedule and every sequence of answers of the system.", "anchors": ["include/wtr/watcher.hpp:watch", "include/wtr/watcher.hpp:watch::close", "include/wtr/watcher.hpp:~watch", "include/wtr/watcher.hpp:semabin", "include/wtr/watcher.hpp:do_event_recv", "include/wtr/watcher.hpp:do_event_send"]}
{"id": "C92", "title": "Windows and scanner: close from the callback hangs", "statement": "A callback that calls close() never returns from it, no event follows, and no other close() and no destructor returns.", "quantifier": "all schedules of owner and worker, all answers of the system, all callbacks that return or call close()", "why_tests_cant": "Never returning cannot be observed by a test that ends.", "anchors": ["include/wtr/watcher.hpp:watch", "include/wtr/watcher.hpp:watch::close", "include/wtr/watcher.hpp:~watch", "include/wtr/watcher.hpp:semabin"]}
{"id": "C93", "title": "Windows and scanner: bad paths and early closes", "statement": "On a path that is not an existing directory the callback gets exactly the two messages 'e/self/live@' and 'e/self/die@', the system is asked for nothing more, and close() returns false; a close() called before the live message was sent returns false.", "quantifier": "all schedules of owner and worker, all answers of the system, all callbacks that return or call close()", "why_tests_cant": "The window between the check and the live message cannot be hit reliably by a test.", "anchors": ["include/wtr/watcher.hpp:watch", "include/wtr/watcher.hpp:watch::close", "include/wtr/watcher.hpp:~watch", "include/wtr/watcher.hpp:semabin"]}
{"id": "C94", "title": "The callback gets exactly what the back end delivers", "statement": "Whatever the schedule, the events between the live and the die message are exactly those that the passes of the scanner, or the turns of the Windows loop, deliver for the answers the system gave: none added, none lost, in order; the die message says whether the loop ended by the flag or by a failure.", "quantifier": "all schedules of owner and worker, all answers of the system, all callbacks that return or call close()", "why_tests_cant": "Losing an event at shutdown depends on where the flag is set in the schedule.", "anchors": ["include/wtr/watcher.hpp:watch", "include/wtr/watcher.hpp:watch::close", "include/wtr/watcher.hpp:~watch", "include/wtr/watcher.hpp:semabin", "include/wtr/watcher.hpp:warthog scan", "include/wtr/watcher.hpp:do_event_recv", "include/wtr/watcher.hpp:do_event_send"]}
{"id": "C95", "title": "Darwin: live first, die last, one at a time", "statement": "On Darwin, where messages about the watcher and events of files come from different threads, the callback first gets exactly one live message, then only events of files, and last, exactly once, the die message; and no two calls of the callback overlap.", "quantifier": "all schedules of owner, worker and any number of threads of the system, all notifications, all callbacks that return or call close()", "why_tests_cant": "A test sees one schedule; the interleavings of three kinds of threads are unbounded in number and length.", "anchors": ["include/wtr/watcher.hpp:watch", "include/wtr/watcher.hpp:watch::close", "include/wtr/watcher.hpp:~watch", "include/wtr/watcher.hpp:semabin", "include/wtr/watcher.hpp:event_recv", "include/wtr/watcher.hpp:close_event_stream", "include/wtr/watcher.hpp:wait"]}
{"id": "C96", "title": "Darwin: the result of close", "statement": "The first close() returns what the die message says, which can be 's' only if the live message says so; every later close() returns false. It is true exactly if the stream could be opened.", "quantifier": "all schedules of owner, worker and any number of threads of the system, all notifications, all callbacks that return or call close()", "why_tests_cant": "A test sees one schedule; the interleavings of three kinds of threads are unbounded in number and length.", "anchors": ["include/wtr/watcher.hpp:watch", "include/wtr/watcher.hpp:watch::close", "include/wtr/watcher.hpp:~watch", "include/wtr/watcher.hpp:semabin", "include/wtr/watcher.hpp:event_recv", "include/wtr/watcher.hpp:close_event_stream", "include/wtr/watcher.hpp:wait"]}
{"id": "C97", "title": "Darwin: silence after close and destructor", "statement": "After close() or the destructor has returned the whole story was told, the callback is never called again, and neither the watching thread nor a thread of the system does anything more with the watcher.", "quantifier": "all schedules of owner, worker and any number of threads of the system, all notifications, all callbacks that return or call close(), closes and the destructor at any point", "why_tests_cant": "A test sees one schedule; the interleavings of three kinds of threads are unbounded in number and length.", "anchors": ["include/wtr/watcher.hpp:watch", "include/wtr/watcher.hpp:watch::close", "include/wtr/watcher.hpp:~watch", "include/wtr/watcher.hpp:semabin", "include/wtr/watcher.hpp:event_recv", "include/wtr/watcher.hpp:close_event_stream", "include/wtr/watcher.hpp:wait"]}
{"id": "C98", "title": "Closing on Darwin terminates", "statement": "Once close() or the destructor has set the stop flag, a bounded number of further events is delivered, no stop signal is lost, and close() and the destructor return.", "quantifier": "all schedules of owner, worker and any number of threads of the system, all notifications, all callbacks that return or call close()", "why_tests_cant": "Termination is a claim about every continuation of every schedule.", "anchors": ["include/wtr/watcher.hpp:watch", "include/wtr/watcher.hpp:watch::close", "include/wtr/watcher.hpp:~watch", "include/wtr/watcher.hpp:semabin", "include/wtr/watcher.hpp:event_recv", "include/wtr/watcher.hpp:close_event_stream", "include/wtr/watcher.hpp:wait"]}
{"id": "C99", "title": "Darwin: close from the callback hangs", "statement": "A callback that calls close(), whether it was called with an event of a file or with a message about the watcher, never returns from it; no event follows, and no other close() and no destructor returns.", "quantifier": "all schedules of owner, worker and any number of threads of the system, all notifications, all callbacks that return or call close()", "why_tests_cant": "Never returning cannot be observed by a test that ends.", "anchors": ["include/wtr/watcher.hpp:watch", "include/wtr/watcher.hpp:watch::close", "include/wtr/watcher.hpp:~watch", "include/wtr/watcher.hpp:semabin", "include/wtr/watcher.hpp:event_recv", "include/wtr/watcher.hpp:close_event_stream", "include/wtr/watcher.hpp:wait"]}
{"id": "C100", "title": "Darwin: bad paths and early closes", "statement": "On a path that is not an existing directory the callback gets exactly the two messages 'e/self/live@' and 'e/self/die@', no stream is opened, and no close() returns true; a close() called before the live message was sent returns false.", "quantifier": "all schedules of owner, worker and any number of threads of the system, all notifications, all callbacks that return or call close()", "why_tests_cant": "The window between the check and the live message cannot be hit reliably by a test.", "anchors": ["include/wtr/watcher.hpp:watch", "include/wtr/watcher.hpp:watch::close", "include/wtr/watcher.hpp:~watch", "include/wtr/watcher.hpp:semabin", "include/wtr/watcher.hpp:event_recv", "include/wtr/watcher.hpp:close_event_stream", "include/wtr/watcher.hpp:wait"]}
{"id": "C101", "title": "Darwin: every batch is told as a whole or dropped as a whole", "statement": "Whatever the schedule, the events between live and die message are exactly those of the batches whose handling was begun, in that order; every batch the system sent was handled or dropped, never both; creations and destructions of a path alternate; and if the system makes its calls one after the other and had told everything before anybody closed, nothing is dropped.", "quantifier": "all schedules of owner, worker and any number of threads of the system, all notifications, all callbacks that return or call close()", "why_tests_cant": "Which batches collide with the closing depends on the schedule.", "anchors": ["include/wtr/watcher.hpp:watch", "include/wtr/watcher.hpp:watch::close", "include/wtr/watcher.hpp:~watch", "include/wtr/watcher.hpp:semabin", "include/wtr/watcher.hpp:event_recv", "include/wtr/watcher.hpp:close_event_stream", "include/wtr/watcher.hpp:wait"]}
{"id": "C102", "title": "Darwin: nothing is used after it was given back", "statement": "The context and the mutex of a watch are not used after the watching function has returned, and no event comes after the destructor, even if the system's functions for stopping a stream return before the last calls of the receiver have.", "quantifier": "all schedules of owner, worker and any number of threads of the system, all notifications, all callbacks that return or call close(), systems that wait for receivers and systems that do not", "why_tests_cant": "The window is a few instructions on a thread of the system.", "anchors": ["include/wtr/watcher.hpp:watch", "include/wtr/watcher.hpp:watch::close", "include/wtr/watcher.hpp:~watch", "include/wtr/watcher.hpp:semabin", "include/wtr/watcher.hpp:event_recv", "include/wtr/watcher.hpp:close_event_stream", "include/wtr/watcher.hpp:wait"]}
{"id": "C103", "title": "No history stops the watcher or makes it lose or repeat a change (inotify)", "statement": "Whatever other processes do to the tree and whenever they do it, the watcher does not stop and does not reach undefined behaviour, and every change in a directory watched at that moment is told exactly once and in order (directories keep the names under which they were first watched).", "quantifier": "all trees, all histories of operations (moves of files and directories between any two places included) before, during and after any system call, all batch boundaries, all thread schedules and callbacks", "why_tests_cant": "Unbounded histories and all interleavings.", "anchors": ["include/wtr/watcher.hpp:inotify::do_ev_recv", "include/wtr/watcher.hpp:inotify::do_mark", "include/wtr/watcher.hpp:inotify::make_sysres", "include/wtr/watcher.hpp:inotify::defer_dm_rm_wd"]}
{"id": "C104", "title": "A loss in the kernel's queue is announced", "statement": "However small the kernel's queue is: everything the kernel kept is told exactly once and in order, and once everything pending has been read, a loss has been announced to the callback with the overflow message.", "quantifier": "all trees, all histories of operations (moves of files and directories between any two places included) before, during and after any system call, all batch boundaries, all limits of the queue", "why_tests_cant": "Overflow depends on the relative speed of processes.", "anchors": ["include/wtr/watcher.hpp:inotify::do_ev_recv", "include/wtr/watcher.hpp:inotify::do_mark", "include/wtr/watcher.hpp:inotify::make_sysres", "include/wtr/watcher.hpp:inotify::defer_dm_rm_wd"]}
{"id": "C105", "title": "Events stay inside the watched directory", "statement": "Every path in an event lies below the watched directory, and what is reported is a change of an entry that was below the watched directory when it was made.", "quantifier": "all trees, all histories of operations (moves of files and directories between any two places included) before, during and after any system call, all batch boundaries", "why_tests_cant": "A directory can be moved at any moment of any history.", "anchors": ["include/wtr/watcher.hpp:inotify::do_ev_recv", "include/wtr/watcher.hpp:inotify::do_mark", "include/wtr/watcher.hpp:inotify::make_sysres", "include/wtr/watcher.hpp:inotify::defer_dm_rm_wd"]}
{"id": "C106", "title": "End to end (fanotify): the callback is told only of real changes", "statement": "At every moment, each file event the callback has received is about a change another process made in a directory watched at that moment, under a path this directory has or had.", "quantifier": "all trees, sets of watched directories, histories of operations before, during and after any system call, batch boundaries, thread schedules, callbacks and moments of close()", "why_tests_cant": "All interleavings of threads, kernel and other processes.", "anchors": ["include/wtr/watcher.hpp:watch", "include/wtr/watcher.hpp:fanotify::do_ev_recv", "include/wtr/watcher.hpp:fanotify::make_sysres", "include/wtr/watcher.hpp:fanotify::peek", "include/wtr/watcher.hpp:adapter::watch"]}
{"id": "C107", "title": "End to end (fanotify): each change once and in order", "statement": "No history reaches undefined behaviour, and whenever the watcher waits or has finished, the callback has been told the changes in watched directories, each exactly once and in order, up to those still pending in the kernel.", "quantifier": "all trees, sets of watched directories, histories of operations before, during and after any system call, batch boundaries, thread schedules, callbacks and moments of close()", "why_tests_cant": "All interleavings and unbounded histories.", "anchors": ["include/wtr/watcher.hpp:watch", "include/wtr/watcher.hpp:fanotify::do_ev_recv", "include/wtr/watcher.hpp:fanotify::make_sysres", "include/wtr/watcher.hpp:fanotify::peek", "include/wtr/watcher.hpp:adapter::watch"]}
{"id": "C108", "title": "End to end (fanotify): a watcher that keeps up tells exactly what is due", "statement": "If everything pending is read before the tree changes again, then whenever the watcher waits or has finished with nothing pending, the callback has received exactly the events the operations call for, in order and under the right paths.", "quantifier": "all trees, sets of watched directories, histories of operations before, during and after any system call, batch boundaries, thread schedules, callbacks and moments of close() (exchanges of two directories in one call: C164)", "why_tests_cant": "Unbounded histories and all thread schedules.", "anchors": ["include/wtr/watcher.hpp:watch", "include/wtr/watcher.hpp:fanotify::do_ev_recv", "include/wtr/watcher.hpp:fanotify::make_sysres", "include/wtr/watcher.hpp:fanotify::peek", "include/wtr/watcher.hpp:adapter::watch"]}
{"id": "C109", "title": "A C handle answers one call with true, and only a later call is undefined", "statement": "wtr_watcher_close answers true at most once, as the last call; once it has returned the callback has had its last event, with the stop signal working; and the only undefined use of a handle is a call after the one that answered true.", "quantifier": "all paths, kernels and outcomes of system calls, all schedules of the watcher's thread and of the thread that calls, all callbacks, any number and order of calls", "why_tests_cant": "All interleavings of two threads with the inside of each call.", "anchors": ["watcher-c/src/watcher-c.cpp:wtr_watcher_open", "watcher-c/src/watcher-c.cpp:wtr_watcher_close", "include/wtr/watcher.hpp:watch::close"]}
{"id": "C110", "title": "Closing a C handle frees it", "statement": "Once wtr_watcher_close has returned, the watch object has been deleted.", "quantifier": "all paths, kernels and outcomes of system calls, all schedules of the watcher's thread and of the thread that calls, all callbacks, any number and order of calls", "why_tests_cant": "All interleavings of two threads with the inside of each call.", "anchors": ["watcher-c/src/watcher-c.cpp:wtr_watcher_open", "watcher-c/src/watcher-c.cpp:wtr_watcher_close", "include/wtr/watcher.hpp:watch::close"]}
{"id": "C111", "title": "The Rust stream yields the watcher's events, in order", "statement": "At any time the events the stream has yielded, followed by those queued, are one for one and in order the events of the watcher (a name that is not UTF-8 arrives as the empty string); after close has returned and the queue is drained, all of them.", "quantifier": "all paths, kernels and outcomes of system calls, all schedules of the watcher's thread and of the thread that calls, all callbacks, any number and order of calls", "why_tests_cant": "All interleavings of two threads with the inside of each call.", "anchors": ["watcher-c/src/watcher-c.cpp:wtr_watcher_open", "watcher-c/src/watcher-c.cpp:wtr_watcher_close", "include/wtr/watcher.hpp:watch::close", "watcher-rs/src/lib.rs:Watch", "watcher-rs/src/lib.rs:fwd_ev"]}
{"id": "C112", "title": "The Rust stream ends when the watch has ended", "statement": "Once the watch has ended and all its events were yielded, polling the stream answers that it has ended.", "quantifier": "all paths, kernels and outcomes of system calls, all schedules of the watcher's thread and of the thread that calls, all callbacks, any number and order of calls", "why_tests_cant": "All interleavings of two threads with the inside of each call.", "anchors": ["watcher-c/src/watcher-c.cpp:wtr_watcher_open", "watcher-c/src/watcher-c.cpp:wtr_watcher_close", "include/wtr/watcher.hpp:watch::close", "watcher-rs/src/lib.rs:Watch", "watcher-rs/src/lib.rs:fwd_ev"]}
{"id": "C113", "title": "Safe Rust cannot reach undefined behaviour through Watch", "statement": "No sequence of close, poll and drop on a Watch reaches undefined behaviour.", "quantifier": "all paths, kernels and outcomes of system calls, all schedules of the watcher's thread and of the thread that calls, all callbacks, any number and order of calls", "why_tests_cant": "All interleavings of two threads with the inside of each call.", "anchors": ["watcher-c/src/watcher-c.cpp:wtr_watcher_open", "watcher-c/src/watcher-c.cpp:wtr_watcher_close", "include/wtr/watcher.hpp:watch::close", "watcher-rs/src/lib.rs:Watch", "watcher-rs/src/lib.rs:fwd_ev"]}
{"id": "C114", "title": "The Python callback gets the watcher's events in order and none after close", "statement": "The callback of a Python Watch is called with the events of the watcher, each once and in order; when close has returned (or the with block was left) it has been called for the last time, and nothing is missing.", "quantifier": "all paths, kernels and outcomes of system calls, all schedules of the watcher's thread and of the thread that calls, all callbacks, any number and order of calls", "why_tests_cant": "All interleavings of two threads with the inside of each call.", "anchors": ["watcher-c/src/watcher-c.cpp:wtr_watcher_open", "watcher-c/src/watcher-c.cpp:wtr_watcher_close", "include/wtr/watcher.hpp:watch::close", "watcher-py/watcher/watcher.py:Watch"]}
{"id": "C115", "title": "A Python Watch cannot be misused from one thread", "statement": "No sequence of close, with blocks and deletion of a Python Watch by one thread reaches undefined behaviour, and the handle is closed at most once.", "quantifier": "all paths, kernels and outcomes of system calls, all schedules of the watcher's thread and of the thread that calls, all callbacks, any number and order of calls", "why_tests_cant": "All interleavings of two threads with the inside of each call.", "anchors": ["watcher-c/src/watcher-c.cpp:wtr_watcher_open", "watcher-c/src/watcher-c.cpp:wtr_watcher_close", "include/wtr/watcher.hpp:watch::close", "watcher-py/watcher/watcher.py:Watch"]}
{"id": "C116", "title": "What a fanotify batch is reported as, in every case", "statement": "Reading a batch sends one event per record in order, one for an old name directly followed by a new one, and stops with a status at an overflow or at a record whose directory is gone; a new name directly followed by an old one is reported as a rename from the latter to the former, the latter then again, and as many bytes at the end are not read; a directory without a name, or a rename at the end of a full buffer, is undefined. Nothing else happens in any case.", "quantifier": "all batches of records the kernel can write, all contents of the buffer before, all answers of the system calls and changes by other processes between them", "why_tests_cant": "Unboundedly many byte sequences, answers and schedules of other processes.", "anchors": ["include/wtr/watcher.hpp:fanotify::do_ev_recv", "include/wtr/watcher.hpp:fanotify::parse_ev", "include/wtr/watcher.hpp:fanotify::peek", "include/wtr/watcher.hpp:fanotify::pathof"]}
{"id": "C117", "title": "Exactly when reading a fanotify batch is undefined", "statement": "If every directory can be looked up and no record is both an old and a new name, then reading a batch reaches undefined behaviour exactly when fewer than four bytes of the buffer stay free, the last two records are the halves of a rename, and no new name before them is taken for that of a following old name.", "quantifier": "all batches of records the kernel can write, all contents of the buffer before, all answers of the system calls and changes by other processes between them", "why_tests_cant": "Unboundedly many byte sequences.", "anchors": ["include/wtr/watcher.hpp:fanotify::do_ev_recv", "include/wtr/watcher.hpp:fanotify::parse_ev", "include/wtr/watcher.hpp:fanotify::peek", "include/wtr/watcher.hpp:fanotify::pathof"]}
{"id": "C118", "title": "What the C++ programs print and how they exit", "statement": "The program prints one line per event in order; when it ends it has printed the whole story from the live to the die message, the watcher's thread has ended, and its exit status is 0 exactly if no line reports an error, otherwise 1.", "quantifier": "all schedules of the two threads, all moments at which input or time end, all results of system calls, all events", "why_tests_cant": "Unboundedly many schedules and events; the interesting ones are races between closing and starting.", "anchors": ["src/wtr/watcher/main.cpp:main", "src/wtr/tiny_watcher/main.cpp:main", "include/wtr/watcher.hpp:watch::close"]}
{"id": "C119", "title": "The C++ programs exit with 0 when nothing goes wrong", "statement": "A program that watches a directory, with no failing system call, exits with status 0.", "quantifier": "all schedules of the two threads, all moments at which input or time end, all results of system calls, all events", "why_tests_cant": "The failing schedule is a race of a few microseconds.", "anchors": ["src/wtr/watcher/main.cpp:main", "src/wtr/tiny_watcher/main.cpp:main", "include/wtr/watcher.hpp:watch::close"]}
{"id": "C120", "title": "The Rust program ends when its watch has ended", "statement": "When the watch has ended (for instance because the path is no directory) and all events were printed, the program ends.", "quantifier": "all schedules of the two threads, all moments at which input or time end, all results of system calls, all events", "why_tests_cant": "That something never happens cannot be seen by a test.", "anchors": ["watcher-rs/src/main.rs:main", "watcher-rs/src/main.rs:show", "watcher-rs/src/lib.rs:Watch"]}
{"id": "C121", "title": "The Rust program prints the events in order and is safe", "statement": "What the program has printed is, one for one and in order, a beginning of the watch's events; with a working stop signal no schedule and no moment of Ctrl-C leads to undefined behaviour, and when main returns the watcher's thread has ended.", "quantifier": "all schedules of the two threads, all moments at which input or time end, all results of system calls, all events", "why_tests_cant": "Unboundedly many schedules; undefined behaviour need not show.", "anchors": ["watcher-rs/src/main.rs:main", "watcher-rs/src/main.rs:show", "watcher-rs/src/lib.rs:Watch"]}
{"id": "C122", "title": "Exactly which events have a text that is read back as the event", "statement": "The printed line (or streamed text) of an event, read as JSON, is that event if and only if no name has a quotation mark, a backslash or a control character and every printed time has a numeral of nineteen characters.", "quantifier": "all events: all names of any length, all chains of associated events, all 64-bit times", "why_tests_cant": "All byte strings would have to be tried, among them those that look like escapes.", "anchors": ["include/wtr/watcher.hpp:wtr_event_to_str_cls_as_json", "include/wtr/watcher.hpp:num_to_str", "src/wtr/watcher/main.cpp:json"]}
{"id": "C123", "title": "Exactly when Python's to_json is JSON for the event", "statement": "to_json of an event delivered to Python, read as JSON, is that event if and only if neither name has a quotation mark, a backslash or a control character.", "quantifier": "all events Python delivers: all names, associated names and 64-bit times", "why_tests_cant": "All byte strings would have to be tried.", "anchors": ["watcher-py/watcher/watcher.py:Event.to_json"]}
{"id": "C124", "title": "Windows: what a batch of notifications is reported as, exactly", "statement": "A batch of at least 16 bytes is reported as: every notification that is not half of a rename by its event, in order; each half of a rename together with the next half in the batch if that is of the other kind, as one event at the place of the second; the other halves not at all. Shorter batches (a single notification with a name of at most one character) are not reported.", "quantifier": "all batches of notifications of any number, with any names, and anything in the buffer behind them", "why_tests_cant": "The batches are unbounded, and the halves of renames can be arranged in any way.", "anchors": ["include/wtr/watcher.hpp:do_event_send (windows)"]}
{"id": "C125", "title": "Scanner: what is reported, exactly", "statement": "The events of a whole watch are exactly: nothing until a pass finds something; then, for each tree found, in the order of its listing, a creation for each regular file not known, a modification for each one whose known write time is another, nothing else; what is found by the first half of a pass is known without being reported.", "quantifier": "all series of trees found by the passes, of any length, all schedules of the watching thread and its owner", "why_tests_cant": "The series of trees is unbounded; only a proof by induction settles all of them.", "anchors": ["include/wtr/watcher.hpp:scan (warthog)", "include/wtr/watcher.hpp:tend_bucket", "include/wtr/watcher.hpp:watch (warthog)"]}
{"id": "C126", "title": "Windows: what the callback gets during a whole watch, exactly", "statement": "When a watch has ended well, the callback got the live message, then for each batch of notifications the system handed over, in order, exactly what C124 lists, a message if further changes could not be asked for, and the die message; after an overflow, a failed read or a refused request nothing more.", "quantifier": "all schedules of the watching thread and its owner, all histories of batches, quiet times, overflows and failures, all answers of the file system", "why_tests_cant": "Histories and schedules are unbounded.", "anchors": ["include/wtr/watcher.hpp:watch (windows)", "include/wtr/watcher.hpp:do_event_send (windows)", "include/wtr/watcher.hpp:do_event_recv (windows)"]}
{"id": "C127", "title": "Darwin: what is reported, exactly", "statement": "Each notification is reported, in order, as: one event `other` if no flag says what happened; otherwise a creation if the flags tell it and the path is not known to have been created, a destruction if the flags tell it and the path is known or was just created, a modification if contents, Finder information, owner or extended attributes changed, a rename if a rename notification for another path, now missing, is waiting; nothing else. A whole watch delivers the live message, this report of the batches that were handled, and the die message.", "quantifier": "all histories of notifications with any paths and flags, all schedules of the threads", "why_tests_cant": "Histories, flag words and schedules are unbounded or far too many.", "anchors": ["include/wtr/watcher.hpp:event_recv_one (darwin)", "include/wtr/watcher.hpp:event_recv (darwin)", "include/wtr/watcher.hpp:watch (darwin)"]}
{"id": "C128", "title": "Node.js: which events reach the callback, with the threads inside", "statement": "Whatever the schedule of the watcher's thread and JavaScript, the callback is called with the events of the library in order, each at most once, with the nearest double for its time, the same names and the documented words; an event is lost exactly if 1024 events are waiting when it comes. When `close()` has answered, the library has told the whole story (live message, changes, die message, and the answer is that of the die message), and what waits is still told afterwards.", "quantifier": "all schedules of the two threads, all events, any number of calls of close()", "why_tests_cant": "Schedules and histories are unbounded.", "anchors": ["watcher-nodejs/lib/watcher-napi.cpp:callback_bridge", "watcher-nodejs/lib/watcher-napi.cpp:callback_js_receiver", "watcher-nodejs/lib/watcher-napi.cpp:close", "watcher-nodejs/lib/watcher-napi.cpp:watch", "watcher-nodejs/lib/watcher.ts:watch", "watcher-c/src/watcher-c.cpp:wtr_watcher_close"]}
{"id": "C129", "title": "Node.js: `close()` returns, also inside the callback", "statement": "A call of `close()`, from inside the callback of the user or not, returns after a bounded number of steps once no file is changed any more; the threads are never stuck before it has returned.", "quantifier": "all reachable states with a running close(), all schedules", "why_tests_cant": "Absence of deadlock and termination for all schedules.", "anchors": ["watcher-nodejs/lib/watcher-napi.cpp:callback_bridge", "watcher-nodejs/lib/watcher-napi.cpp:callback_js_receiver", "watcher-nodejs/lib/watcher-napi.cpp:close", "watcher-nodejs/lib/watcher-napi.cpp:watch", "watcher-nodejs/lib/watcher.ts:watch", "watcher-c/src/watcher-c.cpp:wtr_watcher_close"]}
{"id": "C130", "title": "Node.js: copies of events", "statement": "At any time, the copies of events that are allocated are those of the waiting events, that of the event the callback is running with, and those of all events lost so far (a burst leaks any number of copies).", "quantifier": "all schedules and histories", "why_tests_cant": "Histories are unbounded, and a leak is not observable in a test's result.", "anchors": ["watcher-nodejs/lib/watcher-napi.cpp:callback_bridge", "watcher-nodejs/lib/watcher-napi.cpp:callback_js_receiver", "watcher-nodejs/lib/watcher-napi.cpp:close", "watcher-nodejs/lib/watcher-napi.cpp:watch", "watcher-nodejs/lib/watcher.ts:watch", "watcher-c/src/watcher-c.cpp:wtr_watcher_close"]}
{"id": "C131", "title": "Node.js: memory safety of `watch` and `close`", "statement": "No schedule of the watcher's thread and JavaScript uses freed memory, wherever and however often `close()` is called.", "quantifier": "all schedules, any number of calls of close() anywhere", "why_tests_cant": "Undefined behaviour need not show in a test.", "anchors": ["watcher-nodejs/lib/watcher-napi.cpp:callback_bridge", "watcher-nodejs/lib/watcher-napi.cpp:callback_js_receiver", "watcher-nodejs/lib/watcher-napi.cpp:close", "watcher-nodejs/lib/watcher-napi.cpp:watch", "watcher-nodejs/lib/watcher.ts:watch", "watcher-c/src/watcher-c.cpp:wtr_watcher_close"]}
{"id": "C132", "title": "Linux: a watch that gets no watch from the kernel says so and ends", "statement": "When the kernel refuses every inotify watch while a watch is opened, the callback gets one not_watched warning for each directory found, in order, then one error message and the die message of failure, and nothing else; the watch never waits for events and its result is false.", "quantifier": "all kernels that refuse, all directories, all schedules of owner, watcher and callbacks", "why_tests_cant": "The answers of the kernel, the directories and the schedules are unbounded.", "anchors": ["include/wtr/watcher.hpp:inotify::make_sysres", "include/wtr/watcher.hpp:inotify::do_mark", "include/wtr/watcher.hpp:platform_watch (linux)"]}
{"id": "C133", "title": "Portable scanner: what is reported, whatever the file system answers", "statement": "Nothing is told of what is found when nothing is remembered (it is remembered with its write time, or with that of the watched directory if its own cannot be read); afterwards a regular file is told as created when it is met and not remembered, as modified when its time differs from the remembered one, as destroyed (and forgotten) when its time cannot be read, and nothing else is told; listing ends the program at the first directory that may not be entered; the watch returns false when the path is gone or neither a directory nor a regular file.", "quantifier": "all histories of passes and all answers of the file system", "why_tests_cant": "Histories and answers are unbounded.", "anchors": ["include/wtr/watcher.hpp:scan (warthog)", "include/wtr/watcher.hpp:tend_bucket (warthog)", "include/wtr/watcher.hpp:watch (warthog)"]}
{"id": "C134", "title": "Closing through C, Rust and Python returns", "statement": "When files are not changed any more, wtr_watcher_close, close and drop of a Rust Watch, and close, __exit__ and __del__ of a Python Watch return after a bounded number of steps of the threads inside, whether or not the stop signal could be created; unless the callback called close on its own watch: then neither that call nor any other running one ever returns, and the callback is not called again.", "quantifier": "all reachable states of a handle, a Rust or a Python object, all schedules of the threads, all results of system calls", "why_tests_cant": "Liveness over all schedules; a test cannot show that a call never returns.", "anchors": ["watcher-c/src/watcher-c.cpp:wtr_watcher_close", "watcher-rs/src/lib.rs:Watch::close", "watcher-rs/src/lib.rs:Drop", "watcher-py/watcher/watcher.py:Watch.close"]}
{"id": "C135", "title": "The wide text of an event is its narrow text", "statement": "Every event can be written to a wide stream, and the wide text consists of the characters of the narrow text, one by one.", "quantifier": "all events: all names (any bytes), types, times, with and without associated event", "why_tests_cant": "All byte strings as names, among them those that are not UTF-8.", "anchors": ["include/wtr/watcher.hpp:to<std::wstring>", "include/wtr/watcher.hpp:operator<<"]}
{"id": "C136", "title": "Effect times are in the order of the callback (Linux)", "statement": "If the system's clock does not go back, the effect times of the events the callback gets never decrease; an associated event is not later than its event; and no time lies outside the life of the watch.", "quantifier": "all histories of messages, marks and reads of the watching thread on either back end, all contents of the buffers, all answers of system calls, all steady clocks, both orders of evaluation", "why_tests_cant": "Times depend on the moments of construction in every possible history.", "anchors": ["include/wtr/watcher.hpp:event", "include/wtr/watcher.hpp:fanotify::do_ev_recv", "include/wtr/watcher.hpp:inotify::do_ev_recv", "include/wtr/watcher.hpp:do_mark"]}
{"id": "C137", "title": "`close()` may be called from several threads", "statement": "Any number of threads may call `close()` on one watch at any time; nothing undefined happens, at most one call answers true, and only if the watch ended well.", "quantifier": "all numbers of threads, all interleavings of their steps and of the watching thread's, all three platforms, all answers of the system", "why_tests_cant": "Data races depend on schedules that a test run does not show.", "anchors": ["include/wtr/watcher.hpp:watch::close", "include/wtr/watcher.hpp:semabin::release"]}
{"id": "C138", "title": "Python `Watch` objects may be made in several threads", "statement": "`Watch` objects may be made and closed in any threads, the first ones included: each closes just the watch it opened, the C library is never given an address that is not one of its watches, and a constructor that raises has opened nothing.", "quantifier": "all numbers of objects, all interleavings of their constructors and close calls between bytecodes, all addresses the C library returns, missing libraries and paths that cannot be encoded", "why_tests_cant": "The window between setting the library and setting its types is met only by rare schedules.", "anchors": ["watcher-py/watcher/watcher.py:_lazy_static_solib_handle", "watcher-py/watcher/watcher.py:Watch.__init__", "watcher-py/watcher/watcher.py:Watch.close"]}
{"id": "C139", "title": "What the Python program prints", "statement": "The program in watcher.py prints exactly one line per event of the watch, in order, and each line is the JSON document of the event; when it ends, it has printed the whole story from the first to the last message.", "quantifier": "all events with all names and times, all interleavings of the watcher's thread with the main thread, at any time", "why_tests_cant": "Names, schedules and moments of the end are unbounded; a test sees a few harmless names.", "anchors": ["watcher-py/watcher/watcher.py:__main__", "watcher-py/watcher/watcher.py:Event.to_json", "watcher-py/watcher/watcher.py:Watch.__exit__"]}
{"id": "C140", "title": "How the Python program ends", "statement": "The program in watcher.py watches until its input ends (a line, the end of the input, Ctrl-C), then stops watching, prints the last message and ends, with status 0 exactly if the watch reported no error; it reaches no undefined behaviour, and nothing is printed after its end.", "quantifier": "all ends of the input at any moment, all interleavings with the watcher's thread, paths that can or cannot be watched, working or missing stop signals", "why_tests_cant": "The end can meet the watcher's thread at any point; hangs and use after free depend on the schedule.", "anchors": ["watcher-py/watcher/watcher.py:__main__", "watcher-py/watcher/watcher.py:Watch.__exit__", "watcher-py/watcher/watcher.py:Watch.__del__"]}
{"id": "C141", "title": "A Python program that has a watch ends", "statement": "A Python program that holds a `Watch` in a global name ends when its last line has been executed, whether or not it closed the watch (\"you don't need to do that\").", "quantifier": "all moments at which the program may end, all states of the watcher's thread and its callback at that moment, all interleavings after it", "why_tests_cant": "The end of the interpreter meets the watcher's thread in any state; a hang shows only under some schedules and versions.", "anchors": ["watcher-py/watcher/watcher.py:Watch.__del__", "watcher-py/watcher/watcher.py:Watch.close", "watcher-py/watcher/watcher.py:Watch.__init__"]}
{"id": "C142", "title": "A Node.js program that has closed its watch ends", "statement": "A Node.js program with a watch ends by itself if and only if `close()` has returned; before it ends, the callback is called for every event that waits; the event loop takes a bounded number of steps to the end and is never stuck.", "quantifier": "all schedules of the watcher's thread, the event loop and the program, all numbers of waiting events, `close()` inside the callback or not", "why_tests_cant": "Whether the process hangs at its end depends on how many events wait and on where close() was called.", "anchors": ["watcher-nodejs/lib/watcher-napi.cpp:close", "watcher-nodejs/lib/watcher-napi.cpp:watch", "watcher-nodejs/lib/watcher-napi.cpp:callback_js_receiver"]}
{"id": "C143", "title": "Ending a Node.js program or Worker with an open watch is safe", "statement": "When the environment of a watch ends (`process.exit()`, `worker.terminate()`, an exception), no memory is used after it was freed, whatever is changed on disk afterwards.", "quantifier": "all moments of the end, all events afterwards, all schedules", "why_tests_cant": "A use after free needs a Worker that ended and events after that; it shows rarely.", "anchors": ["watcher-nodejs/lib/watcher-napi.cpp:callback_bridge", "watcher-nodejs/lib/watcher-napi.cpp:watch"]}
{"id": "C144", "title": "Trees of any depth can be watched", "statement": "Opening a watch on a tree whose paths fit into PATH_MAX watches every directory that can be listed, in a process with the usual limits (8 MiB of stack, 1024 descriptors), and never crashes.", "quantifier": "all trees, all depths, all numbers of free descriptors and sizes of the stack", "why_tests_cant": "A test would need trees of more than a thousand levels, for every limit.", "anchors": ["include/wtr/watcher.hpp:walkdir_do"]}
{"id": "C145", "title": "Darwin: every creation is reported", "statement": "When a file is created at a path where none is, the callback is told of a creation of that path.", "quantifier": "all histories of creating, removing and renaming files in the tree", "why_tests_cant": "The outcome depends on everything that was done to the path before.", "anchors": ["include/wtr/watcher.hpp:event_recv_one"]}
{"id": "C146", "title": "Linux: a watch that fanotify refuses falls back or ends", "statement": "When fanotify is available but the kernel refuses to mark any directory, the watch uses inotify instead or ends with an error message; it does not go on waiting for events that cannot come.", "quantifier": "all trees, all schedules of the threads, all answers of the other system calls", "why_tests_cant": "The refusals depend on the file system and on limits of the kernel; that nothing ever comes is a statement about all continuations.", "anchors": ["include/wtr/watcher.hpp:fanotify::make_sysres", "include/wtr/watcher.hpp:fanotify::do_mark", "include/wtr/watcher.hpp:detail::wtr::watcher::adapter::watch"]}
{"id": "C147", "title": "Linux: a callback that throws ends its watch, not the program", "statement": "An exception thrown by the callback ends the watch: the die message of failure is delivered, and close() and the destructor return; the program is not terminated.", "quantifier": "all points at which a callback can throw, all schedules of the threads before and after", "why_tests_cant": "Which thread meets the exception, and in which call, depends on the schedule; that no close() returns is a statement about all continuations.", "anchors": ["include/wtr/watcher.hpp:wtr::watcher::watch::watch", "include/wtr/watcher.hpp:wtr::watcher::watch::close", "include/wtr/watcher.hpp:wtr::watcher::watch::~watch"]}
{"id": "C148", "title": "Linux: signals do not end a watch", "statement": "A program that handles signals, or that is stopped and continued, does not lose its watches: a watch that nobody closes and for which no system call fails goes on after an interrupted wait.", "quantifier": "all schedules, all numbers and moments of interruptions", "why_tests_cant": "Signals arrive at arbitrary moments of a wait; tests do not send them.", "anchors": ["include/wtr/watcher.hpp:detail::wtr::watcher::adapter::watch"]}
{"id": "C149", "title": "Linux: changes are reported under the path that was given", "statement": "Every path in every event about a change is the path that was given to watch, or begins with it and a separator; a program that watches a directory through a symbolic link sees the names it asked for.", "quantifier": "all file systems (symbolic links included), both back ends, all schedules, all kernel answers", "why_tests_cant": "The names depend on the symbolic links of the system and on which of several calls resolved a directory; tests run in a canonical temporary directory.", "anchors": ["/repo/include/wtr/watcher.hpp: detail::wtr::watcher::adapter::do_mark, make_ke_wstate, walkdir_do, parse_ev"]}
{"id": "C150", "title": "Linux: a watch whose directory has gone says so", "statement": "When the watched directory is removed (and all that was pending has been read), the callback is told: an event, a message, or the end of the watch; a program does not wait for ever on a directory that no longer exists.", "quantifier": "all trees, all histories of operations and reads before and after the removal, both back ends", "why_tests_cant": "What the watcher hears depends on everything that happened before, and that it stays silent for ever after cannot be tested.", "anchors": ["/repo/include/wtr/watcher.hpp: detail::wtr::watcher::adapter::inotify::do_ev_recv, inotify::ke_in_ev::recv_mask, detail::wtr::watcher::adapter::fanotify::ke_fa_ev::recv_flags"]}
{"id": "C151", "title": "Changes are reported with absolute paths", "statement": "Every change is reported with an absolute path_name (and an absolute path_name of the associated event), as the readme promises.", "quantifier": "all runs, all kernel batches, all answers of the system, both Linux back ends; on Windows all record batches", "why_tests_cant": "The path comes from what the system answers at each event; a test sees a few of these answers.", "anchors": ["/repo/include/wtr/watcher.hpp: detail::wtr::watcher::adapter::fanotify::pathof, inotify::do_ev_recv, detail::wtr::watcher::adapter::do_event_send", "/repo/readme.md"]}
{"id": "C152", "title": "Linux: data of the callback needs no locks", "statement": "A program may let its callback use data without locks and read them when close() or the destructor has returned: every call of the callback happens before the next one (in the sense of the C++ memory model), and all of them happen before the return of close() and of the destructor.", "quantifier": "all schedules of the owner and the watching thread, all events, all answers of the system", "why_tests_cant": "Data races depend on the schedule and on the memory model; a test may run for years without showing one.", "anchors": ["/repo/include/wtr/watcher.hpp: wtr::watcher::watch::close, wtr::watcher::watch::~watch, detail::wtr::watcher::semabin::release"]}
{"id": "C153", "title": "Windows and scanner: data of the callback needs no locks", "statement": "A program may let its callback use data without locks and read them when close() or the destructor has returned: every call of the callback happens before the next one (in the sense of the C++ memory model), and all of them happen before the return of close() and of the destructor.", "quantifier": "all schedules, all back ends that ask the stop flag between their turns", "why_tests_cant": "Data races depend on the schedule and on the memory model; a test may run for years without showing one.", "anchors": ["/repo/include/wtr/watcher.hpp: wtr::watcher::watch::close, wtr::watcher::watch::~watch, detail::wtr::watcher::adapter::watch"]}
{"id": "C154", "title": "Darwin: data of the callback needs no locks", "statement": "A program may let its callback use data without locks and read them when close() or the destructor has returned: every call of the callback happens before the next one (in the sense of the C++ memory model), and all of them happen before the return of close() and of the destructor.", "quantifier": "all schedules of the owner, the watching thread and any number of threads of the system, all notifications", "why_tests_cant": "Data races depend on the schedule and on the memory model; a test may run for years without showing one.", "anchors": ["/repo/include/wtr/watcher.hpp: detail::wtr::watcher::adapter::event_recv, detail::wtr::watcher::adapter::close_event_stream, wtr::watcher::watch::close"]}
{"id": "C155", "title": "The path type tells what kind of entry was changed", "statement": "The path type of an event is dir for directories, file for regular files, sym_link for symbolic links and other for everything else.", "quantifier": "all batches and histories of records and notifications, about entries of all kinds", "why_tests_cant": "Unboundedly many batches; the type also depends on what happens between the change and its report.", "anchors": ["include/wtr/watcher.hpp:inotify::parse_ev", "include/wtr/watcher.hpp:fanotify::parse_ev", "include/wtr/watcher.hpp:do_event_send (windows)"]}
{"id": "C156", "title": "Which events a program has to be prepared for", "statement": "Only renames have an associated event, which is a rename of the same type; what is of type watcher is a message of the watcher itself, has the effect other and no associated event; everything else is a creation, destruction, modification or rename (other only if the system said nothing else). The portable scanner tells of regular files and of no renames; ownership changes are never told as such.", "quantifier": "all batches (Linux, Windows), all histories of answers (scanner) and of notifications (Darwin)", "why_tests_cant": "All sequences of records and answers.", "anchors": ["include/wtr/watcher.hpp:inotify::parse_ev", "include/wtr/watcher.hpp:fanotify::parse_ev", "include/wtr/watcher.hpp:do_event_send (windows)", "include/wtr/watcher.hpp:scan (warthog)", "include/wtr/watcher.hpp:event_recv_one"]}
{"id": "C157", "title": "Windows and scanner: a callback that throws ends its watch, not the program", "statement": "If the callback throws, its watch ends with the die message, close() answers false, and the program goes on.", "quantifier": "all schedules of the owner and the watching thread, all moments of the throw, all answers of the system", "why_tests_cant": "Depends on where in the schedule the throw happens.", "anchors": ["include/wtr/watcher.hpp:watch (windows)", "include/wtr/watcher.hpp:watch (warthog)", "include/wtr/watcher.hpp:wtr::watcher::watch::close"]}
{"id": "C158", "title": "Darwin: a callback that throws ends its watch, not the program", "statement": "If the callback throws, its watch ends with the die message, close() answers false, and the program goes on.", "quantifier": "all schedules of the owner, the watching thread and the system's threads, all moments of the throw", "why_tests_cant": "Depends on where in the schedule the throw happens and on which thread.", "anchors": ["include/wtr/watcher.hpp:event_recv", "include/wtr/watcher.hpp:event_recv_one", "include/wtr/watcher.hpp:wtr::watcher::watch::close"]}
{"id": "C159", "title": "Darwin: a watch gives back every object of the system", "statement": "When a watch has been destroyed, every object it asked the system for has been given back, and nothing was retained or released that does not exist.", "quantifier": "all numbers of watches and all answers of the system to the functions that make objects", "why_tests_cant": "Leaks and failures of the system are not visible to unit tests.", "anchors": ["include/wtr/watcher.hpp:open_event_stream", "include/wtr/watcher.hpp:close_event_stream", "include/wtr/watcher.hpp:semabin"]}
{"id": "C160", "title": "Linux: watches of one program do not touch each other's descriptors", "statement": "In a program with any number of watches and other code that is careful with descriptors, no watch ever closes a descriptor that it has not opened or has already closed, and a destroyed watch has left no descriptor open.", "quantifier": "all numbers of watch objects, all interleavings of their threads with each other and with other code, all answers of the system calls, every moment", "why_tests_cant": "A double close hits another thread's descriptor only in rare schedules.", "anchors": ["include/wtr/watcher.hpp:semabin", "include/wtr/watcher.hpp:make_sysres", "include/wtr/watcher.hpp:make_ep", "include/wtr/watcher.hpp:platform_watch"]}
{"id": "C161", "title": "Linux: a watch whose file system is unmounted says so", "statement": "When the file system that a watched directory is on is unmounted, the callback is told (or the watch ends with a message): a watch does not fall silent without a word while it still counts as running.", "quantifier": "all trees, all histories before, all mount points at or above the watched directory, everything that happens afterwards", "why_tests_cant": "Silence after an unmounting looks like a quiet directory in any test of finite length, and unmounting needs privileges.", "anchors": ["include/wtr/watcher.hpp:do_ev_recv", "include/wtr/watcher.hpp:ke_in_ev", "include/wtr/watcher.hpp:ke_fa_ev"]}
{"id": "C162", "title": "Linux: no change waits for ever (inotify)", "statement": "However busy the watched tree is, every change that the kernel had room for is told after a bounded number of reads: as many as there were records pending at the time; and a read can always return records.", "quantifier": "all trees, all histories, all schedules of reads and operations afterwards, all queue limits", "why_tests_cant": "Under sustained load a test can only show that a particular change arrived, not that none is put off for ever.", "anchors": ["include/wtr/watcher.hpp:do_ev_recv", "include/wtr/watcher.hpp:peek", "include/wtr/watcher.hpp:parse_ev"]}
{"id": "C163", "title": "Linux: no change waits for ever (fanotify)", "statement": "However busy the watched tree is and however the kernel merges records, every change in a watched directory is mentioned by an event after a bounded number of reads: as many as there were records pending at the time.", "quantifier": "all trees, all histories, all schedules of reads, merges and operations afterwards", "why_tests_cant": "Under sustained load a test can only show that a particular change arrived, not that none is put off for ever.", "anchors": ["include/wtr/watcher.hpp:do_ev_recv", "include/wtr/watcher.hpp:parse_ev", "include/wtr/watcher.hpp:pathof"]}
{"id": "C164", "title": "Linux: two directories that change places are reported (fanotify)", "statement": "When two directories change places in one call (renameat2 with RENAME_EXCHANGE), a watcher that keeps up reports both moves, and everything afterwards under the new paths.", "quantifier": "all trees, all sets of watched directories, all sequences of operations by any processes, whether the kernel merges records or not, all thread schedules", "why_tests_cant": "Whether the kernel merges the records depends on timing, and the directories may be exchanged at any point of any history.", "anchors": ["include/wtr/watcher.hpp:parse_ev", "include/wtr/watcher.hpp:do_ev_recv"]}
{"id": "C165", "title": "Linux: no change waits for ever, end to end (inotify)", "statement": "However busy the watched tree is, and whatever the program and its callback do: after the watch has been woken up to read as often as there were records pending, and waits again or has finished, the callback has been told every change made before, in order and once. Whenever the watch waits, such a wake-up is possible.", "quantifier": "all trees, all histories of owner, worker, callback and other processes, all queue limits", "why_tests_cant": "Under sustained load a test can only show that a particular change reached the callback, not that none is put off for ever.", "anchors": ["include/wtr/watcher.hpp:do_ev_recv", "include/wtr/watcher.hpp:peek", "include/wtr/watcher.hpp:watch"]}
{"id": "C166", "title": "Linux: no change waits for ever, end to end (fanotify)", "statement": "However busy the watched tree is, and whatever the program and its callback do: after the watch has been woken up to read as often as there were records pending, and waits again or has finished, the callback has been told an event about every change made before. Whenever the watch waits, such a wake-up is possible.", "quantifier": "all trees, all histories of owner, worker, callback and other processes, whether the kernel merges records or not", "why_tests_cant": "Under sustained load a test can only show that a particular change reached the callback, not that none is put off for ever.", "anchors": ["include/wtr/watcher.hpp:do_ev_recv", "include/wtr/watcher.hpp:parse_ev", "include/wtr/watcher.hpp:watch"]}
{"id": "C167", "title": "Making a watch does not end the program", "statement": "Making a watch never ends the program, however many threads it already has and whatever the system refuses.", "quantifier": "all sequences of makings and destructions of watches and threads, all limits", "why_tests_cant": "A test would have to exhaust the threads or the memory of the machine at the right moment, and would die of the failure it looks for.", "anchors": ["include/wtr/watcher.hpp:watch", "watcher-c/src/watcher-c.cpp:wtr_watcher_open"]}
