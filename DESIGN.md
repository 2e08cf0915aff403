# Design

Formal model of e-dant/watcher (C++ header, C API, bindings, CLI) in Lean 4, and machine-checked
theorems about it. Nothing here was run against the code; the tie to the code is that every
definition cites the lines of /repo it transcribes.

## Layout

* `lean/Verif/Base.lean` - byte strings and small helpers.
* `lean/Verif/Model/*.lean` - the model, function by function, with citations. Undefined behaviour
  is an explicit outcome (`Outcome.ub`), never assumed away.
* `lean/Verif/Spec/*.lean` - specifications that do not use the model's helpers (a JSON parser, a
  record-level reading of kernel batches, user-level meaning of file operations, ...).
* `lean/Verif/Lemmas/*.lean` - helper lemmas.
* `lean/Verif/Props/*.lean` - one file per area with the property theorems (names start with the
  property id: `C25_...`), each followed by an `example` that its hypotheses can be met.
* `seeded/LOG.jsonl` - wrong programs the theorems were tested against.

## Plan per property

* **C01 Event equality is a congruence on every field** - `Event` (recursive) and `operator==` incl. std::filesystem path comparison. Equivalence and a field-by-field characterisation, by induction on the nesting.
* **C02 The text of an effect time is its decimal value** - `num_to_str` with its 19 byte buffer. False of the code: refuted with a witness; exact characterisation proved for all values (`_partial`).
* **C03 The stream/JSON text of an event decodes back to the event** - the serialising macro, against an independent strict JSON parser in `Spec/Json.lean`. False for names with quotes (refuted); proved for every name without bytes that JSON must escape (`_partial`).
* **C04 Every line the command line program prints is one JSON document for the whole event chain** - the CLI `json`, same parser, induction on the chain (`_partial`, same restriction).
* **C05 Names of effect types and path types are unambiguous and the same in narrow and wide text** - the two switch macros over all integers; finite case split lifted to all integers.
* **C06 A rename event built from two events carries both of them completely** - the two-event constructor and the copy constructor.
* **C07 The stop signal is never reported before it was given** - `semabin` on the three platforms as a state machine; induction on histories.
* **C08 Once the stop signal was released it stays released** - same. Refuted on Linux (the second query answers pending), proved elsewhere (`_partial`).
* **C09 A release is never lost** - micro-step interleaving model (`Lifecycle`), invariant.
* **C10 Every watch begins with one live message and ends with one die message** - `Lifecycle`: transition system of owner thread and worker thread; trace invariant.
* **C11 The result of close agrees with the die message** - `Lifecycle` invariant.
* **C12 A watcher can be closed successfully at most once** - `Lifecycle` invariant.
* **C13 Silence after close** - `Lifecycle` invariant.
* **C14 Closing before the live message is an error** - refuted with a concrete schedule; `_partial` for closes whose release completes before the start-up check.
* **C15 Closing terminates** - variant function on `Lifecycle`; refuted for endless file-system activity (`_partial`).
* **C16 Close waits for the watching thread, so it can never return when called from inside the callback** - `Lifecycle` with re-entrant close; invariant 'never done'.
* **C17 The stop signal outlives its users** - `Lifecycle` with the destructor's member order; invariant.
* **C18 A path that cannot be watched produces exactly two error messages** - `Lifecycle` invariant.
* **C19 Message codes are classified consistently** - `result`, `to_str` over all 16 bit values.
* **C20 A fatal error is always announced and makes close fail** - `adapter::watch` loop over scripted wake-ups. Masked error refuted; `_partial` when no stop is signalled in the same wake-up.
* **C21 Warnings never stop the watcher** - same loop.
* **C22 The back end falls back from fanotify to inotify exactly when fanotify is unavailable** - same, `try_fanotify`.
* **C23 Watching leaks no file descriptors** - descriptor accounting in the same model. Refuted when the kernel hands out descriptor 0; `_partial` otherwise.
* **C24 Opening a watch marks every directory of the tree once and nothing else** - `walkdir_do` on finite trees.
* **C25 Reading an inotify batch is memory safe and never trips the internal limits** - byte-level model of the inotify buffer with an explicit `ub` outcome; refinement to a record-level loop.
* **C26 An inotify batch is reported completely, in order and without inventions** - record-level spec; refinement theorem from bytes.
* **C27 Kernel masks are translated faithfully and access-only events are not reported** - all 2^32 masks via bit lemmas.
* **C28 A rename is reported as one event with the right old and new path** - same-directory pairs proved, cross-directory refuted (`_partial`).
* **C29 Events of unknown watches become one warning each and do not disturb the rest** - corollary of the record-level theorem.
* **C30 A kernel queue overflow is announced** - refuted on both back ends, `_partial`: some warning / stays running.
* **C31 Every observed change is reported exactly once, in order, with its path (inotify)** - kernel model (`Kernel`: tree, watches, queue) composed with the inotify model; invariant over all schedules.
* **C32 Keeping up means missing nothing (inotify)** - same, synchronous schedule; all directories stay watched.
* **C33 Entries made in a new directory are reported even before the directory was noticed** - refuted with a schedule; `_partial` is C31/C32.
* **C34 Paths stay right after a directory is renamed** - refuted; `_partial` without directory renames.
* **C35 The watch table follows the kernel** - same kernel model; invariant relating the two tables.
* **C36 Reading a fanotify batch is memory safe and never trips the internal limits** - byte-level model of the fanotify buffer with `ub`.
* **C37 A fanotify batch is reported completely and in order** - refinement to record level; refuted for moved-to before moved-from; `_partial`.
* **C38 fanotify only pairs halves of the same rename** - refuted; `_partial`: paired records are adjacent from/to of kernel order.
* **C39 'Nothing to read' is not a fatal error, and a failed read is** - read result handling of both back ends; fanotify refuted; inotify proved (`_partial`).
* **C40 One stale fanotify record does not lose its neighbours** - refuted; `_partial`.
* **C41 fanotify paths are the directory's path, one separator, and the entry's name** - `pathof` at byte level; '//' in the root directory refuted; `_partial`.
* **C42 fanotify masks are translated faithfully** - all masks; merged masks refuted; `_partial`.
* **C43 Newly created directories are watched before their creation is announced (fanotify)** - invariant of the fanotify loop.
* **C44 Darwin: no duplicate creations, no unexplained destructions** - `event_recv_one` state machine; invariant over histories.
* **C45 Darwin: deleting a path is reported** - refuted; `_partial`.
* **C46 Darwin: rename events connect the two consecutive rename notifications** - state machine, history characterisation.
* **C47 Darwin: flags are translated faithfully** - all 2^32 flag words.
* **C48 Darwin: outstanding events are delivered before close returns** - lock model of event_recv/close_event_stream; refuted.
* **C49 Windows: a batch is reported completely and in order with renames paired** - `do_event_send`; refuted for split renames; `_partial`.
* **C50 Windows: processing a batch terminates** - refuted for odd name lengths (divergence proved for every number of steps); `_partial`.
* **C51 Windows: any path can be opened safely** - refuted beyond the buffer; `_partial` up to it.
* **C52 Portable scanner: nothing is reported when nothing changes** - `scan`/`tend_bucket` over snapshots.
* **C53 Portable scanner: new and changed files are reported exactly once** - same; refuted for an empty root; `_partial`.
* **C54 Portable scanner: deleted files are reported** - refuted (never pruned); `_partial`.
* **C55 The C view of an event loses nothing it promises** - C struct conversion and the three bindings' decoders.
* **C56 Closing through the C API is safe and final** - heap model of handles with an explicit `ub` outcome.
* **C57 The Rust watch can be closed and then dropped** - refuted: close then drop is a use after free; `_partial`.
* **C58 The Python and TypeScript watches can be closed any number of times** - wrapper state machines over the same heap.
* **C59 Node.js receives every event** - bounded queue; refuted when full; `_partial`.
* **C60 Node.js event times are exact** - rounding to 53 bits; refuted; `_partial`.
* **C61 The command line program's exit status and duration follow its arguments** - `try_parse` and `main` with `strtod` as a parameter.
* **C62 Directories moved into the tree are watched** - the kernel model of C31; refuted; `_partial`: the arrival itself is reported.
* **C63 fanotify reports every effect of a merged record** - refuted; `_partial` for masks with one effect.
* **C64 Darwin: a watch that cannot be opened says so** - phases of `watch`; refuted, `_partial` for the answer.
* **C65 Darwin: rename events are the moves inside the tree** - corollary of C46 for histories of moves; refuted for moves out of the tree.
* **C66 Windows: a watch that can no longer report changes says so** - the loop of `watch` with the system's answers as inputs; refuted for overflows and for queued reads that fail, `_partial` otherwise.
* **C67 Windows: closing gives back every handle** - constructor and destructor, all outcomes; refuted for the directory's handle.
* **C68 Windows: the system does not use the watcher's memory after the watch has ended** - same loop; refuted in every history without errors.
* **C69 Portable scanner: a directory that may not be read does not end the program** - iteration with options; refuted, `_partial` when everything can be read.
* **C70 Portable scanner: the watched path itself may vanish or be replaced** - one pass from any state; refuted, `_partial` for the defined outcomes.
* **C71 A Python watch may be closed from several threads** - thread counters over the Python `close`; refuted by an interleaving of two threads; `_partial`: callers hold a lock.
* **C72 Each binding watches the path it is given** - the strings handed to `wtr_watcher_open`; refuted for zero bytes (C, Python, Node) and long paths (Node); exact conditions proved.
* **C73 Windows: every event reaches the C callback** - buffer lengths of `utf16_to_utf8`; refuted at 4095 bytes (write behind the buffer) and above (event dropped); exact conditions proved.
* **C74 Python's to_json prints JSON** - `to_json` against the JSON reader of `Spec/Json.lean`; refuted for quotation marks; `_partial` for plain names.
* **C75 Bindings keep the callback's context as long as the watcher can call it** - `Held` state machine (object, context); refuted when the stop signal cannot be written; `_partial` otherwise.
* **C76 Node.js: no callback after close** - the queue model of C59; refuted; `_partial`: only events waiting at that time, at most 1024.
* **C77 The command line program's default path** - same model as C61; the usage text's promise is refuted for every missing path, the default without arguments is proved.
* **C78 The example program's lines tell what happened** - `show` and a separate line reader; induction over the sequence of events; refuted for names with an arrow.
* **C79 Nothing is lost between the back end and the callback** - `Model/Adapter.lean` composes the lifecycle model with the inotify and fanotify models; refinement (every step of the whole is a step of the lifecycle model) and an accounting invariant over the worker's position.
* **C80 End to end** - the composed model on the kernel of `Model/Kernel.lean`; invariant of C31 carried through the schedule of the threads; refuted for moves between watched directories, proved without.
* **C81 No undefined memory access in the whole life** - the composed model with outcome `ub`; the table of inotify and the buffer of fanotify stay in order; refuted for full fanotify buffers, proved for batches that leave 4 bytes free or do not end in a rename.
* **C82 Fanotify invents nothing** - relation `Drawn` between the records of a batch and the file events; induction over the records, for all answers of the system, with the buffer's contents after the batch arbitrary.
* **C83 Keeping up means missing nothing (fanotify)** - `Model/FKernel.lean`, a kernel with directories known by handles, composed with the byte-level fanotify model; against a tree-level specification that knows no handles and records; induction over the operations.
* **C84 fanotify events are about real changes at real paths** - same kernel, with operations of others before every single system call; invariant relating queue, log and paths. Refuted for directories removed during the look-up; `_partial`: none removed during a read.
* **C85 Every change read is mentioned (fanotify)** - same; refuted for `rm -r` and crossed moves; `_partial`. Without the hypothesis that directories are still there, `C85_missed_partial` says which changes are missed: those whose record was, at some read, about a directory that had gone, behind such a record, or the old name of a rename into such a directory (`Spec/FLost.lean`). `C85_always_partial` allows removals during reads too (`Lemmas/FLost3.lean`): a handle that has gone never comes back, so the record at which a read stopped is about a directory gone at its end. `C85_unmoved_partial`: if nothing is moved (directories may be removed at any time) no condition on the reads is needed. C85_lone_partial: if every read gets at most one record (all else allowed), each change is pending, mentioned, or its directory has gone; C85_missed_needs_removal: without a removed directory nothing is missed.
* **C86 Every change is told exactly once and in order (fanotify)** - same, relation `Told` between log and events; refuted for merged records; `_partial`. With directories removed while records about them are pending: a sublist of the changes read is told in order, the others are `Missed` (`C86_missed_partial`; end to end `C107_never_twice_partial`); with removals during reads as well, `C86_always_partial` and `C107_always_partial` (`Lemmas/FLost4.lean`). `C86_unmoved_partial`: if nothing is moved (directories may be removed at any time) no condition on the reads is needed. C86_lone_partial: if every read gets at most one record, all changes read in directories still there are told.
* **C87 Windows and scanner: live first, die last** - `Model/Polled.lean`: owner and worker as interleaved threads, over an abstract back end that asks for an atomic flag between its turns; trace invariant for every back end, then for the two of the code.
* **C88 Windows and scanner: the result of close** - same invariant.
* **C89 Windows and scanner: silence after close and destructor** - same invariant.
* **C90 Closing the scanner terminates** - variant function, for all schedules and all trees.
* **C91 Closing on Windows terminates** - variant function; refuted for a first read that is answered at once (line 1950 does not ask for the flag); `_partial`.
* **C92 Windows and scanner: close from the callback hangs** - invariant 'still inside'.
* **C93 Windows and scanner: bad paths and early closes** - invariant; early closes refuted between check and live message; `_partial`.
* **C94 The callback gets exactly what the back end delivers** - the schedules of `Polled` are connected with the sequential models `Warthog.watch` and `Windows.turns` by a simulation.
* **C95 Darwin: live first, die last, one at a time** - `Model/DarwinLife.lean`: owner, worker and any number of threads of the system, one step per access to shared state; trace invariants.
* **C96 Darwin: the result of close** - same invariants.
* **C97 Darwin: silence after close and destructor** - same invariants.
* **C98 Closing on Darwin terminates** - variant function; refuted while files change (the mutex is taken again and again); `_partial`.
* **C99 Darwin: close from the callback hangs** - invariant 'still inside', for callbacks on the worker and on threads of the system.
* **C100 Darwin: bad paths and early closes** - invariant; early closes refuted between check and live message; `_partial`.
* **C101 Darwin: every batch is told as a whole or dropped as a whole** - accounting invariant over the batches, connected with the sequential `recvAll`.
* **C102 Darwin: nothing is used after it was given back** - the model's `waits` parameter; refuted if the system's stopping functions do not wait; `_partial`.
* **C103 No history stops the watcher or makes it lose or repeat a change** - the invariant of C31 with flags for what is excluded; with nothing excluded the paths are those of the first watch.
* **C104 A loss in the kernel's queue is announced** - the kernel model with a queue limit; invariant 'an overflow record is pending or was announced'; the documented message refuted; `_partial`.
* **C105 Events stay inside the watched directory** - invariant over the table; refuted for directories moved out of the tree; `_partial`.
* **C106 End to end, fanotify: file events are about real changes** - the invariants of C84 carried through the composition of C79 with the fanotify kernel (`Spec/FWhole.lean`); `_partial`.
* **C107 End to end, fanotify: each change once and in order** - the invariants of C85 through the same composition, with C79 at the callback; refuted by merging; `_partial`. `C107_unmoved_partial`: if nothing is moved (directories may be removed at any time) no condition on the reads is needed.
* **C108 End to end, fanotify: a watcher that keeps up tells exactly what is due** - an invariant 'told so far ++ due for the rest = goal' over all steps of threads, kernel and processes.
* **C109 A C handle, with the threads inside the call** - `Model/Handle.lean`: `wtr_watcher_close` as a `close()` and a destructor of the two-thread model of `Model/Lifecycle.lean`; invariants over all schedules.
* **C110 Closing a C handle frees it** - false of the code (it leaks the object when `close()` answers false); `_partial`: exact characterisation.
* **C111 The Rust stream yields the events, in order** - the `Watch` of `lib.rs` with its channel over the handle model; invariant 'yielded ++ queued is one for one the callbacks'.
* **C112 The Rust stream ends when the watch has** - false of the code (the stream owns its sender); `_partial`.
* **C113 Rust's safe interface is safe** - false of the code (close, then drop; drop without descriptors); `_partial`: exactly which programs are safe.
* **C114 The Python callback gets the events, in order, and none after close** - the `Watch` of `watcher.py` over the handle model, with the decoding of names; false for names that are not UTF-8; `_partial`.
* **C115 A Python watch cannot be misused by one thread** - false without descriptors; `_partial`.
* **C116 What a fanotify batch is reported as, in every case** - `Spec/FExact.lean`, a function on records that also says what happens where C36, C37 and C40 fail; equal to the byte-level model for all batches, by induction over the records with the number of bytes the reader believes to have.
* **C117 Exactly when reading a fanotify batch is undefined** - from C116 by induction.
* **C118 What the C++ programs print and how they exit** - `Model/Program.lean`: the end of `main` over the two-thread model of `Model/Lifecycle.lean`, for any text of events; an invariant over all schedules, then C10, C11 and C20.
* **C119 The C++ programs exit with 0 when nothing goes wrong** - false of the code (closing at once); `_partial`: the exact condition.
* **C120 The Rust program ends when its watch has ended** - false of the code; `_partial`: it ends only by Ctrl-C.
* **C121 The Rust program prints the events in order and is safe** - the same file, over the stream of `Model/Handle.lean`; an invariant over all schedules.
* **C122 Exactly which events have a text that is read back as the event** - the model of C03 and C04; the reader of `Spec/Json.lean`, which knows all escapes (surrogates included), is inverted: what it reads from an unescaped name is shorter than the name, or ends differently, unless nothing was to be escaped.
* **C123 Exactly when Python's to_json is JSON for the event** - the same for the model of C74.
* **C124 Windows: what a batch of notifications is reported as, exactly** - the model of C49; `ReportsAll` extends the reports of C49 by halves without their other half; totality and uniqueness make it an equivalence.
* **C125 Scanner: what is reported, exactly** - the models of C52 - C54 and C88; the report of a series of trees is a fold over the known write times, by induction.
* **C126 Windows: what the callback gets during a whole watch, exactly** - `Model/WinBytes.lean` is the back end over the buffer's bytes, run by the two threads of `Polled`; the invariant relates answers, history and what is told (`Spec/WinBytes.lean`), with C124 for each batch; bytes determine records (the encoding is injective), so history and story are unique.
* **C127 Darwin: what is reported, exactly** - the models of C44 - C47 and C101; `Story` (`Spec/DarwinAll.lean`) tells the report from the notifications alone; the sets the code keeps are related to the history by induction from its end.
* **C128 Node.js: which events reach the callback, with the threads inside** - `Model/NodeLife.lean`: `callback_bridge`, the queue and `close()` of Node.js around the C handle of `Model/Handle.lean`; every log has a `Story` (`Spec/NodeLife.lean`), by an invariant over all schedules.
* **C129 Node.js: `close()` returns, also inside the callback** - the same model; a cost that falls with every quiet step, and progress.
* **C130 Node.js: copies of events** - the same invariant counts the copies.
* **C131 Node.js: memory safety of `watch` and `close`** - the same model marks uses of the freed lifetime object as undefined; invariants.
* **C132 Linux: a watch that gets no watch from the kernel says so and ends** - the composed model of C79; an invariant from the opening on that fixes all later callbacks.
* **C133 Portable scanner: what is reported, whatever the file system answers** - the model of C52 - C54; a relational story over remembered times (`Spec/WarthogExact.lean`), shown to exist and to be unique for every history.
* **C134 Closing through C, Rust and Python returns** - the handle models of C109 - C115; the measure of C129 for both threads together, and C16 for callbacks that close their own watch.
* **C135 The wide text of an event is its narrow text** - `to<std::wstring>` with `path::wstring()` spelled out as a UTF-8 decoder; proved against an encoder in the specification; false for other names; `_partial`.
* **C136 Effect times are in the order of the callback (Linux)** - both receive loops again with numbered clock readings at the constructors of events; a theorem says that they otherwise do the same; false for a new directory that cannot be watched; `_partial`.
* **C137 `close()` from several threads** - the accesses of `close()` to the atomic and to the `std::future`, with the happens-before relation of the C++ memory model carried along (each thread's set of known accesses); an access that is not ordered after a conflicting one is undefined behaviour; invariants over all schedules of any number of threads; false without synchronisation; `_partial`.
* **C138 Python objects may be made in several threads** - the lines of `_lazy_static_solib_handle`, the constructor and `close` as steps of any number of objects under the interpreter lock; invariant over all interleavings; false while the library is being loaded, unless all addresses fit into an `int`; `_partial`.
* **C139 What the Python program prints** - the main thread of the program on top of the Python `Watch` of C114 and the two-thread model; invariant over all interleavings; reading the output line by line with the JSON reader of C74; false for names that are not UTF-8; `_partial`.
* **C140 How the Python program ends** - the same model; status, safety, a bound on the steps and absence of stuck states after the input ended; false as the status does not tell about the watch; `_partial`.
* **C141 A Python program that has a watch ends** - the Python `Watch` of C114 with the end of the interpreter; an invariant for the states in which the watcher's thread needs the interpreter lock; false for a watch that was not closed; `_partial`: the exact condition.
* **C142 A Node.js program that has closed its watch ends** - the watch of C128 with the event loop around it (`Model/NodeEnd.lean`); an invariant for the thread-safe function, and a measure that every step of the event loop lowers once `close()` has returned.
* **C143 Ending a Node.js program or Worker with an open watch is safe** - the same model, with the end of the environment at any moment outside `close()`; false for two events after the end; `_partial`: the exact condition, and the copies that stay allocated.
* **C144 Trees of any depth can be watched** - the walk of C24 with a number of free descriptors and of stack frames; induction over the frames; false for the usual limits; `_partial`: the exact condition for every pair of limits, and limits that are always enough.
* **C145 Darwin: every creation is reported** - files are created, removed and renamed; the notifications of that go through the model of C44; false after a rename; `_partial`: the exact condition over every history of operations.
* **C146 Linux: a watch that fanotify refuses falls back or ends** - the composed model of C80 with a kernel that refuses every mark; false (the watcher waits); `_partial`: what the callback gets instead, over all schedules in which a group without marks has no events.
* **C147 Linux: a callback that throws** - the lifecycle model with a step `throw` (`Model/Throw.lean`): the exception goes into the future and `get` rethrows it out of a `noexcept` function; false; `_partial`: silence, termination within five steps of `close()` or the destructor, and the harmless case without a stop signal, over all schedules.
* **C148 Linux: signals do not end a watch** - the lifecycle model with the error number of `epoll_wait` (`Model/Signals.lean`); false; `_partial`: what an interrupted watch does, over all schedules, and that only a failure or a close ends a watch.
* **C149 Linux: changes are reported under the path that was given** - the composed model of a watch (`Model/Adapter.lean`) with any file system in which the given path stands for a directory; false of the code for symbolic links; `_partial`: an invariant over the tables of both back ends and over the walk gives that everything is reported below the real path.
* **C150 Linux: a watch whose directory has gone says so** - the histories of `Model/Kernel.lean` and `Model/FKernel.lean`; false; `_partial`: an invariant (live watches are on directories of the tree, one on each) gives that a tree without directories has no watches, and without watches nothing is ever told and the watch goes on.
* **C151 Changes are reported with absolute paths** - all runs of the composed model of `Model/Adapter.lean` (both Linux back ends), and the Windows parser; false when `open_by_handle_at` answers descriptor 0; `_partial`: from C149 with the root as the watched directory, under the assumption that descriptors are above 0; Windows by induction over the records of a batch.
* **C152 Linux: data of the callback needs no locks** - the happens-before relation of the C++ standard over the steps of a schedule of `Model/Lifecycle.lean`; false without an event descriptor; `_partial`: an invariant over growing traces (the step that sets the result comes after all steps of the watching thread; an invalid future was obtained after it).
* **C153 Windows and scanner: data of the callback needs no locks** - the same for `Model/Polled.lean`.
* **C154 Darwin: data of the callback needs no locks** - the same for `Model/DarwinLife.lean`, with one thread for each call of `event_recv` and the mutex; the invariant says whose turn it is to call the callback, and that all calls so far happen before a step of that thread, or before the last unlock.
* **C155 The path type tells what kind of entry was changed** - kinds of entries beside the records; false on Linux; `_partial` from C26, C116 (with an induction over `Fa.told`) and C124.
* **C156 Which events a program has to be prepared for** - from C26, C116, C124, C133 and C127 by induction over what is reported.
* **C157 Windows and scanner: a callback that throws ends its watch, not the program** - `Model/ThrowPolled.lean` on top of `Model/Polled.lean`, exceptions and `noexcept` explicit; false; `_partial`: the last message told and the place of the worker agree (invariant), and a doomed owner comes to `get` in three steps.
* **C158 Darwin: a callback that throws ends its watch, not the program** - `Model/ThrowDarwin.lean` on top of `Model/DarwinLife.lean`; false; `_partial` as C157: which thread runs the callback follows from the last message told (invariant), and a lost owner comes to `get` in four steps.
* **C159 Darwin: a watch gives back every object of the system** - `Model/DarwinRefs.lean`, reference counts of semaphore, string, array and stream, for all answers of the system; false; `_partial`: case analysis of the answers and induction over the watches of a program.
* **C160 Linux: watches of one program do not touch each other's descriptors** - `Model/ManyFds.lean` makes the sequence of C23 that of a whole object; a process is an arbitrary interleaving of such sequences with those of other careful code, the table of descriptors is shared (`Spec/ManyFds.lean`); invariant: the table is the union of what each believes to have; leaving nothing open is false for descriptor 0; `_partial`.
* **C161 Linux: a watch whose file system is unmounted says so** - `Model/Unmount.lean` adds the unmounting to the kernels of C32 and C39; refuted with a run; proved instead: with no watch left and only records of dropped watches pending, no step calls the callback; `_partial`.
* **C162 Linux: no change waits for ever** - the kernel and histories of C103 with any queue limit; invariant: the changes up to a given moment are told or shown by the first `o` pending records, and each read that returns makes `o` smaller; full.
* **C163 The same for fanotify** - the kernel and histories of C85; merging keeps a record's place, so the directory-and-name keys of the pending records at a given moment stay a prefix of what is pending; refuted as C85, `_partial` under the hypotheses of C85; without the hypothesis on directories `C163_missed_partial` says which changes are missed, and `C163_always_partial` if directories are removed during reads, too. `C163_unmoved_partial`: if nothing is moved (directories may be removed at any time) no condition on the reads is needed. C163_lone_partial: if every read gets at most one record, every change in a directory still there is mentioned.
* **C164 Two directories that change places are reported (fanotify)** - `RENAME_EXCHANGE` in `Model/FKernel.lean`: four notifications, merged by the kernel or not; what the four, two or one records are read as; a spec of what is in fact told (`actual`), proved for all operations, also end to end; the full statement is refuted (merging loses half of it), `_partial` where it is neither merged nor half watched.
* **C165 No change waits for ever, end to end (inotify)** - a history of the whole watch contains a history of the back end (`Lemmas/Adapter4.lean`), to which C162 applies; what was handed over has been told when the watch waits or has finished (C79).
* **C166 The same for fanotify** - C163's invariant carried through every step of the composed model; refuted by the same `rm -r`; `_partial`. `C166_missed_partial`: the back end of a whole watch does what it does with the operations and reads of the history alone (`fSteps`), so C163's account of what is missed carries over (`C166_always_partial`: with removals during reads). `C166_unmoved_partial`: if nothing is moved (directories may be removed at any time) no condition on the reads is needed.
* **C167 Making a watch does not end the program** - programs that make and destroy watches and threads of their own under a limit (`Model/Start.lean`); an invariant counts threads by what happened, which gives an exact criterion; refuted at the limit; `_partial`.

## Trusted base

1. **Lean 4.33.0's kernel.** Every theorem is accepted by the kernel; `vcheck` rebuilds and replays it. No
   `native_decide`, `bv_decide`, axioms, `opaque` or `unsafe` definitions of our own are used. Concrete runs in
   examples and refutations are evaluated with `decide +kernel`, that is by the kernel's own reduction.
2. **Axioms.** The theorems depend on no axioms other than Lean's `propext`, `Quot.sound` and `Classical.choice`;
   which theorem on which is listed in `AXIOMS.md`. No module of Mathlib is imported.
3. **That the model is the code.** Nothing was run against the code (the sandbox cannot build it). Each
   definition of `lean/Verif/Model` cites the lines of /repo it transcribes, and says where it simplifies.
   Transcription mistakes are possible. The seeded bugs of `seeded/LOG.jsonl` show that the theorems notice
   changes of the model; they cannot show that the model was right to begin with.
4. **The assumptions about the environment** listed below, which appear as hypotheses or as inputs of the model.

### What is modelled

| code | model | properties |
|---|---|---|
| `event`, equality, constructors (watcher.hpp 57-142) | `Model/Event.lean`, `Model/Path.lean` | C01, C06 |
| text of events, narrow and wide (150-353); `json` of the CLI | `Model/Text.lean` | C02 - C05, C122 |
| `semabin` (387-466), three platforms | `Model/Semabin.lean` | C07, C08 |
| `class watch` (2239-2282), Linux loop and choice of back end (1654-1724), as two threads | `Model/Lifecycle.lean` | C07, C09 - C18, C20 - C22 |
| status codes and messages (838-926) | `Model/Result.lean` | C19 |
| `make_ep`, `make_sysres`, `pathof`: descriptors (925-941, 1078-1138, 1399-1443) | `Model/Fds.lean` | C23 |
| descriptors of several objects in one process (397, 434, 1654-1724, 2246-2281) | `Model/ManyFds.lean` | C160 |
| unmounting (1592-1634; environment) | `Model/Unmount.lean` | C161 |
| starting (2246-2272, 2281; threads and memory as an environment; `wtr_watcher_open` 66) | `Model/Start.lean` | C167 |
| `walkdir_do` (966-984) | `Model/Walk.lean` | C23, C24 |
| inotify back end from the bytes of the buffer (1299-1636) | `Model/Inotify.lean` | C24 - C30 |
| fanotify back end from the bytes of the buffer (1007-1276) | `Model/Fanotify.lean` | C36 - C43, C63, C116, C117 |
| a whole watch on Linux | `Model/Adapter.lean` | C79 - C81, C10, C11, C20 |
| Darwin back end (490-811) | `Model/Darwin.lean` | C44 - C48, C64, C65, C127 |
| Windows back end (1729-1970) | `Model/Windows.lean` | C49 - C51, C66 - C68, C124 |
| portable scanner (1974-2181) | `Model/Warthog.lean` | C133, C52 - C54, C69, C70, C125 |
| `class watch` (2239-2282) with the atomic flag (459-465) and the loops of Windows (1939-1970) and the scanner (2161-2181), as two threads; throwing callbacks | `Model/Polled.lean`, `Model/ThrowPolled.lean` | C87 - C94, C153, C157 |
| the same with the buffer of the Windows back end as bytes (1797-1970) | `Model/WinBytes.lean` | C126 |
| `class watch` (2239-2282) on Darwin with its stop signal (436-457), `wait` (708-714), `close_event_stream` (774-785), `watch` (798-811) and `event_recv` (633-652), as threads; throwing callbacks | `Model/DarwinLife.lean`, `Model/ThrowDarwin.lean` | C95 - C102, C127, C154, C158 |
| objects of the system on Darwin (438, 457, 656-706, 774-785) | `Model/DarwinRefs.lean` | C159 |
| wide text of events, 303-309, 346-351, and `path::wstring()` | `Model/Wide.lean` | C135 |
| clock readings of the Linux back ends, 96-98, 1057-1070, 1177-1276, 1386-1398, 1459-1488, 1592-1634 | `Model/Times.lean` | C136 |
| `close()` from several threads, 390-466, 2243, 2275-2279 | `Model/Threads.lean` | C137 |
| `watcher.py` 13, 30-59, 176-190: loading the library, for objects in several threads | `Model/PyLoad.lean` | C138 |
| `watcher.py` 198-213: the Python program while it watches | `Model/PyProgram.lean` | C139, C140 |
| `watcher.py` 153-202 and the end of the interpreter | `Model/PyExit.lean` | C141 |
| `watcher-napi.cpp` 72-121, 144-174 and the end of the environment | `Model/NodeEnd.lean` | C142, C143 |
| `walkdir_do` with limits of the process | `Model/WalkLimits.lean` | C144 |
| C interface, Rust, Python, Node.js | `Model/Bindings.lean` | C55 - C60, C71 - C76, C123 |
| both command line programs | `Model/Cli.lean` | C61, C77, C78 |
| (environment, not code) the inotify side of a kernel with a directory tree | `Model/Kernel.lean` | C31 - C35, C62, C80, C103 - C105 |
| `watcher-c.cpp` 36-75, `lib.rs` 103-149, `watcher.py` 153-202: open and close of handles with the threads inside, channel and stream, the Python object | `Model/Handle.lean` | C109 - C115, C134 |
| `watcher-napi.cpp` 54-174, `watcher.ts` 38-58: bridge, queue, callback and close with the threads inside | `Model/NodeLife.lean` | C128 - C131 |
| `src/wtr/watcher/main.cpp` 110-122, `src/wtr/tiny_watcher/main.cpp` 25-36, `watcher-rs/src/main.rs` 5-17: what is printed and how the programs end, with the threads | `Model/Program.lean` | C118 - C121 |
| (environment, not code) the fanotify side of a kernel with directories known by handles | `Model/FKernel.lean` | C83 - C86, C106 - C108, C163, C164 |

`devel/include` holds the same library as `include/wtr/watcher.hpp` in separate files (the single header is
generated from them by `tool/hone`); the single header is what is cited.

### What is not modelled

* Compilation: the C++ standard library, the compilers and the preprocessor's choice of the back end. A function
  of the standard library is modelled by what its documentation says (`path::operator/`, `std::async`,
  `std::future`, `unordered_map`, `to_chars`).
* Memory exhaustion and exceptions, except where a property is about them (C61, C69, C147, C157, C158). The functions are `noexcept`,
  so an exception ends the program.
* Weak memory: atomics are sequentially consistent (the code uses the default order on Linux). What user data the callback and the owner may share is C152 - C154. Two threads that use
  one `watch` object at the same time (other than the worker) are a data race on the `std::future` and are
  excluded, except in C71 and C137, which are about just that.
* The clock, except in C136. Effect times are arbitrary numbers where they matter (C02 - C04, C60) and absent elsewhere.
* Android's and the `WATER_WATCHER_USE_WARTHOG` build switches, build files, tests, tools and CI.
* The latency of the Darwin stream, OVERLAPPED and security structures
  of Windows, the pauses of the scanner.

### Assumptions about the environment

* inotify (`Spec/Inotify.lean`, `Batch`): `read` returns whole records, each of 16 bytes and a name padded with
  zero bytes, at most 4096 bytes together; of the halves of one move the departure comes first.
* fanotify (`Spec/Fanotify.lean`, `FBatch`): whole records of event metadata and one directory-and-name record. The
  conditions beyond that (`Fa.Sound`, `Still`, `Roomy`: 4 bytes free or no rename at the end; `Present`: the directories of the records read are
  still there) are hypotheses of the `_partial` theorems, and
  for each there is a refutation without it.
* The kernel of C31 - C35, C62, C80 and C103 - C105: see the head of `Model/Kernel.lean` (symbolic links are
  like files and are not followed; the queue is unlimited except in C104 and C105).
* The kernel of C83 - C86 and C106 - C108: see the head of `Model/FKernel.lean` (no queue limit, symbolic links are
  like files and are not followed, handles are not used again). Other processes may act before every single system call.
* C95 - C101: `FSEventStreamFlushSync`, `FSEventStreamStop` and `FSEventStreamInvalidate` return only after every call of `event_recv` that was
  begun has returned, as documented; C102 is about systems for which this does not hold, which comments in the code report.
* epoll is level-triggered: a wake-up contains the stop signal exactly when it is readable.
* C141: a thread that asks for the lock of a finalizing Python interpreter never gets it (CPython 3.14; before, such a thread was ended by
  `pthread_exit`, which the library's `noexcept` functions do not survive).
* C142, C143: the event loop, the end of an environment and `napi_closing` behave as the documentation of Node-API says.
* `eventfd`'s counter does not overflow (2^64 - 2 calls of `close`).

## Where the code does not do what its documentation or its users expect

Each of these is a theorem (`..._refuted`, or a positive statement of the surprising behaviour) or a remark in the
comment of a definition.

* `close()` from the callback hangs for ever (C16, C92, C99). A `close()` may be delayed for ever by a busy file system, as
  the status of a later entry of the same wake-up overwrites "stop" (C15); in the other order an error is masked (C20).
* Windows: if the first read is answered at once, `close()` and the destructor never return (C91).
* Darwin: while files change, the worker may wait for the mutex of `event_recv` for ever, and with it `close()` and the
  destructor (C98); if stopping a stream does not wait for the calls that were begun, they use a stack that is gone, and
  events come after the destructor (C102); the result of `FSEventStreamStart` is ignored (line 704); the semaphore, the string and the array of a watch are never
  given back, and a path that is not UTF-8 makes the array retain null (C159).
* A `close()` between the start-up check and the live message succeeds although documented to fail (C14, C93, C100).
* The stop signal forgets that it was given when asked twice on Linux (C08).
* inotify: a move between two directories is reported with a path that never existed (C28, C31, C80); contents of a
  renamed directory keep their old paths (C34, C35); a directory moved into the tree is not watched (C62); what is
  made in a new directory before its creation was read is not reported (C33); the documented overflow warning is never
  sent (C30, C104), and nothing is done to recover from an overflow; a directory moved out of the tree is still
  reported under its old path (C105); directories of unknown type or without permission are silently not watched; `epoll_wait` interrupted by
  a signal ends the watch; `inotify_add_watch` has no `IN_ONLYDIR`.
* fanotify: a rename at the end of a full buffer reads behind it (C36); `path_buf[-1]` is written when `readlink`
  fails (C36); an arrival followed by a departure is taken for one rename, the second record is reported twice and
  later ones are lost (C37, C38); the meaning of `EAGAIN` is inverted, so that an error of `read` is ignored and an
  empty read ends the watch (C39); everything after a stale record is dropped (C40), entries of the root are reported
  with two slashes (C41); an overflow is not announced (C30); descriptor 0 is taken for an error and leaks (C23);
  merged events are reported as one effect only (C63), so a file made and removed before the read is reported as
  made (C86); `rm -r` loses what was read together with the records of the removed directory (C85); a directory removed
  during the look-up is reported as `x (deleted)` (C84); when two
  directories change places and the kernel merges the records, one of the two moves is not told (C164).
* Without memory or a thread, making a watch ends the program: `std::async` throws inside a `noexcept` constructor (C167).
* Paths longer than 4095 bytes are cut during the walk (C24).
* `close()` from two threads without a lock of the user's is a data race on the future (C137).
* A new directory that cannot be watched: the warning comes before the event but has the later time (C136).
* Text: writing an event with a name that is not UTF-8 to a wide stream ends the program (C135); `effect_time` is padded with zero bytes or cut (C02); names are not escaped in JSON (C03, C04, C74; exactly when it matters: C122, C123).
* Darwin: removals of paths not created under the watch are silent (C45); batches flushed while closing are dropped
  (C48); a stream that cannot be opened is waited on until the owner closes (C64); a move out of the tree is connected
  with the next rename (C65).
* Windows: renames split over two reads and lone one-character names are lost (C49); a name of odd length or a first
  read answered at once is processed for ever (C50); long paths overflow a buffer (C51); after an overflow or a
  failed read nothing is reported any more (C66); the directory handle leaks (C67); a read is outstanding when the watch ends (C68).
* Scanner: files appearing in an empty tree are swallowed (C53), removals are never reported (C54), an unreadable
  directory throws in a `noexcept` function (C69), an empty directory replaced by a file reaches the end of a
  value-returning function (C70).
* C interface: a failed close leaks for ever; on Windows paths of 4095 bytes are written past the buffer (C73). Rust:
  `close` and then `drop` is a use after free (C57, C113); the stream never ends (C112), so the program ends only by
  Ctrl-C (C120). Python: two closing threads free twice (C71); an object made while another thread loads the library closes a wrong address (C138); a program that
  ends without closing its watch hangs, although the documentation says closing is not needed (C141); the program's status does not tell about the watch (C140). Node.js: events
  beyond 1024 waiting ones are lost and leak (C59), callbacks run after `close` (C76), nanoseconds are rounded (C60).
  Names that are not UTF-8 are emptied in Rust (C55, C112); in Python the event is lost, as the decoder throws in
  the callback (C114).
* Everywhere: a callback that throws ends the program, at once or in `close()` (C147, C157, C158); symbolic links are told as files on Linux, removed directories as files on Windows (C155).
* CLI: an unknown unit means milliseconds, a missing or malformed time means for ever, 293 years overflow (C61); the
  promise about paths that do not exist is not kept (C77); closed before its thread has begun, a healthy watch is reported
  as failed, and the exit status is 1 (C119).

## Refutations

Where a property as a user would expect it is false of the code, the full statement is kept as a `def Cxx_full : Prop`
and `Cxx_refuted : ¬ Cxx_full` is proved from a concrete run of the model; what is true is proved as `..._partial`.
