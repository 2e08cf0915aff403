import Verif.Model.Semabin
import Verif.Model.Darwin
/-!
# The life of a `watch` object on Darwin, as interleaved threads

Models `include/wtr/watcher.hpp` lines 2239-2282 (`class watch`) with the stop signal of lines 436-457 (an atomic and a
dispatch semaphore), `wait` (708-714), `close_event_stream` (774-785), `watch` (798-811) and the receiving side of
`event_recv` (633-652), which the system calls on threads of its own. What is done with one notification is `recvOne` of
`Model/Darwin.lean`.

Threads: the owner, the worker (the thread of `std::async`) and any number of threads of the system. Every access to
state shared between them is a step of its own, and every call of the callback is two (call and return), so that all
interleavings are executions of `step`. What the threads do not decide themselves (whether a stream can be opened, which
notifications the system sends, whether a callback returns or calls `close()`) is an input.

`waits` says whether `FSEventStreamFlushSync`, `FSEventStreamStop` and `FSEventStreamInvalidate` return only after the
calls of `event_recv` that were begun have returned. The documentation promises it; the comments at 716-773 and 789-797 say it
is not always so. Both are modelled.

Simplifications: sequentially consistent memory; nobody but the owner and callbacks calls `close()`; no exceptions leave
the callback (they do in `Model/ThrowDarwin.lean`); `event_recv_one` changes the sets of paths before it calls the callback (nobody else sees them: its thread
has the mutex); null pointers from the system (644-645) are batches that are not there.
-/

namespace Verif.Model.DLife
open Verif Verif.Model
open Verif.Model.Darwin (Note Ctx recvOne)

/-- What is handed to the callback: the live message (watcher.hpp:2258-2263), the die message (2265-2270) or an event of
`event_recv_one` (542-617). -/
inductive Msg where
  | live (ok : Bool)
  | die (ok : Bool)
  | ev (e : Ev)
deriving DecidableEq, Repr

/-- Where a `close()` call is, watcher.hpp:2275-2279 and 440-450. -/
inductive ClosePc where
  | cas | signal | valid | get
deriving DecidableEq, Repr

/-- Where the worker is, watcher.hpp:2251-2272 and 798-811. -/
inductive WPc where
  | start
  | check                        -- `living.state()`, 2257
  | live (pre : Bool)            -- about to send the live message, 2258-2263
  | inLive (pre : Bool)          -- in the callback that gets it
  | liveClose (c : ClosePc) (pre : Bool)   -- in a `close()` that this callback has called
  | opening                      -- `open_event_stream`, 807
  | ask                          -- `sb.state()` of `wait`, 710
  | sleep                        -- `dispatch_semaphore_wait`, 712
  | close (ok : Bool)            -- `close_event_stream`, 777-778, before the mutex is taken; `state_ok`
  | flush (ok : Bool)            -- has the mutex, 779-782
  | leave (ok : Bool)            -- the mutex was given back, `watch` returns, 784 and 810
  | die (pre post : Bool)        -- about to send the die message, 2265-2270
  | inDie (pre post : Bool)
  | dieClose (c : ClosePc) (pre post : Bool)
  | setFut (r : Bool)            -- returns the result, 2271
  | finished
deriving DecidableEq, Repr

/-- Where the thread of the system is that has the mutex in `event_recv` (649-651): the events of the current
notification that are still to be handed to the callback, and the notifications still to be handled. -/
inductive KPc where
  | free                                                    -- there is no such thread
  | handling (es : List Ev) (ns : List Note)
  | inCb (es : List Ev) (ns : List Note)
  | selfClose (c : ClosePc) (es : List Ev) (ns : List Note)
deriving DecidableEq, Repr

/-- Where the owner is, watcher.hpp:2275-2282. The destructor runs `close()`, then destroys `watching` (waits for
the thread if the result was not fetched), then `living` (which releases, 457: no effect after a `close()`). -/
inductive OPc where
  | idle
  | closing (c : ClosePc)
  | dtorClosing (c : ClosePc)
  | dtorFuture
  | gone
deriving DecidableEq, Repr

/-- What can be seen from outside. -/
inductive Obs where
  | cb (m : Msg)
  | cbRet                        -- a callback has returned
  | closeCall
  | closeRet (b : Bool)
  | dtorCall
  | dtorRet
deriving DecidableEq, Repr

structure St where
  is : SemState := .pending          -- 392
  signals : Nat := 0                 -- the count of the semaphore, 438
  fut : Option Bool := none
  valid : Bool := true
  w : WPc := .start
  k : KPc := .free
  o : OPc := .idle
  ctx : Ctx := {}                    -- `seen_created_paths` and `last_rename_path`, 803-804 (`out` stays empty)
  stream : Bool := false             -- the stream was started and not stopped
  pending : List (List Note) := []   -- batches the system has not handed over
  entered : List (List Note) := []   -- threads of the system that have called `event_recv` and not tried the mutex yet
  left : Bool := false               -- `watch` has returned: context and mutex (803-806) do not exist any more
  ub : Bool := false                 -- context or mutex was used after that
  dropped : List (List Note) := []   -- a record nothing reads: batches `event_recv` did not handle
  taken : List (List Note) := []     -- a record nothing reads: batches `event_recv` got the mutex for
  log : List Obs := []               -- oldest first

/-- Inputs of a step. -/
inductive Act where
  | w                                -- the worker's next deterministic step
  | opened (ok : Bool)               -- `open_event_stream` answers (656-706)
  | cbReturn                         -- the callback the worker runs returns
  | cbClose                          -- the callback the worker runs calls `close()`
  | notify (b : List Note)           -- the system has a new batch
  | enter                            -- the system calls `event_recv` with the oldest batch
  | tryLock (i : Nat)                -- the `i`th thread in `event_recv` tries the mutex (648)
  | k                                -- the next step of the thread that has it
  | kReturn                          -- the callback it runs returns
  | kClose                           -- the callback it runs calls `close()`
  | o                                -- the owner's next deterministic step
  | oClose                           -- the owner calls `close()`
  | oDtor                            -- the owner destroys the object
deriving DecidableEq, Repr

/-- One step of a `close()` call. `none`: blocked. `inr b`: returned `b`. -/
def closeStep (s : St) : ClosePc → Option (St × (ClosePc ⊕ Bool))
  -- 443-447: `compare_exchange_strong` from pending to released
  | .cas => if s.is = .pending then some ({ s with is := .released }, .inl .signal) else some (s, .inl .valid)
  -- 448: `dispatch_semaphore_signal`
  | .signal => some ({ s with signals := s.signals + 1 }, .inl .valid)
  -- 2278: `this->watching.valid() && ...` (`release()` never answers `error`, 449)
  | .valid => if s.valid then some (s, .inl .get) else some (s, .inr false)
  -- 2278: `get()` waits for the result, hands it over and makes the future invalid
  | .get => match s.fut with
    | none => none
    | some b => some ({ s with valid := false }, .inr b)

/-- Is the mutex taken? -/
def St.locked (s : St) : Bool := s.k != .free || (match s.w with | .flush _ => true | _ => false)

/-- The worker's deterministic steps. `dirOk`: whether `absolute` and `is_directory` succeeded (2253-2256). -/
def wStep (waits dirOk : Bool) (s : St) : Option St :=
  match s.w with
  -- 2253-2256: `&&` skips `state()` when the path is not a directory
  | .start => some { s with w := if dirOk then .check else .live false }
  -- 2257 and 452-455
  | .check => some { s with w := .live (decide (s.is = .pending)) }
  -- 2258-2263
  | .live pre => some { s with log := s.log ++ [.cb (.live pre)], w := .inLive pre }
  -- 710-711
  | .ask => some { s with w := if s.is = .pending then .sleep else .close (decide (s.is = .released)) }
  -- 712-713
  | .sleep => if s.signals = 0 then none else some { s with signals := s.signals - 1, w := .close true }
  -- 777: `if (! stream) return false;` 778: waits for the mutex
  | .close ok =>
    if s.stream = false then some { s with w := .leave false }
    else if s.locked then none
    else some { s with w := .flush ok }
  -- 779-785: flushing returns when all batches were handed over
  | .flush ok =>
    if s.pending = [] ∧ (waits = true → s.entered = []) then some { s with stream := false, w := .leave ok } else none
  -- 810 and the end of `watch`
  | .leave ok => some { s with left := true, w := .die true ok }
  -- 2265-2270
  | .die pre post => some { s with log := s.log ++ [.cb (.die post)], w := .inDie pre post }
  | .setFut r => some { s with fut := some r, w := .finished }
  | .liveClose c pre => match closeStep s c with
    | none => none
    | some (s', .inl c') => some { s' with w := .liveClose c' pre }
    | some (s', .inr _) => some { s' with w := .inLive pre }
  | .dieClose c pre post => match closeStep s c with
    | none => none
    | some (s', .inl c') => some { s' with w := .dieClose c' pre post }
    | some (s', .inr _) => some { s' with w := .inDie pre post }
  | _ => none

/-- The steps of the system's thread that has the mutex, watcher.hpp:649-651 and 542-617. -/
def kStep (s : St) : Option St :=
  match s.k with
  | .handling (e :: es) ns => some { s with log := s.log ++ [.cb (.ev e)], k := .inCb es ns, ub := s.ub || s.left }
  | .handling [] (n :: ns) =>
    let c := recvOne { s.ctx with out := [] } n
    some { s with ctx := { c with out := [] }, k := .handling c.out ns, ub := s.ub || s.left }
  | .handling [] [] => some { s with k := .free, ub := s.ub || s.left }
  | .selfClose c es ns => match closeStep s c with
    | none => none
    | some (s', .inl c') => some { s' with k := .selfClose c' es ns }
    | some (s', .inr _) => some { s' with k := .inCb es ns }
  | _ => none

/-- The owner's deterministic steps. -/
def oStep (s : St) : Option St :=
  match s.o with
  | .closing c => match closeStep s c with
    | none => none
    | some (s', .inl c') => some { s' with o := .closing c' }
    | some (s', .inr b) => some { s' with o := .idle, log := s'.log ++ [.closeRet b] }
  | .dtorClosing c => match closeStep s c with
    | none => none
    | some (s', .inl c') => some { s' with o := .dtorClosing c' }
    | some (s', .inr _) => some { s' with o := .dtorFuture }
  | .dtorFuture =>
    if s.valid then (match s.fut with
      | none => none
      | some _ => some { s with o := .gone, log := s.log ++ [.dtorRet] })
    else some { s with o := .gone, log := s.log ++ [.dtorRet] }
  | _ => none

/-- One step; `none` when the input is not possible in that state. -/
def step (waits dirOk : Bool) (s : St) : Act → Option St
  | .w => wStep waits dirOk s
  -- 807: with a stream, notifications may come from now on (703-704)
  | .opened ok => match s.w with
    | .opening => some { s with stream := ok, w := .ask }
    | _ => none
  -- 2264: `pre_ok && watch(...)`; 2271
  | .cbReturn => match s.w with
    | .inLive pre => some { s with log := s.log ++ [.cbRet], w := if pre then .opening else .die false false }
    | .inDie pre post => some { s with log := s.log ++ [.cbRet], w := .setFut (pre && post) }
    | _ => none
  | .cbClose => match s.w with
    | .inLive pre => some { s with w := .liveClose .cas pre }
    | .inDie pre post => some { s with w := .dieClose .cas pre post }
    | _ => none
  | .notify b => if s.stream then some { s with pending := s.pending ++ [b] } else none
  | .enter => match s.pending with
    | [] => none
    | b :: rest => if s.stream then some { s with pending := rest, entered := s.entered ++ [b] } else none
  -- 647-648: copies the context and tries the mutex
  | .tryLock i => match s.entered[i]? with
    | none => none
    | some b =>
      let s := { s with entered := s.entered.eraseIdx i }
      if s.left then some { s with ub := true, dropped := s.dropped ++ [b] }
      else if s.locked then some { s with dropped := s.dropped ++ [b] }
      else some { s with k := .handling [] b, taken := s.taken ++ [b] }
  | .k => kStep s
  | .kReturn => match s.k with
    | .inCb es ns => some { s with log := s.log ++ [.cbRet], k := .handling es ns }
    | _ => none
  | .kClose => match s.k with
    | .inCb es ns => some { s with k := .selfClose .cas es ns }
    | _ => none
  | .o => oStep s
  | .oClose => match s.o with
    | .idle => some { s with o := .closing .cas, log := s.log ++ [.closeCall] }
    | _ => none
  | .oDtor => match s.o with
    | .idle => some { s with o := .dtorClosing .cas, log := s.log ++ [.dtorCall] }
    | _ => none

/-- A whole schedule. -/
def run (waits dirOk : Bool) (s : St) : List Act → Option St
  | [] => some s
  | a :: as => match step waits dirOk s a with
    | none => none
    | some s' => run waits dirOk s' as

/-- States some schedule leads to. -/
def Reachable (waits dirOk : Bool) (s : St) : Prop := ∃ acts, run waits dirOk {} acts = some s

end Verif.Model.DLife
