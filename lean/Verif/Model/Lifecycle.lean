import Verif.Model.Result
import Verif.Model.Semabin
/-!
# The life of a `watch` object on Linux, as two interleaved threads

Models `include/wtr/watcher.hpp` lines 2239-2282 (`class watch`), 399-434 (`semabin`) and 1654-1724
(the Linux adapter's loop), step by step.  The owner thread calls `close()` any number of times and
then possibly destroys the object; the worker thread is the `std::async` body.  Every load, store and
system call on shared state is a separate step, so all interleavings are executions of `step`.

Everything the threads cannot decide themselves is an input of a step: what the file system looks
like, what `make_sysres` and `do_ev_recv` answer, what `epoll_wait` returns, whether a callback
returns or calls `close()` itself.

Simplifications: sequentially consistent memory (the code uses default, sequentially consistent,
atomics on Linux); the two threads are the only ones using the object (concurrent `close()` calls from
several threads race on the `std::future` and are undefined behaviour in C++); exceptions do not occur
(`Model/Throw.lean` adds callbacks that throw).
-/

namespace Verif.Model.Life
open Verif Verif.Model

/-- Fixed circumstances of one watch. `path` is the absolute path; `dirOk` whether `absolute` and
`is_directory` succeeded (2253-2256); `fdOk` whether `eventfd()` succeeded (397). -/
structure Cfg where
  path : Str
  dirOk : Bool
  fdOk : Bool
deriving DecidableEq, Repr

/-- One entry of the array `epoll_wait` fills (1670-1675): the stop signal, the file-system
descriptor (with what `do_ev_recv` will deliver and answer), or anything else. -/
inductive Item where
  | il
  | ke (evs : List Ev) (r : Result)
  | unknown
deriving DecidableEq, Repr

/-- Where a `close()` call is (2275-2279 and 399-413). -/
inductive ClosePc where
  | load | write | store (v : SemState) | check (v : SemState) | get
deriving DecidableEq, Repr

/-- Where the worker is (2248-2270, 1654-1724). `second` tells the second `platform_watch` (inotify)
from the first (fanotify). -/
inductive WPc where
  | start
  | stLoad
  | stRead
  | stStore (v : SemState)
  | live (pre : Bool)
  | aOpen (second : Bool)
  | aEvs (second : Bool) (evs : List Ev) (r : Result) (items : List Item)
  | aItems (second : Bool) (ok : Result) (items : List Item)
  | aWait (second : Bool)
  | aDone (second : Bool) (r : Result)
  | die (pre post : Bool)
  | setFut (r : Bool)
  | finished
  | inCb (next : WPc)
  | selfClose (c : ClosePc) (next : WPc)
deriving DecidableEq, Repr

/-- Where the owner is (2275-2282). The destructor runs `close()`, then destroys `watching` (an async
future: waits for the thread if still valid), then `living` (closes the descriptor). -/
inductive OPc where
  | idle
  | closing (c : ClosePc)
  | dtorClosing (c : ClosePc)
  | dtorFuture
  | dtorFd
  | gone
deriving DecidableEq, Repr

/-- What can be seen from outside. -/
inductive Obs where
  | cb (e : Ev)
  | closeCall
  | closeRet (b : Bool)
  | dtorCall
  | dtorRet
deriving DecidableEq, Repr

structure St where
  sb : SB
  fdOpen : Bool := true
  fut : Option Bool := none
  valid : Bool := true
  w : WPc := .start
  o : OPc := .idle
  log : List Obs := []     -- oldest first
deriving DecidableEq, Repr

/-- State right after construction: the future is set up and the thread may begin (2246-2273). -/
def init (cfg : Cfg) : St := { sb := { fdOk := cfg.fdOk } }

/-- The live message, 2258-2263. -/
def liveEv (path : Str) (ok : Bool) : Ev :=
  { path := (if ok then b!"s/self/live@" else b!"e/self/live@") ++ path,
    effect := .create, ptype := .watcher }

/-- The die message, 2265-2270. -/
def dieEv (path : Str) (ok : Bool) : Ev :=
  { path := (if ok then b!"s/self/die@" else b!"e/self/die@") ++ path,
    effect := .destroy, ptype := .watcher }

/-- Inputs of a step. -/
inductive Act where
  | w                                   -- the worker's next deterministic step
  | wOpen (evs : List Ev) (r : Result)  -- `make_sysres` returned
  | wWake (items : List Item)           -- `epoll_wait` returned these
  | wWakeErr                            -- `epoll_wait` returned -1
  | cbReturn                            -- the running callback returns
  | cbClose                             -- the running callback calls `close()`
  | o                                   -- the owner's next deterministic step
  | oClose                              -- the owner calls `close()`
  | oDtor                               -- the owner destroys the object
deriving DecidableEq, Repr

/-- What file-system back ends may deliver (assumed here, proved of the inotify and fanotify models in
`Props/Adapter.lean`): file events, or warnings. -/
def isMid (e : Ev) : Bool :=
  e.ptype != .watcher || (e.effect == .other && e.path.head? == some 119)

/-- Codes `do_ev_recv` can answer (proved of the models in `Props/Adapter.lean`; fanotify 1240-1275,
inotify 1593-1634). -/
def isRecvResult : Result → Bool
  | .pending | .eRead | .eRet | .eKernelVersion | .wBadFd | .wQOverflow | .wBadMeta => true
  | _ => false

/-- Codes `make_sysres` can answer (fanotify 1077-1094, inotify 1400-1443). Not being root, which skips
fanotify (1708-1715), is the answer `eFanotify` of the first attempt. -/
def isOpenResult : (second : Bool) → Result → Bool
  | _, .pending | _, .eEpoll => true
  | false, .eFanotify => true
  | true, .eInotify | true, .eNoent => true
  | _, _ => false

/-- Is the stop descriptor in the wake-up? -/
def hasIl (items : List Item) : Bool := items.any (· == .il)

/-- All deliveries and answers of a wake-up are possible ones. -/
def itemsOk : List Item → Bool
  | [] => true
  | .ke evs r :: is => evs.all isMid && isRecvResult r && itemsOk is
  | _ :: is => itemsOk is

/-- One step of a `close()` call. `none`: blocked. `inr b`: returned `b`. -/
def closeStep (s : St) : ClosePc → Option (St × (ClosePc ⊕ Bool))
  -- 409: `if (this->is == released) return released;`
  | .load => if s.sb.is = .released then some (s, .inl (.check .released)) else some (s, .inl .write)
  -- 403: the write
  | .write => let (v, sb) := s.sb.writeEv; some ({ s with sb := sb }, .inl (.store v))
  -- 412: the store
  | .store v => some ({ s with sb := { s.sb with is := v } }, .inl (.check v))
  -- 2277-2278: `release() != error && watching.valid() && ...`
  | .check v =>
    if v = .error then some (s, .inr false)
    else if s.valid then some (s, .inl .get)
    else some (s, .inr false)
  -- 2278: `watching.get()`, blocks until the thread has set the result, then invalidates the future
  | .get => match s.fut with
    | none => none
    | some b => some ({ s with valid := false }, .inr b)

/-- The worker calls the callback with `e` and will go on with `next`. -/
def callCb (s : St) (e : Ev) (next : WPc) : St :=
  { s with log := s.log ++ [.cb e], w := .inCb next }

/-- The worker's deterministic steps. -/
def wStep (cfg : Cfg) (s : St) : Option St :=
  match s.w with
  -- 2253-2256: path conditions; `&&` skips `state()` when they fail
  | .start => some { s with w := if cfg.dirOk then .stLoad else .live false }
  -- 428: `if (this->is == pending) return pending`
  | .stLoad => some { s with w := if s.sb.is = .pending then .live true else .stRead }
  -- 420
  | .stRead => let (v, sb) := s.sb.readEv; some { s with sb := sb, w := .stStore v }
  -- 431, then the comparison with pending at 2257
  | .stStore v => some { s with sb := { s.sb with is := v }, w := .live (v = .pending) }
  -- 2258-2264
  | .live pre => some (callCb s (liveEv cfg.path pre) (if pre then .aOpen false else .die false false))
  -- the deliveries of `make_sysres` or `do_ev_recv`, one callback each; then `sr.ok = r`
  | .aEvs sec [] r items => some { s with w := .aItems sec r items }
  | .aEvs sec (e :: es) r items => some (callCb s e (.aEvs sec es r items))
  -- 1669-1675: the `for` over the wake-up's entries; at its end the loop condition 1663
  | .aItems sec ok [] => some { s with w := if ok.keepsRunning then .aWait sec else .aDone sec ok }
  | .aItems sec _ (.il :: is) => some { s with w := .aItems sec .complete is }
  | .aItems sec _ (.ke evs r :: is) => some { s with w := .aEvs sec evs r is }
  | .aItems sec _ (.unknown :: is) => some { s with w := .aItems sec .eEpoll is }
  -- 1718-1723: fall back, announce an error, or return true
  | .aDone sec r =>
    if !sec && r = .eFanotify then some { s with w := .aOpen true }
    else if r.isError then some (callCb s (sendMsg r cfg.path) (.die true false))
    else some { s with w := .die true true }
  -- 2265-2271
  | .die pre post => some (callCb s (dieEv cfg.path post) (.setFut (pre && post)))
  | .setFut r => some { s with fut := some r, w := .finished }
  | .selfClose c next => match closeStep s c with
    | none => none
    | some (s', .inl c') => some { s' with w := .selfClose c' next }
    | some (s', .inr _) => some { s' with w := .inCb next }
  | _ => none

/-- The owner's deterministic steps. -/
def oStep (s : St) : Option St :=
  match s.o with
  | .closing c => match closeStep s c with
    | none => none
    | some (s', .inl c') => some { s' with o := .closing c' }
    | some (s', .inr b) => some { s' with o := .idle, log := s'.log ++ [.closeRet b] }
  | .dtorClosing c => match closeStep s c with
    | none => none
    | some (s', .inl c') => some { s' with o := .dtorClosing c' }
    | some (s', .inr _) => some { s' with o := .dtorFuture }
  -- `~future` of a `std::async` state: waits for the thread unless `get` already did
  | .dtorFuture =>
    if s.valid then (match s.fut with
      | none => none
      | some _ => some { s with o := .dtorFd })
    else some { s with o := .dtorFd }
  -- 434: `close(this->fd)`
  | .dtorFd => some { s with fdOpen := false, o := .gone, log := s.log ++ [.dtorRet] }
  | _ => none

/-- One step of the system; `none` when the input is not possible in that state. -/
def step (cfg : Cfg) (s : St) : Act → Option St
  | .w => wStep cfg s
  -- 1659: `make_sysres`; without a working stop descriptor it cannot report success
  -- (1085-1087 and 1421-1433: `epoll_ctl` fails for a bad descriptor)
  | .wOpen evs r => match s.w with
    | .aOpen sec =>
      if evs.all isMid && isOpenResult sec r && (cfg.fdOk || r.isError) then some { s with w := .aEvs sec evs r [] } else none
    | _ => none
  -- 1664-1675: level-triggered, so the stop descriptor is reported exactly when it is readable
  -- (an empty wake-up keeps the old `sr.ok`, which is below `complete` like `pending`)
  | .wWake items => match s.w with
    | .aWait sec =>
      if itemsOk items && (hasIl items == decide (s.sb.count > 0)) then
        some { s with w := .aItems sec .pending items } else none
    | _ => none
  -- 1666-1667
  | .wWakeErr => match s.w with
    | .aWait sec => some { s with w := .aItems sec .eEpoll [] }
    | _ => none
  | .cbReturn => match s.w with
    | .inCb next => some { s with w := next }
    | _ => none
  | .cbClose => match s.w with
    | .inCb next => some { s with w := .selfClose .load next }
    | _ => none
  | .o => oStep s
  | .oClose => match s.o with
    | .idle => some { s with o := .closing .load, log := s.log ++ [.closeCall] }
    | _ => none
  | .oDtor => match s.o with
    | .idle => some { s with o := .dtorClosing .load, log := s.log ++ [.dtorCall] }
    | _ => none

/-- A whole schedule. -/
def run (cfg : Cfg) (s : St) : List Act → Option St
  | [] => some s
  | a :: as => match step cfg s a with
    | none => none
    | some s' => run cfg s' as

/-- States some schedule leads to. -/
def Reachable (cfg : Cfg) (s : St) : Prop := ∃ acts, run cfg (init cfg) acts = some s

end Verif.Model.Life
