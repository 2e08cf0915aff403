import Verif.Model.Result
/-!
# Which descriptors the Linux back end opens and closes

Models `include/wtr/watcher.hpp` lines 925-939 (`make_ep`), 1077-1094 and 1400-1443 (`make_sysres`),
1136-1144 (`pathof`'s descriptor), 1654-1724 (`platform_watch`, the choice of the back end). The
answers of the system calls are inputs. Simplification: only descriptor bookkeeping is kept; the
descriptors of `opendir` are in `Model/Walk.lean` (a `closedir` always follows).
-/

namespace Verif.Model.Fds
open Verif Verif.Model

inductive FdStep where
  | opened (fd : Int)
  | close (fd : Int)
deriving DecidableEq, Repr

/-- A system call that creates a descriptor answers `-1` or the descriptor. -/
def created (fd : Int) : List FdStep := if 0 ≤ fd then [.opened fd] else []

/-- Answers `epoll_create1` and the two `epoll_ctl` calls give. -/
structure EpAns where
  create : Int
  ctlFs : Bool
  ctlIl : Bool
deriving DecidableEq, Repr

/-- `make_ep`, watcher.hpp:925-939. -/
def makeEp (a : EpAns) : Int × List FdStep :=
  let fd := a.create
  let ctlOk := decide (0 ≤ fd) && a.ctlFs && a.ctlIl
  if !ctlOk && decide (0 ≤ fd) then (-1, created fd ++ [.close fd]) else (fd, created fd)

/-- What `platform_watch` knows after `make_sysres`. -/
structure Sys where
  ok : Result
  ke : Int := -1
  ep : Int := -1
deriving DecidableEq, Repr

/-- `fanotify::make_sysres`, watcher.hpp:1077-1094. -/
def faMake (initFd : Int) (e : EpAns) : Sys × List FdStep :=
  if initFd < 1 then ({ ok := .eFanotify }, created initFd)
  else
    let (ep, t) := makeEp e
    if ep < 1 then ({ ok := .eEpoll }, created initFd ++ t ++ [.close initFd])
    else ({ ok := .pending, ke := initFd, ep := ep }, created initFd ++ t)

/-- `inotify::make_sysres`, watcher.hpp:1400-1443. `dmEmpty`: no directory could be marked. -/
def inMake (initFd : Int) (dmEmpty : Bool) (e : EpAns) : Sys × List FdStep :=
  if initFd < 0 then ({ ok := .eInotify, ke := initFd }, created initFd)
  else if dmEmpty then ({ ok := .eNoent, ke := initFd }, created initFd)
  else
    let (ep, t) := makeEp e
    ({ ok := if ep < 0 then .eEpoll else .pending, ke := initFd, ep := ep }, created initFd ++ t)

/-- `pathof`'s use of `open_by_handle_at`, watcher.hpp:1136-1144: given up when the answer is not
positive, closed otherwise. -/
def pathofFds (ans : Int) : List FdStep :=
  created ans ++ (if ans ≤ 0 then [] else [.close ans])

/-- `platform_watch`, watcher.hpp:1657-1694: the loop (each `open_by_handle_at` answer in `handles`;
none for inotify; not entered unless the status is below `complete`) and the two closes; the result is
the status the loop ends with (`final`). -/
def platformWatch (m : Sys × List FdStep) (handles : List Int) (final : Result) : Result × List FdStep :=
  let run := m.1.ok.keepsRunning
  (if run then final else m.1.ok,
   m.2 ++ (if run then handles.flatMap pathofFds else []) ++ [.close m.1.ke, .close m.1.ep])

/-- All answers of one `watch` (watcher.hpp:1654-1724). -/
structure Ans where
  root : Bool
  faInit : Int
  faEp : EpAns
  faHandles : List Int
  faFinal : Result
  inInit : Int
  inDmEmpty : Bool
  inEp : EpAns
  inFinal : Result

/-- `watch`, watcher.hpp:1708-1719: fanotify for root, inotify when that answers "not available". -/
def watchFds (a : Ans) : Result × List FdStep :=
  let (r, t) := if a.root then platformWatch (faMake a.faInit a.faEp) a.faHandles a.faFinal else (.eFanotify, [])
  if r = .eFanotify then
    let (r2, t2) := platformWatch (inMake a.inInit a.inDmEmpty a.inEp) [] a.inFinal
    (r2, t ++ t2)
  else (r, t)

end Verif.Model.Fds
