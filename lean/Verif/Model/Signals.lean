import Verif.Model.Lifecycle
/-!
# Signals, on Linux

`epoll_wait` returns -1 with the error `EINTR` when a signal handler has run in the waiting thread (whatever the flags of the handler), and
when the process has been stopped and continued (signal(7)). The adapter does not look at the error number.
-/

namespace Verif.Model.Life
open Verif Verif.Model

/-- What `epoll_wait` answers (`include/wtr/watcher.hpp` 1664-1665): entries, or -1 and an error number. -/
inductive WaitRet where
  | ready (items : List Item)
  | failed (errno : Nat)
deriving DecidableEq, Repr

/-- The error number of an interrupted call on Linux. -/
def eintr : Nat := 4

/-- `include/wtr/watcher.hpp` 1664-1675: what the loop does with the answer; every failure is treated alike (1666-1667). -/
def waited : WaitRet → Act
  | .ready items => .wWake items
  | .failed _ => .wWakeErr

end Verif.Model.Life
