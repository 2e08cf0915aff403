import Verif.Model.Event
/-!
# Events without time stamps, status codes and messages of the Linux back end

Models `include/wtr/watcher.hpp` lines 838-926.
-/

namespace Verif.Model
open Verif

/-- One half of an adapter event. -/
structure Half where
  path : Str
  effect : EffectType
  ptype : PathType
deriving DecidableEq, Repr

/-- What a back end hands to the callback: an event without its time stamp (adapters never set the
time; it is the clock reading of the constructor, watcher.hpp:96-98). Simplification: adapters build
at most one level of association (watcher.hpp:609-612, 1199, 1482, 1866-1874), so one level
is all this type has. -/
structure Ev where
  path : Str
  effect : EffectType
  ptype : PathType
  assoc : Option Half := none
deriving DecidableEq, Repr

/-- The event object the callback sees, for given clock readings of the outer and inner constructor
calls (watcher.hpp:111-123). -/
def Ev.stamp (now innerNow : Int) (e : Ev) : Event :=
  match e.assoc with
  | none => Event.make now e.path e.effect e.ptype
  | some h => Event.join now (Event.make innerNow e.path e.effect e.ptype)
      (Event.make innerNow h.path h.effect h.ptype)

/-- `enum class result : unsigned short`, watcher.hpp:845-864. The constructor order is the
enumeration order. -/
inductive Result where
  | pending | w | wNotWatched | wPhantom | wBadFd | wBadMeta | wQOverflow
  | complete
  | e | eInotify | eFanotify | eEpoll | eRead | eEventfd | eRet | eKernelVersion | eNoent | eEvRecv
deriving DecidableEq, Repr

/-- The underlying value, watcher.hpp:845-864. -/
def Result.code : Result → Nat
  | .pending => 0 | .w => 1 | .wNotWatched => 2 | .wPhantom => 3 | .wBadFd => 4 | .wBadMeta => 5
  | .wQOverflow => 6 | .complete => 7 | .e => 8 | .eInotify => 9 | .eFanotify => 10 | .eEpoll => 11
  | .eRead => 12 | .eEventfd => 13 | .eRet => 14 | .eKernelVersion => 15 | .eNoent => 16
  | .eEvRecv => 17

/-- `to_str(result)`, watcher.hpp:890-914, as a `switch` on the underlying value (an `enum class` with
a fixed underlying type can hold any of its values). -/
def resultStr (code : Nat) : Str :=
  if code = 0 then b!"pending@"
  else if code = 1 then b!"w@"
  else if code = 2 then b!"w/sys/not_watched@"
  else if code = 3 then b!"w/sys/phantom@"
  else if code = 4 then b!"w/sys/bad_fd@"
  else if code = 5 then b!"w/sys/bad_meta@"
  else if code = 6 then b!"w/sys/q_overflow@"
  else if code = 7 then b!"complete@"
  else if code = 8 then b!"e@"
  else if code = 9 then b!"e/sys/api/inotify@"
  else if code = 10 then b!"e/sys/api/fanotify@"
  else if code = 11 then b!"e/sys/api/epoll@"
  else if code = 12 then b!"e/sys/api/read@"
  else if code = 13 then b!"e/sys/api/eventfd@"
  else if code = 14 then b!"e/sys/ret@"
  else if code = 15 then b!"e/sys/lim/kernel_version@"
  else if code = 16 then b!"e/self/noent@"
  else if code = 17 then b!"e/self/ev_recv@"
  else b!"e/unknown@"

def Result.str (r : Result) : Str := resultStr r.code

/-- `sr.ok < result::complete`, the loop condition at watcher.hpp:1663. -/
def Result.keepsRunning (r : Result) : Bool := r.code < Result.complete.code

/-- `r >= result::e`, watcher.hpp:1720. -/
def Result.isError (r : Result) : Bool := Result.e.code ≤ r.code

/-- `send_msg`, watcher.hpp:917-923. -/
def sendMsg (r : Result) (path : Str) : Ev :=
  { path := r.str ++ path, effect := .other, ptype := .watcher }

end Verif.Model
