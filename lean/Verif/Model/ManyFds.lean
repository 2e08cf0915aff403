import Verif.Model.Fds
/-!
# The descriptors of several watches in one program

Descriptors belong to the whole process: a thread that closes a number that is not its own any more closes somebody else's. Models what one `watch` object does with descriptors from its
constructor to the end of its destructor on Linux (`include/wtr/watcher.hpp` 397, 434, 1654-1724, 2246-2281) as a sequence, and a process as an interleaving of such sequences with each other
and with those of other code.

Simplification: the descriptors of `opendir` are in `Model/Walk.lean`.
-/

namespace Verif.Model.Fds
open Verif Verif.Model

/-- All answers one `watch` object gets. -/
structure ObjAns where
  /-- `eventfd`, watcher.hpp:397 -/
  event : Int
  /-- whether the path is a directory and nobody has closed (2253-2264): `adapter::watch` is called -/
  pre : Bool
  watch : Ans

/-- A `watch` object: `eventfd` (397), the watch (2264), `close` (434). -/
def objFds (a : ObjAns) : List FdStep :=
  created a.event ++ (if a.pre then (watchFds a.watch).2 else []) ++ [.close a.event]

end Verif.Model.Fds
