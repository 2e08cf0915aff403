import Verif.Model.Kernel
import Verif.Model.FKernel
/-!
# The file system of a watched directory is unmounted (C161)

Environment (inotify(7), `IN_UNMOUNT` and `IN_IGNORED`; nothing of /repo): when a file system is unmounted, each watch on it is dropped, with a record that says
so and one that says the watch is gone. What the code makes of these records is `Model/Inotify.lean`'s `loop` (watcher.hpp:1592-1634): the table's entry stays (it
leaves only with `IN_DELETE_SELF`, 1594-1595), and neither record is a "real event" (1596-1601).
-/

namespace Verif.Model.Ker
open Verif Verif.Model Verif.Model.In Verif.Spec

/-- At or below `m`. -/
def onMount (m p : Str) : Bool := p == m || (if m = b!"/" then b!"/" else m ++ b!"/").isPrefixOf p

/-- The record of a watch whose file system is gone: `IN_UNMOUNT | IN_ISDIR`. -/
def unmountRec (wd : Int) : Rec := { wd := wd, mask := 0x40002000#32 }

/-- The file system mounted on `m` goes away: its directories with their watches; below appears what was there before, `under` (which has no watch). A file system
on which a removed directory is still open cannot be unmounted. Simplified: nothing else is mounted at or below `m`. -/
def unmount (k : K) (m : Str) (under : List Str) : K :=
  if k.watches.any (fun e => onMount m e.2 && k.dead.contains e.1) then k else
  (k.watches.filter (fun e => onMount m e.2)).foldl (fun k e => push (push k (unmountRec e.1)) (ignoredRec e.1))
    { k with
      dirs := k.dirs.filter (fun d => !onMount m d) ++ under
      watches := k.watches.filter (fun e => !onMount m e.2) }

/-- The same, of the whole state. -/
def unmounted (st : St World) (m : Str) (under : List Str) : St World := { st with sys := { st.sys with k := unmount st.sys.k m under } }

end Verif.Model.Ker

namespace Verif.Model.FKer
open Verif Verif.Model

/-- The same for fanotify (fanotify_mark(2) has no event for it): the marks of the directories on the file system go with it, and no record is made. -/
def unmount (k : K) (m : Str) (under : List (Handle × Str)) : K :=
  { k with
    dirs := k.dirs.filter (fun e => !Ker.onMount m e.2) ++ under
    past := k.past ++ under
    marked := k.marked.filter (fun h => !k.dirs.any (fun e => e.1 == h && Ker.onMount m e.2)) }

def unmounted (st : Fa.St World) (m : Str) (under : List (Handle × Str)) : Fa.St World := { st with sys := { st.sys with k := unmount st.sys.k m under } }

end Verif.Model.FKer
