import Verif.Base
/-!
# The recursive directory walk

Models `include/wtr/watcher.hpp` lines 967-984 (`walkdir_do`).

-/

namespace Verif.Model.Walk
open Verif

/-- `PATH_MAX` of `<limits.h>` on Linux. -/
def PATH_MAX : Nat := 4096

/-- One answer of `readdir`: the name and whether `d_type == DT_DIR` (watcher.hpp:975). A file system
that reports `DT_UNKNOWN` answers `false` here, for directories too. -/
structure Dirent where
  name : Str
  isDirType : Bool
deriving DecidableEq, Repr

/-- What the walk asks the file system: `opendir` + all `readdir` answers (`none`: `opendir` failed)
and `realpath`. Simplification: the file system does not change during the walk. -/
structure World where
  opendir : Str → Option (List Dirent)
  realpath : Str → Option Str

/-- Observable steps of the walk. `visit p` is the call `f(p)`. -/
inductive Step where
  | opened (p : Str)
  | visit (p : Str)
  | closed (p : Str)
deriving DecidableEq, Repr

/-- `snprintf(next, PATH_MAX, "%s/%s", path, name)`, watcher.hpp:978: the text cut to `PATH_MAX - 1`
characters. (Its return value is positive for every pair of strings, so the `<= 0` test is never
taken.) -/
def joinCut (path name : Str) : Str := (path ++ b!"/" ++ name).take (PATH_MAX - 1)

/-- The `while` loop over the entries, watcher.hpp:972-981; `rec` is the recursive call. -/
def entries (w : World) (rec : Str → Option (List Step)) (path : Str) : List Dirent → Option (List Step)
  | [] => some []
  | de :: des =>
    if de.isDirType = false then entries w rec path des
    else if de.name = b!"." then entries w rec path des
    else if de.name = b!".." then entries w rec path des
    else match w.realpath (joinCut path de.name) with
      | none => entries w rec path des
      | some real => do
        let a ← rec real
        let b ← entries w rec path des
        some (a ++ b)

/-- `walkdir_do`, watcher.hpp:967-984. `fuel` bounds the recursion depth; `none` means the walk is
deeper than that (the theorems show that enough fuel exists and that more makes no difference). -/
def walk (w : World) : (fuel : Nat) → Str → Option (List Step)
  | 0, _ => none
  | fuel + 1, path =>
    match w.opendir path with
    | none => some []
    | some des => do
      let body ← entries w (walk w fuel) path des
      some ([.opened path, .visit path] ++ body ++ [.closed path])

/-- The directories handed to `f`, in order. -/
def visits : List Step → List Str
  | [] => []
  | .visit p :: l => p :: visits l
  | _ :: l => visits l

end Verif.Model.Walk
