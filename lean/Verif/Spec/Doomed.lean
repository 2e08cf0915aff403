import Verif.Spec.Adapter
import Verif.Spec.Fanotify
/-!
# A Linux watch for which the kernel gives no watch (C132)
-/

namespace Verif.Spec.Ad
open Verif Verif.Model Verif.Spec

/-- The kernel refuses every `inotify_add_watch` (for instance because the limit of watches is reached). -/
def NoWatches {σ} (S : In.Sys σ) : Prop := ∀ w p, (S.addWatch w p).1 ≤ 0

/-- The error message of a watch that could not be opened: there is no descriptor for inotify, or there is nothing to watch. -/
def openError (fd : Int) (path : Str) : Ev :=
  { path := (if fd < 0 then b!"e/sys/api/inotify@" else b!"e/self/noent@") ++ path, effect := .other, ptype := .watcher }

/-- The warnings: one for each directory that was found. -/
def openWarnings (fd : Int) (dirs : List Str) : List Ev := if fd < 0 then [] else dirs.map notWatched

end Verif.Spec.Ad
