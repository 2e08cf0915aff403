import Verif.Model.Walk
/-!
# The recursive directory walk with what a process has to spend

Models `include/wtr/watcher.hpp` lines 967-984 (`walkdir_do`) once more, with the two things every level of the recursion holds on to until it
returns: a directory stream (969, closed in 982, after the recursive calls), and a frame of the stack with the buffers
`next` and `real` (973-974).
-/

namespace Verif.Model.Walk
open Verif

/-- A frame of `walkdir_do` is at least as large as its two buffers, watcher.hpp:973-974. -/
def frameMin : Nat := 2 * PATH_MAX

/-- `walkdir_do`, watcher.hpp:967-984, in a process with `free` descriptors left, on a thread whose stack has room for `frames` calls of it. Without a
descriptor `opendir` fails (969), and nothing is done; `none`: the stack overflows. -/
def walkL (w : World) : (frames free : Nat) → Str → Option (List Step)
  | 0, _, _ => none
  | _ + 1, 0, _ => some []
  | frames + 1, free + 1, path =>
    match w.opendir path with
    | none => some []
    | some des => do
      let body ← entries w (walkL w frames free) path des
      some ([.opened path, .visit path] ++ body ++ [.closed path])

end Verif.Model.Walk
