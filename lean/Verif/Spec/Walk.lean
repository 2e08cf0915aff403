import Verif.Model.Walk
/-!
# Specification of the directory walk (C24)

A directory tree is described by relative paths (lists of names). Only the words of the property are
used: which directories lie below the root through real directories, and how their paths are written.
-/

namespace Verif.Spec
open Verif Verif.Model.Walk

/-- A tree as the operating system shows it to this process. `entries ns` is the listing of the
directory at relative path `ns`, `none` if it cannot be listed; `searchable` says whether paths through
it resolve. Symbolic links, files, and directories on file systems that do not report types have
`isDirType = false`. -/
structure DirTree where
  entries : List Str → Option (List Dirent)
  searchable : List Str → Bool

/-- `ns` is the root or a real sub-directory (at any depth) of it. -/
inductive Below (t : DirTree) : List Str → Prop where
  | root : Below t []
  | child {ns des n} : Below t ns → t.entries ns = some des → ⟨n, true⟩ ∈ des → n ≠ b!"." → n ≠ b!".." →
      t.searchable ns = true → Below t (ns ++ [n])

/-- The canonical path of relative path `ns` below the canonical root `r`. -/
def canon (r : Str) (ns : List Str) : Str :=
  if ns = [] then r else (if r = b!"/" then [] else r) ++ ns.flatMap (fun n => 47 :: n)

/-- How the walk names a directory: the root as it was given, everything else canonically. -/
def shownPath (p r : Str) (ns : List Str) : Str := if ns = [] then p else canon r ns

/-- The operating system `w` shows the tree `t` whose root was given as `p` and has the canonical
path `r`. -/
structure Shows (w : World) (p r : Str) (t : DirTree) : Prop where
  root : w.realpath p = some r
  list : ∀ ns, Below t ns → w.opendir (shownPath p r ns) = t.entries ns
  fixed : ∀ ns, ns ≠ [] → Below t ns → (canon r ns).length < PATH_MAX →
    w.realpath (canon r ns) = some (canon r ns)
  resolve : ∀ ns des n, Below t ns → t.entries ns = some des → ⟨n, true⟩ ∈ des → n ≠ b!"." → n ≠ b!".." →
    (shownPath p r ns ++ b!"/" ++ n).length < PATH_MAX →
    w.realpath (shownPath p r ns ++ b!"/" ++ n) =
      if t.searchable ns then some (canon r (ns ++ [n])) else none
  /-- file names are not empty, contain no separator and do not repeat within a directory -/
  names : ∀ ns des, t.entries ns = some des →
    (des.map Dirent.name).Nodup ∧ ∀ d ∈ des, d.name ≠ [] ∧ (47 : UInt8) ∉ d.name
  rootNonempty : r ≠ []

/-- All paths fit into the fixed buffers. -/
def Fits (p r : Str) (t : DirTree) : Prop :=
  (∀ ns des d, Below t ns → t.entries ns = some des → d ∈ des →
    (shownPath p r ns ++ b!"/" ++ d.name).length < PATH_MAX) ∧
  ∀ ns, Below t ns → (canon r ns).length < PATH_MAX

/-- No infinitely deep tree. -/
def FiniteDepth (t : DirTree) : Prop := ∃ d, ∀ ns, Below t ns → ns.length ≤ d

end Verif.Spec
