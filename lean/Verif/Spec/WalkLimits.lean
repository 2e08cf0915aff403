import Verif.Model.WalkLimits
import Verif.Spec.Walk
/-!
# What users rely on when trees are deep (C144)

`Spec/Walk.lean` says what a tree is.
-/

namespace Verif.Spec
open Verif Verif.Model.Walk

/-- Every directory of the tree that can be listed is visited, each once, and nothing else. -/
def VisitsAll (p r : Str) (t : DirTree) (steps : List Step) : Prop :=
  (visits steps).Nodup ∧ ∀ q, q ∈ visits steps ↔ ∃ ns, Below t ns ∧ (t.entries ns).isSome = true ∧ q = shownPath p r ns

/-- How many directory streams are open after these steps. -/
def openNow : List Step → Int
  | [] => 0
  | .opened _ :: l => openNow l + 1
  | .closed _ :: l => openNow l - 1
  | _ :: l => openNow l

/-- The usual limits of a Linux process: 1024 descriptors, and 8 MiB of stack. -/
def usualFds : Nat := 1024
def usualStack : Nat := 8 * 1024 * 1024

end Verif.Spec
