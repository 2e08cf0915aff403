import Verif.Spec.Kernel
/-!
# A watched directory that goes away (C150)
-/

namespace Verif.Spec.Gone
open Verif Verif.Model Verif.Model.In Verif.Model.Ker Verif.Spec

/-- The directory `d` has a watch. -/
def Watched (k : K) (d : Str) : Prop := ∃ wd, (wd, d) ∈ k.watches

/-- Nothing is left of the tree below `root`: no directory at or below its path, and no removed one that some process still has open. -/
def NothingLeft (root : Str) (k : K) : Prop := (∀ d ∈ k.dirs, ¬ Ker.Below root d) ∧ k.dead = []

end Verif.Spec.Gone
