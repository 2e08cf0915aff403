import Verif.Model.DarwinRefs
/-!
# Objects of the system that a watch on Darwin makes (C159)
-/

namespace Verif.Spec.DRefs
open Verif.Model.DRefs

/-- How many objects exist. -/
def objects (h : Heap) : Nat := (if h.sem = 0 then 0 else 1) + (if h.string = 0 then 0 else 1) + (if h.array = 0 then 0 else 1) + (if h.stream = 0 then 0 else 1)

/-- How many objects exist after a whole program. -/
def leaked (hs : List Heap) : Nat := (hs.map objects).sum

/-- The system makes everything it is asked for. -/
def Works (a : Ans) : Prop := a.queue = true ∧ a.string = true ∧ a.array = true ∧ a.stream = true

end Verif.Spec.DRefs
