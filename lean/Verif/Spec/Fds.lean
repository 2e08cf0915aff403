import Verif.Model.Fds
/-!
# Specification of descriptor discipline (C23)
-/

namespace Verif.Spec
open Verif Verif.Model.Fds

/-- Replay a trace over the set of descriptors that are open. `none`: a descriptor was closed that was
not open (it could belong to somebody else). Closing a negative number is a harmless error. -/
def replay : List Int → List FdStep → Option (List Int)
  | s, [] => some s
  | s, .opened fd :: t => replay (fd :: s) t
  | s, .close fd :: t =>
    if fd < 0 then replay s t
    else if fd ∈ s then replay (s.erase fd) t
    else none

/-- The kernel never hands out a descriptor that is still open. -/
def Fresh : List Int → List FdStep → Prop
  | _, [] => True
  | s, .opened fd :: t => fd ∉ s ∧ Fresh (fd :: s) t
  | s, .close fd :: t => Fresh (s.erase fd) t

/-- Everything that was opened has been closed again, once, and nothing else was closed. -/
def NoLeak (t : List FdStep) : Prop := replay [] t = some []

end Verif.Spec
