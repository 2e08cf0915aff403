import Verif.Spec.Darwin
/-!
# What users rely on when files are created on Darwin (C145)

Files are created, removed and renamed in the watched tree; the notifications are those the system makes of that (see `Move.notes`), one
batch or many, in order, without any of the older flags repeated (the simplest case).
-/

namespace Verif.Spec.Darwin
open Verif Verif.Model Verif.Model.Darwin

/-- What is done to files. In `prev` is whether the path of the rename notification before is missing when this one is handled. -/
inductive FileOp where
  | create (p : Str)
  | remove (p : Str)
  | move (old new : Str) (prev : Bool)   -- inside the watched tree
  | away (old : Str) (prev : Bool)       -- out of it
deriving DecidableEq, Repr

/-- The notifications of an operation on a file. -/
def FileOp.notes : FileOp → List Note
  | .create p => [{ path := p, flags := 0x10100#32 }]
  | .remove p => [{ path := p, flags := 0x10200#32 }]
  | .move old new prev => Move.notes prev (.within old new)
  | .away old prev => Move.notes prev (.away old)

def opNotes (ops : List FileOp) : List Note := ops.flatMap FileOp.notes

/-- The files of the tree after an operation; `none` if it is not possible. -/
def FileOp.apply (files : List Str) : FileOp → Option (List Str)
  | .create p => if p ∈ files then none else some (p :: files)
  | .remove p => if p ∈ files then some (files.filter (· ≠ p)) else none
  | .move old new _ => if old ∈ files ∧ new ∉ files then some (new :: files.filter (· ≠ old)) else none
  | .away old _ => if old ∈ files then some (files.filter (· ≠ old)) else none

/-- The files of the tree after some operations, starting without files. -/
def filesAfter (files : List Str) : List FileOp → Option (List Str)
  | [] => some files
  | o :: os => match o.apply files with
    | none => none
    | some f => filesAfter f os

/-- What was last done to this path: was a file created there (`true`) or removed (`false`)? Renames do not count. -/
def lastDone (p : Str) : List FileOp → Option Bool
  | [] => none
  | .create q :: os => match lastDone p os with
    | some b => some b
    | none => if q = p then some true else none
  | .remove q :: os => match lastDone p os with
    | some b => some b
    | none => if q = p then some false else none
  | _ :: os => lastDone p os

/-- The last of these operations made the watcher report a creation of `p`. -/
def ReportsCreation (p : Str) (before after : List Note) : Prop :=
  ∃ t, (recvAll {} after).out = (recvAll {} before).out ++ t ∧ ∃ e ∈ t, e.path = p ∧ e.effect = .create

end Verif.Spec.Darwin
