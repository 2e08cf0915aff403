import Verif.Spec.FExact
import Verif.Spec.Windows
import Verif.Spec.WarthogExact
import Verif.Spec.DarwinAll
/-!
# Types of events (C155, C156)

What kind of entry a change is about, what `path_type` should say of it, and which combinations of effect, type and associated
event a program has to be prepared for.
-/

namespace Verif.Spec.Types
open Verif Verif.Model

/-- Kinds of entries of a directory. -/
inductive Kind where
  | regular | directory | symbolicLink | special
deriving DecidableEq, Repr

/-- The documented type of each kind (`path_type`: dir, file, hard_link, sym_link, watcher, other). -/
def Kind.due : Kind → PathType
  | .regular => .file
  | .directory => .dir
  | .symbolicLink => .symLink
  | .special => .other

/-- The type of each kind if only directories are told apart. -/
def Kind.coarse : Kind → PathType
  | .directory => .dir
  | _ => .file

/-- An inotify record is about an entry of this kind: the kernel sets `IN_ISDIR` for directories and says nothing else
about the kind (inotify(7)). -/
def InAbout (k : Kind) (r : Rec) : Prop := r.mask.getLsbD 30 = true ↔ k = .directory

/-- The same for fanotify and `FAN_ONDIR` (fanotify(7)). -/
def FanAbout (k : Kind) (r : FRec) : Prop := r.mask.getLsbD 30 = true ↔ k = .directory

/-- An event that is a message of the watcher itself. -/
def Message (e : Ev) : Prop := e.ptype = .watcher

/-- Only renames have an associated event; it is a rename, too, and of the same type. -/
def Paired (e : Ev) : Prop := ∀ a, e.assoc = some a → e.effect = .rename ∧ a.effect = .rename ∧ a.ptype = e.ptype

/-- Effects of entries by name. -/
def Basic (x : EffectType) : Prop := x = .create ∨ x = .destroy ∨ x = .modify ∨ x = .rename

end Verif.Spec.Types
