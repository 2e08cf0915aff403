import Verif.Model.PyProgram
import Verif.Spec.HandleEnds
import Verif.Spec.Program
import Verif.Spec.Text
/-!
# What users of the Python program rely on (C139, C140)
-/

namespace Verif.Spec.PyProg
open Verif Verif.Model Verif.Model.Life Verif.Model.PyProg Verif.Spec

/-- Programs that come about. -/
def PyRuns (cfg : Cfg) (p : Py) : Prop := ∃ acts, pyrun Spec.Bind.utf8 cfg (pystart cfg) acts = .ok (some p)

/-- How the input ended, of what happened. -/
def inputs : List PyAct → List Came
  | [] => []
  | .came c :: as => c :: inputs as
  | .life _ _ _ :: as => inputs as

/-- The clock's readings have 64 bits. -/
def Clock64 : PyAct → Prop
  | .life _ now _ => Is64 now
  | .came _ => True

/-- An event whose line is JSON (see C74, C123): no quotation mark, backslash or control character in a
name. -/
def Simple (e : Model.Bind.PyEvent) : Prop :=
  PlainText e.path ∧ ∀ a, e.assoc = some a → PlainText a

/-- The document a line should be. -/
def doc (e : Model.Bind.PyEvent) : Json :=
  .obj [(b!"effect_time", .num e.time), (b!"path_name", .str e.path),
    (b!"associated_path_name", match e.assoc with | none => .null | some a => .str a),
    (b!"effect_type", .str e.effect), (b!"path_type", .str e.ptype)]

/-- A step of a thread of the library while files are not changed (see `Quiet`). -/
def QuietPy : PyAct → Prop
  | .life a _ _ => Quiet a
  | .came _ => False

/-- Warnings while opening cost two steps each (see C15). -/
def costPy : PyAct → Nat
  | .life a _ _ => openCost a
  | .came _ => 0

end Verif.Spec.PyProg
