import Verif.Model.Darwin
import Verif.Spec.Event
/-!
# Specification for the Darwin back end (C44 - C48, C64, C65)
-/

namespace Verif.Spec.Darwin
open Verif Verif.Model Verif.Model.Darwin

/-- The create and destroy events about one path, in order (`true`: create). -/
def lifeOf (p : Str) : List Ev → List Bool
  | [] => []
  | e :: l =>
    if e.path = p ∧ e.effect = .create then true :: lifeOf p l
    else if e.path = p ∧ e.effect = .destroy then false :: lifeOf p l
    else lifeOf p l

/-- `true, false, true, ...`, beginning with `b`. -/
def AlternatesFrom : Bool → List Bool → Prop
  | _, [] => True
  | b, x :: l => x = b ∧ AlternatesFrom (!b) l

/-- Bit `k` of the flags of a notification. -/
def bit (n : Note) (k : Nat) : Bool := n.flags.getLsbD k

/-- Flags that say something was modified in a way that is reported: contents (12), Finder information (13),
owner (14), extended attributes (15). -/
def Modified (n : Note) : Prop := bit n 12 = true ∨ bit n 13 = true ∨ bit n 14 = true ∨ bit n 15 = true

/-- The rename notifications of a history. -/
def renames (ns : List Note) : List Note := ns.filter (fun n => bit n 11)

/-- The rename events of a history of events, as pairs. -/
def renameEvents : List Ev → List (Str × Str)
  | [] => []
  | e :: l => match e.effect, e.assoc with
    | .rename, some a => (e.path, a.path) :: renameEvents l
    | _, _ => renameEvents l

/-- The notification `b` follows `a`, is for another path, and `a`'s path is gone. -/
def Connects (a b : Note) : Prop := a.path ≠ [] ∧ squeeze a.path ≠ squeeze b.path ∧ b.missing = true

/-- How consecutive rename notifications are connected: each takes part in at most one event, and two
neighbours that are both still free are connected exactly when they can be. -/
inductive Pairing : List Note → List (Str × Str) → Prop
  | nil : Pairing [] []
  | last (a : Note) : Pairing [a] []
  | skip (a b : Note) (l : List Note) (o : List (Str × Str)) : ¬ Connects a b → Pairing (b :: l) o → Pairing (a :: b :: l) o
  | pair (a b : Note) (l : List Note) (o : List (Str × Str)) : Connects a b → Pairing l o →
      Pairing (a :: b :: l) ((a.path, b.path) :: o)

/-- No flag says what happened. -/
def Unrecognised (n : Note) : Prop := ∀ k, 8 ≤ k → k ≤ 15 → bit n k = false

/-- The type of path the flags tell. -/
def typeTold (n : Note) : PathType :=
  if bit n 16 then .file else if bit n 17 then .dir else if bit n 18 then .symLink
  else if bit n 20 ∨ bit n 21 then .hardLink else .other

/-- Does the report so far say that the path exists because it was created while watching? -/
def KnownCreated (p : Str) (out : List Ev) : Prop := (lifeOf p out).getLast? = some true

/-- What happens to files in and around the watched tree when they are renamed. -/
inductive Move where
  | within (old new : Str)     -- both names below the watched path
  | away (old : Str)           -- moved out of the watched path
  | hither (new : Str)         -- moved in from elsewhere
deriving DecidableEq, Repr

/-- The notifications: one for each name below the watched path, old name first. In `prev` is whether the
path of the rename notification before is missing when this one is handled. -/
def Move.notes (prev : Bool) : Move → List Note
  | .within old new =>
    [{ path := old, flags := 0x10800#32, missing := prev }, { path := new, flags := 0x10800#32, missing := true }]
  | .away old => [{ path := old, flags := 0x10800#32, missing := prev }]
  | .hither new => [{ path := new, flags := 0x10800#32, missing := prev }]

/-- Is the path named by the last notification of a move missing afterwards? -/
def Move.gone : Move → Bool
  | .within _ _ => false
  | .away _ => true
  | .hither _ => false

/-- The notifications of a series of moves of distinct files. -/
def movesNotes : Bool → List Move → List Note
  | _, [] => []
  | prev, m :: ms => m.notes prev ++ movesNotes m.gone ms

/-- The renames a user expects to be told of. -/
def movesPairs : List Move → List (Str × Str)
  | [] => []
  | .within a b :: ms => (a, b) :: movesPairs ms
  | _ :: ms => movesPairs ms

/-- The batches the system queued in a schedule. -/
def queued : List Act → List (List Note)
  | [] => []
  | .notify b :: as => b :: queued as
  | _ :: as => queued as

end Verif.Spec.Darwin
