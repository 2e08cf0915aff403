import Verif.Model.Handle
import Verif.Spec.Lifecycle
import Verif.Spec.Bindings
import Verif.Spec.Text
/-!
# What users of the C handle, the Rust stream and the Python object rely on (C109 - C113)
-/

namespace Verif.Spec.Hd
open Verif Verif.Model Verif.Model.Life Verif.Model.Handle Verif.Spec Verif.Spec.Bind

/-- Handles that come about. -/
def HReach (cfg : Cfg) (h : H) : Prop := ∃ acts, hrun cfg (hopen cfg) acts = .ok (some h)

/-- Rust watches that come about. -/
def RReach (ok : Str → Bool) (cfg : Cfg) (r : RS) : Prop := ∃ acts, rrun ok cfg (rnew cfg) acts = .ok (some r)

/-- Python watches that come about. -/
def PReach (cfg : Cfg) (p : PS) : Prop := ∃ acts, prun utf8 cfg (pnew cfg) acts = .ok (some p)

/-- The events a stream has yielded. -/
def yielded : List Polled → List Model.Bind.RsEvent
  | [] => []
  | .event e :: ps => e :: yielded ps
  | _ :: ps => yielded ps

/-- What a C string carries of a text: up to the first zero byte. -/
def upToNul : Str → Str
  | [] => []
  | c :: s => if c = 0 then [] else c :: upToNul s

/-- What Rust makes of a name: nothing if it is not UTF-8. -/
def asText (s : Str) : Str := if utf8 (upToNul s) then upToNul s else []

/-- The Rust event for an event of the library: same names, as far as they are UTF-8 (otherwise empty), same types (and
some time). -/
structure SameEvent (e : Ev) (r : Model.Bind.RsEvent) : Prop where
  path : r.path = asText e.path
  alone : e.assoc = none → r.assoc = none
  other : ∀ a, e.assoc = some a → r.assoc = some (asText a.path)
  effect : r.effect.serde = effectName e.effect
  ptype : r.ptype.serde = pathTypeName e.ptype

/-- One for one and in order. -/
inductive OneForOne : List Ev → List Model.Bind.RsEvent → Prop where
  | nil : OneForOne [] []
  | cons {e r es rs} (h : SameEvent e r) (t : OneForOne es rs) : OneForOne (e :: es) (r :: rs)

/-- The names of the event are UTF-8. -/
def Readable (e : Ev) : Prop := utf8 (upToNul e.path) = true ∧ ∀ a, e.assoc = some a → utf8 (upToNul a.path) = true

/-- The Python event for an event of the library: same names (an empty associated name counts as none), same types (and
some time). -/
structure SamePy (e : Ev) (p : Model.Bind.PyEvent) : Prop where
  path : p.path = upToNul e.path
  alone : e.assoc = none → p.assoc = none
  other : ∀ a, e.assoc = some a → p.assoc = if upToNul a.path = [] then none else some (upToNul a.path)
  effect : p.effect = effectName e.effect
  ptype : p.ptype = pathTypeName e.ptype

/-- One for one and in order. -/
inductive EachHeard : List Ev → List Model.Bind.PyEvent → Prop where
  | nil : EachHeard [] []
  | cons {e p es ps} (h : SamePy e p) (t : EachHeard es ps) : EachHeard (e :: es) (p :: ps)

/-- In order, exactly those whose names are UTF-8. -/
inductive Heard : List Ev → List Model.Bind.PyEvent → Prop where
  | nil : Heard [] []
  | told {e p es ps} (r : Readable e) (h : SamePy e p) (t : Heard es ps) : Heard (e :: es) (p :: ps)
  | missed {e es ps} (r : ¬ Readable e) (t : Heard es ps) : Heard (e :: es) ps

/-- A list of calls of one object in the simple model: what `wtr_watcher_close` answers to calls of which some
cannot write the stop signal. -/
def closes : List Bool → Model.Bind.Obj → Outcome (List Bool × Model.Bind.Obj)
  | [], o => .ok ([], o)
  | err :: errs, o => do
    let (b, o) ← Model.Bind.cCloseObj err o
    let (bs, o) ← closes errs o
    pure (b :: bs, o)

end Verif.Spec.Hd
