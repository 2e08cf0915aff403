import Verif.Model.Program
import Verif.Spec.Handle
/-!
# What users of the command line programs rely on (C118 - C121)
-/

namespace Verif.Spec.Prog
open Verif Verif.Model Verif.Model.Life Verif.Model.Prog Verif.Spec

/-- Programs that come about. -/
def Runs (fmt : Event → Str) (cfg : Cfg) (p : P) : Prop := ∃ acts, prun fmt cfg (start cfg) acts = some p

/-- Rust programs that come about. -/
def RRuns (utf8 : Str → Bool) (cfg : Cfg) (p : RP) : Prop := ∃ acts, rprun utf8 cfg (rstart cfg) acts = .ok (some p)

/-- The event as the user sees it, with times: nothing else is added, changed or lost. -/
def Timed (e : Ev) (x : Event) : Prop :=
  match e.assoc with
  | none => ∃ t, x = .mk e.path e.effect e.ptype t none
  | some h => ∃ t u, x = .mk e.path e.effect e.ptype t (some (.mk h.path h.effect h.ptype u none))

/-- One line per event, in order: the line is the text of the event with some times. -/
inductive Lines (fmt : Event → Str) : List Ev → List Str → Prop where
  | nil : Lines fmt [] []
  | cons {e : Ev} {x : Event} {es : List Ev} {ls : List Str} (h : Timed e x) (t : Lines fmt es ls) : Lines fmt (e :: es) (fmt x :: ls)

end Verif.Spec.Prog

namespace Verif.Spec.Prog
open Verif Verif.Model Verif.Model.Life Verif.Model.Prog Verif.Spec

/-- Nothing goes wrong: opening works (or fanotify is not available, and inotify is tried), waiting works, reading
brings events or warnings. -/
def Healthy : PAct → Prop
  | .life (.wOpen _ r) _ _ => r = .pending ∨ r = .eFanotify
  | .life (.wWake items) _ _ => ∀ i ∈ items, i = .il ∨ ∃ evs r, i = .ke evs r ∧ Mild r
  | .life .wWakeErr _ _ => False
  | _ => True

end Verif.Spec.Prog

namespace Verif.Spec.Prog
open Verif Verif.Model Verif.Spec

/-- The events as the user sees them, one for one and in order. -/
inductive AllTimed : List Ev → List Event → Prop where
  | nil : AllTimed [] []
  | cons {e : Ev} {x : Event} {es : List Ev} {xs : List Event} (h : Timed e x) (t : AllTimed es xs) : AllTimed (e :: es) (x :: xs)

/-- The lines of a text (`cur`: what was read of the present one); what follows the last line end is a line if it is not empty. -/
def linesFrom (cur : Str) : Str → List Str
  | [] => if cur.isEmpty then [] else [cur]
  | c :: s => if c = 10 then cur :: linesFrom [] s else linesFrom (cur ++ [c]) s

/-- The lines of a text. -/
def linesOf (s : Str) : List Str := linesFrom [] s

end Verif.Spec.Prog
