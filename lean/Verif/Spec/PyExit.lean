import Verif.Model.PyExit
import Verif.Spec.HandleEnds
/-!
# What it means that a Python program with a `Watch` ends (C141)
-/

namespace Verif.Spec.PyExit
open Verif Verif.Model Verif.Model.Life Verif.Model.PyExit Verif.Spec

/-- Programs that come about. -/
def XRuns (cfg : Cfg) (x : X) : Prop := ∃ acts, xrun Spec.Bind.utf8 cfg (xnew cfg) acts = .ok (some x)

/-- The program can still end: some way to go on leads to the end of the process. -/
def CanEnd (cfg : Cfg) (x : X) : Prop := ∃ acts y, xrun Spec.Bind.utf8 cfg x acts = .ok (some y) ∧ y.phase = .exited

/-- The callback has been called for the last time (with the die message), and has returned. -/
def LastCallReturned (path : Str) (s : Life.St) : Prop :=
  (∃ a d, Ended path a d (callbacks s.log)) ∧ (∀ next, s.w ≠ .inCb next) ∧ ∀ c next, s.w ≠ .selfClose c next

end Verif.Spec.PyExit
