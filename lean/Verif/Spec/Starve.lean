import Verif.Spec.Kernel
import Verif.Spec.FKernel
import Verif.Spec.Adapter
import Verif.Spec.FWhole
/-!
# No change waits for ever (C162, C163, C165)
-/

namespace Verif.Spec.Starve
open Verif Verif.Model Verif.Model.In Verif.Model.Ker Verif.Spec

/-- The step is a call of `read()` that returns: with at least one record, if one is pending, and with no more than the buffer holds. -/
def returns (st : St World) : Step → Bool
  | .read n _ => decide (0 < n) && decide ((batch (st.sys.k.queue.take n)).length ≤ 4096)
  | .op _ => false

/-- How many such calls there are in a history. -/
def reads (st : St World) : List Step → Nat
  | [] => 0
  | s :: ss => (if returns st s then 1 else 0) + (match exec st s with | .ok st' => reads st' ss | .ub _ => 0)

/-- The same for fanotify. -/
def fReturns (st : Fa.St FKer.World) : FKer.Step → Bool
  | .read n _ => decide (0 < n) && decide ((fbatch (st.sys.k.queue.take n)).length ≤ 4096)
  | .op _ => false

def fReads (rf : Bool) (st : Fa.St FKer.World) : List FKer.Step → Nat
  | [] => 0
  | s :: ss => (if fReturns st s then 1 else 0) + (match FKer.exec rf st s with | .ok st' => fReads rf st' ss | .ub _ => 0)

/-- The wake-up reads something: at least one record, if one is pending. -/
def wakesUp : Whole.HStep → Bool
  | .wakeRead n _ | .wakeBoth _ n _ => decide (0 < n)
  | _ => false

/-- How many of these there are in a whole history. -/
def wakes : List Whole.HStep → Nat
  | [] => 0
  | h :: hs => (if wakesUp h then 1 else 0) + wakes hs

/-- The same for fanotify. -/
def fWakesUp : WholeF.HStep → Bool
  | .wakeRead n _ | .wakeBoth _ n _ => decide (0 < n)
  | _ => false

def fWakes : List WholeF.HStep → Nat
  | [] => 0
  | h :: hs => (if fWakesUp h then 1 else 0) + fWakes hs

/-- What the back end sees of a history, once it is open: operations and reads. -/
def fSteps : List WholeF.HStep → List FKer.Step
  | [] => []
  | .op x :: hs => .op x :: fSteps hs
  | .wakeRead n sched :: hs | .wakeBoth _ n sched :: hs => .read n sched :: fSteps hs
  | _ :: hs => fSteps hs

end Verif.Spec.Starve
