import Verif.Spec.Doomed
/-!
# A Linux watch for which fanotify gives no mark (C146)
-/

namespace Verif.Spec.Ad
open Verif Verif.Model Verif.Model.Ad Verif.Spec

/-- The kernel refuses every `fanotify_mark` (for instance because the file system has no file handles, or the limit of marks is reached). -/
def NoMarks {σ} (S : Fa.Sys σ) : Prop := ∀ w p, (S.mark w p).1 = false

/-- What can happen when a group without marks is waited on: there are no file system events, so only the stop signal wakes the watcher
(or the timeout, with nothing). -/
def Still {σ} : CAct σ → Bool
  | .wake ws => ws.all (· == .il)
  | .life .wWakeErr => false
  | _ => true

/-- Nobody closes or destroys the watch. -/
def Unclosed {σ} : CAct σ → Bool
  | .life .oClose => false
  | .life .oDtor => false
  | .life .cbClose => false
  | _ => true

end Verif.Spec.Ad
