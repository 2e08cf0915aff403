import Verif.Spec.Lifecycle
import Verif.Model.Signals
/-!
# Signals while a watch waits (C148)
-/

namespace Verif.Spec
open Verif Verif.Model Verif.Model.Life

/-- The message about a failed `epoll` call. -/
def epollError (path : Str) : Ev := ⟨b!"e/sys/api/epoll@" ++ path, .other, .watcher, none⟩

/-- Nobody closes or destroys the watch. -/
def NotClosing : Act → Prop
  | .oClose | .oDtor | .cbClose => False
  | _ => True

/-- No system call fails, and nothing unexpected is reported (fanotify may be unavailable). -/
def NoFailure : Act → Prop
  | .wWakeErr => False
  | .wOpen _ r => r = .pending ∨ r = .eFanotify
  | .wWake items => ∀ i ∈ items, ∃ evs, i = .ke evs .pending
  | _ => True

/-- The events an entry of a wait brings. -/
def itemEvents : Item → List Ev
  | .ke evs _ => evs
  | _ => []

end Verif.Spec
