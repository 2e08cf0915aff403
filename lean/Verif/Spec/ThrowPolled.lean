import Verif.Spec.Polled
import Verif.Model.ThrowPolled
/-!
# Callbacks that throw, on Windows and with the portable scanner (C157)
-/

namespace Verif.Spec.Poll
open Verif Verif.Model Verif.Model.Poll

/-- A return of `close()` or of the destructor. -/
def IsReturn {ε : Type} : Obs ε → Prop
  | .closeRet _ | .dtorRet => True
  | _ => False

/-- A step of the owner inside `close()` or the destructor. -/
def ownerMoves {B : Backend} : XAct B → Bool
  | .life .o => true
  | _ => false

/-- The callback runs, and this is what it was called with. -/
def Running {B : Backend} (s : St B) (m : Msg B.ε) : Prop :=
  (∃ n, s.w = .inCb n) ∧ (callbacks s.log).getLast? = some m

end Verif.Spec.Poll
