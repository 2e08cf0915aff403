import Verif.Spec.Lifecycle
import Verif.Model.Throw
/-!
# Callbacks that throw (C147)
-/

namespace Verif.Spec
open Verif Verif.Model Verif.Model.Life

/-- A return of `close()` or of the destructor. -/
def IsReturn : Obs → Prop
  | .closeRet _ | .dtorRet => True
  | _ => False

/-- A step of the owner inside `close()` or the destructor. -/
def ownerMoves : XAct → Bool
  | .life .o => true
  | _ => false

end Verif.Spec
