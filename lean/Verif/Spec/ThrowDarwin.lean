import Verif.Spec.DarwinLife
import Verif.Model.ThrowDarwin
/-!
# Callbacks that throw, on Darwin (C158)
-/

namespace Verif.Spec.DLife
open Verif Verif.Model Verif.Model.DLife

/-- A return of `close()` or of the destructor. -/
def IsReturn : Obs → Prop
  | .closeRet _ | .dtorRet => True
  | _ => False

/-- A step of the owner inside `close()` or the destructor. -/
def ownerMoves : XAct → Bool
  | .life .o => true
  | _ => false

/-- A callback that throws, on whatever thread. -/
def throws : XAct → Bool
  | .wThrow | .kThrow => true
  | _ => false

/-- The last thing the callback was called with. -/
def LastTold (s : St) (m : Msg) : Prop := (callbacks s.log).getLast? = some m

end Verif.Spec.DLife
