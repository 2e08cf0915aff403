import Verif.Model.NodeEnd
import Verif.Spec.NodeLife
/-!
# What users of the Node.js binding rely on when a program or a Worker ends (C142, C143)

Independent of the model's functions: what was observed until the end (`n.log`, see `Spec/NodeLife.lean`), how the end came (`ended`), and
for which events the library called the binding after it (`late`).
-/

namespace Verif.Spec.NodeEnd
open Verif Verif.Model Verif.Model.NodeLife Verif.Model.NodeEnd Verif.Spec.Node

/-- Programs with a watch that come about. -/
def EReach (text : Str → Str) (cfg : Life.Cfg) (s : NE) : Prop := ∃ acts, erun text cfg (enew cfg) acts = .ok (some s)

/-- A call of `close()` has returned. -/
def Closed (s : NE) : Prop := closeRets s.n.log ≠ []

/-- The steps of the event loop and of the user's callback on its own: a waiting event is taken, the callback returns, and what
leads to the end. (Not: what the program does on its own, that is `close()` and `process.exit()`; and not: the watcher's thread.) -/
def LoopStep : EAct → Bool
  | .node .take => true
  | .node .done => true
  | .drop => true
  | .empty => true
  | _ => false

end Verif.Spec.NodeEnd
