import Verif.Model.NodeLife
import Verif.Spec.Handle
/-!
# What users of the Node.js binding rely on (C128 - C131)

Independent of the model's functions: only what is observed (`NodeLife.NObs`) is used.
-/

namespace Verif.Spec.Node
open Verif Verif.Model Verif.Model.NodeLife Verif.Spec Verif.Spec.Bind

/-- Watches that come about. `text`: what Node.js makes of bytes. -/
def NReach (text : Str → Str) (cfg : Life.Cfg) (n : NS) : Prop := ∃ acts, nrun text cfg (nnew cfg) acts = .ok (some n)

/-- The JavaScript event for an event of the library at that time: the nearest double, the same names (those a C string
can carry), the documented words. -/
structure SameJs (text : Str → Str) (e : Ev) (now : Int) (j : Model.Bind.JsEvent) : Prop where
  time : IsDouble j.time ∧ ∀ d, IsDouble d → (now - j.time).natAbs ≤ (now - d).natAbs
  path : NoNul e.path → j.path = text e.path
  alone : e.assoc = none → j.assoc = none
  other : ∀ a, e.assoc = some a → NoNul a.path → j.assoc = some (text a.path)
  effect : j.effect = some (effectName e.effect)
  ptype : j.ptype = some (camelPath e.ptype)

/-- Neither an event of the library nor a call of the user's callback. -/
def Aside : NObs → Prop
  | .came _ _ => False
  | .told _ => False
  | _ => True

/-- What happened, oldest first, explained: which events wait for JavaScript afterwards, and which were lost. An event waits unless 1024 do
already, then it is lost; the callback is called with the one that has waited longest. -/
inductive Story (text : Str → Str) : (log : List NObs) → (wait lost : List (Ev × Int)) → Prop where
  | start : Story text [] [] []
  | kept {l w x e t} : Story text l w x → w.length < 1024 → Story text (l ++ [.came e t]) (w ++ [(e, t)]) x
  | lost {l w x e t} : Story text l w x → w.length = 1024 → Story text (l ++ [.came e t]) w (x ++ [(e, t)])
  | told {l w x e t j} : Story text l ((e, t) :: w) x → SameJs text e t j → Story text (l ++ [.told j]) w x
  | aside {l w x o} : Story text l w x → Aside o → Story text (l ++ [o]) w x

/-- The events of the library. -/
def cameOf : List NObs → List (Ev × Int)
  | [] => []
  | .came e t :: l => (e, t) :: cameOf l
  | _ :: l => cameOf l

/-- The calls of the user's callback. -/
def toldOf : List NObs → List Model.Bind.JsEvent
  | [] => []
  | .told j :: l => j :: toldOf l
  | _ :: l => toldOf l

/-- The answers of `close()`. -/
def closeRets : List NObs → List Bool
  | [] => []
  | .closeRet b :: l => b :: closeRets l
  | _ :: l => closeRets l

/-- One for one and in order. -/
inductive AllSame (text : Str → Str) : List (Ev × Int) → List Model.Bind.JsEvent → Prop where
  | nil : AllSame text [] []
  | cons {e t j es js} (h : SameJs text e t j) (r : AllSame text es js) : AllSame text ((e, t) :: es) (j :: js)

/-- No file is changed any more, while the threads of the library go on. -/
def QuietN : NAct → Prop
  | .life a _ _ => Quiet a
  | _ => True

/-- Warnings while opening cost two steps each (see C15). -/
def openCostN : NAct → Nat
  | .life a _ _ => openCost a
  | _ => 0

/-- JavaScript is inside `close()`. -/
def InClose (n : NS) : Prop := ∃ fromCb, n.js = .closing fromCb

end Verif.Spec.Node
