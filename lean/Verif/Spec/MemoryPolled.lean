import Verif.Model.Polled
import Verif.Spec.Happens
/-!
# What happens before what, on Windows and with the scanner (C153)

Only the order inside each thread and `std::future` are counted, see `Spec/Memory.lean`.
-/

namespace Verif.Spec.MemPoll
open Verif Verif.Model Verif.Model.Poll Verif.Spec.Mem

/-- A step of a schedule, and the state before it. -/
structure Step (B : Backend) where
  before : St B
  act : Act B

variable {B : Backend}

/-- The steps of a schedule. -/
def trace (dirOk : Bool) (s : St B) : List (Act B) → List (Step B)
  | [] => []
  | a :: as => ⟨s, a⟩ :: (match step dirOk s a with
    | none => []
    | some s' => trace dirOk s' as)

/-- Is it a step of the watching thread? All calls of the callback are. -/
def Step.worker (x : Step B) : Bool := match x.act with
  | .o | .oClose | .oDtor => false
  | _ => true

/-- The result is set: the watching thread's function has returned. -/
def Step.publishes (x : Step B) : Prop := x.act = .w ∧ ∃ r, x.before.w = .setFut r

/-- The owner has waited for the result: in `get()`, or in the destructor of the future. -/
def Step.obtains (x : Step B) : Prop :=
  x.act = .o ∧ (x.before.o = .closing .get ∨ x.before.o = .dtorClosing .get ∨ (x.before.o = .dtorFuture ∧ x.before.valid = true))

/-- The step with number `i` happens before the one with number `j`. -/
def HB (t : List (Step B)) : Nat → Nat → Prop := Happens Step.worker (fun x y => x.publishes ∧ y.obtains) t

/-- A `close()` of the owner, or the destructor, returns in this step. -/
def Step.ends (dirOk : Bool) (x : Step B) : Prop := ∃ s' o, step dirOk x.before x.act = some s' ∧ s'.log = x.before.log ++ [o] ∧ ((∃ b, o = .closeRet b) ∨ o = .dtorRet)

/-- Everything the callback did (and the watching thread as a whole, ever) happens before the step with number `j`. -/
def AllBefore (t : List (Step B)) (j : Nat) : Prop := ∀ i x, t[i]? = some x → x.worker = true → HB t i j

end Verif.Spec.MemPoll
