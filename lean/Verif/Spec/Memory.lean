import Verif.Model.Lifecycle
import Verif.Spec.Happens
/-!
# What happens before what (C152)

The relation of the C++ standard, with as few sources as possible: the order inside each thread, and `std::future`: what a thread did before the result is
set happens before what follows a `get()`, or a destructor of an asynchronous future, that waited for it. Atomics, descriptors and the kernel are not counted.
-/

namespace Verif.Spec.Mem
open Verif Verif.Model Verif.Model.Life

/-- A step of a schedule, and the state before it. -/
structure Step where
  before : St
  act : Act

/-- The steps of a schedule. -/
def trace (cfg : Cfg) (s : St) : List Act → List Step
  | [] => []
  | a :: as => ⟨s, a⟩ :: (match step cfg s a with
    | none => []
    | some s' => trace cfg s' as)

/-- Is it a step of the watching thread? All calls of the callback are. -/
def Step.worker (x : Step) : Bool := match x.act with
  | .o | .oClose | .oDtor => false
  | _ => true

/-- The result is set: the watching thread's function has returned. -/
def Step.publishes (x : Step) : Prop := x.act = .w ∧ ∃ r, x.before.w = .setFut r

/-- The owner has waited for the result: in `get()`, or in the destructor of the future. -/
def Step.obtains (x : Step) : Prop :=
  x.act = .o ∧ (x.before.o = .closing .get ∨ x.before.o = .dtorClosing .get ∨ (x.before.o = .dtorFuture ∧ x.before.valid = true))

/-- The step with number `i` happens before the one with number `j`. -/
def HB (t : List Step) : Nat → Nat → Prop := Happens Step.worker (fun x y => x.publishes ∧ y.obtains) t

/-- A `close()` of the owner returns in this step. -/
def Step.closes (cfg : Cfg) (x : Step) : Prop := ∃ s' b, step cfg x.before x.act = some s' ∧ s'.log = x.before.log ++ [.closeRet b]

/-- The destructor returns in this step. -/
def Step.destroys (cfg : Cfg) (x : Step) : Prop := ∃ s', step cfg x.before x.act = some s' ∧ s'.log = x.before.log ++ [.dtorRet]

/-- Everything the callback did (and the watching thread as a whole, ever) happens before the step with number `j`. -/
def AllBefore (t : List Step) (j : Nat) : Prop := ∀ i x, t[i]? = some x → x.worker = true → HB t i j

end Verif.Spec.Mem
