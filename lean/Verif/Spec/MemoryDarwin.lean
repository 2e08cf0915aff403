import Verif.Model.DarwinLife
import Verif.Spec.Happens
/-!
# What happens before what, on Darwin (C154)

Counted are the order inside each thread, `std::future`, the mutex of `event_recv` and `close_event_stream` (an unlock synchronizes with later locks), and that
starting a stream happens before the calls the stream makes. Atomics and the semaphore are not counted.
-/

namespace Verif.Spec.MemDarwin
open Verif Verif.Model Verif.Model.DLife Verif.Spec.Mem

/-- A step of a schedule, and the state before it. -/
structure Step where
  before : St
  act : Act

/-- The steps of a schedule; the system waits for its calls to return (see `Model/DarwinLife.lean`). -/
def trace (d : Bool) (s : St) : List Act → List Step
  | [] => []
  | a :: as => ⟨s, a⟩ :: (match step true d s a with
    | none => []
    | some s' => trace d s' as)

/-- A call of `event_recv` gets the mutex in this step. -/
def Step.enters (d : Bool) (x : Step) : Bool := match step true d x.before x.act with
  | none => false
  | some s' => decide (x.before.taken.length < s'.taken.length)

/-- The threads: the owner, the watching thread, one for each call of `event_recv` that gets the mutex, and the rest of the system. -/
inductive Thread where
  | owner | worker | call (n : Nat) | system
deriving DecidableEq

def Step.thread (d : Bool) (x : Step) : Thread := match x.act with
  | .w | .opened _ | .cbReturn | .cbClose => .worker
  | .k | .kReturn | .kClose => .call x.before.taken.length
  | .tryLock _ => if x.enters d then .call (x.before.taken.length + 1) else .system
  | .notify _ | .enter => .system
  | .o | .oClose | .oDtor => .owner

/-- The result is set: the watching thread's function has returned. -/
def Step.publishes (x : Step) : Prop := x.act = .w ∧ ∃ r, x.before.w = .setFut r

/-- The owner has waited for the result: in `get()`, or in the destructor of the future. -/
def Step.obtains (x : Step) : Prop :=
  x.act = .o ∧ (x.before.o = .closing .get ∨ x.before.o = .dtorClosing .get ∨ (x.before.o = .dtorFuture ∧ x.before.valid = true))

/-- The mutex is given back: by a call of `event_recv`, or by the watching thread. -/
def Step.unlocks (x : Step) : Prop := (x.act = .k ∧ x.before.k = .handling [] []) ∨ (x.act = .w ∧ ∃ ok, x.before.w = .flush ok)

/-- The mutex is taken. -/
def Step.locks (d : Bool) (x : Step) : Prop := x.enters d = true ∨ (x.act = .w ∧ x.before.stream = true ∧ ∃ ok, x.before.w = .close ok)

/-- `x` synchronizes with a later `y`. -/
def Sync (d : Bool) (x y : Step) : Prop := (x.publishes ∧ y.obtains) ∨ (x.unlocks ∧ y.locks d) ∨ (x.act = .opened true ∧ ∃ i, y.act = .tryLock i)

/-- The step with number `i` happens before the one with number `j`. -/
def HB (d : Bool) (t : List Step) : Nat → Nat → Prop := Happens (Step.thread d) (Sync d) t

/-- In this step a callback is called, or returns. Everything a callback does is between two of these, on the same thread. -/
def Step.calls (d : Bool) (x : Step) : Prop := ∃ s', step true d x.before x.act = some s' ∧ ((∃ m, s'.log = x.before.log ++ [.cb m]) ∨ s'.log = x.before.log ++ [.cbRet])

/-- A `close()` of the owner, or the destructor, returns in this step. -/
def Step.ends (d : Bool) (x : Step) : Prop := ∃ s', step true d x.before x.act = some s' ∧ ((∃ b, s'.log = x.before.log ++ [.closeRet b]) ∨ s'.log = x.before.log ++ [.dtorRet])

/-- Everything the callback ever did happens before the step with number `j`. -/
def AllBefore (d : Bool) (t : List Step) (j : Nat) : Prop := ∀ i x, t[i]? = some x → x.calls d → HB d t i j

end Verif.Spec.MemDarwin
