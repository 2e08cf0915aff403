import Verif.Model.Lifecycle
/-!
# What a user sees of a watcher's life

Only the observation log (`Obs`) and the event type are used here.
-/

namespace Verif.Spec
open Verif Verif.Model Verif.Model.Life

/-- The events the callback has received, oldest first. -/
def callbacks : List Obs → List Ev
  | [] => []
  | .cb e :: l => e :: callbacks l
  | _ :: l => callbacks l

/-- `s/self/live@path` or `e/self/live@path`, a create event of path type watcher. -/
def liveMsg (path : Str) (ok : Bool) : Ev :=
  ⟨(if ok then b!"s" else b!"e") ++ b!"/self/live@" ++ path, .create, .watcher, none⟩

/-- `s/self/die@path` or `e/self/die@path`, a destroy event of path type watcher. -/
def dieMsg (path : Str) (ok : Bool) : Ev :=
  ⟨(if ok then b!"s" else b!"e") ++ b!"/self/die@" ++ path, .destroy, .watcher, none⟩

/-- Neither a live nor a die message: a file event, or another message. -/
def Between (e : Ev) : Prop := e.ptype ≠ .watcher ∨ e.effect = .other

/-- An error announcement: a watcher message whose text begins with `e`. -/
def IsErrorMsg (e : Ev) : Prop := e.ptype = .watcher ∧ e.path.head? = some 101

/-- The callback has received the live message first and no die message. -/
def Begun (path : Str) (l : List Ev) : Prop :=
  ∃ a mids, l = liveMsg path a :: mids ∧ ∀ m ∈ mids, Between m

/-- A complete story: live message, other events, die message. -/
def Ended (path : Str) (live die : Bool) (l : List Ev) : Prop :=
  ∃ mids, l = liveMsg path live :: mids ++ [dieMsg path die] ∧ ∀ m ∈ mids, Between m

/-- Schedules that only move one of the two threads, and so on: what an action belongs to. -/
def isWorker : Act → Bool
  | .o | .oClose | .oDtor => false
  | _ => true

/-- The file system is quiet and callbacks return: wake-ups come from the stop signal only. -/
def Quiet : Act → Prop
  | .wWake items => items = [.il]
  | .cbClose => False
  | _ => True

/-- Deliveries while opening (warnings about directories that cannot be watched). -/
def openCost : Act → Nat
  | .wOpen evs _ => 2 * evs.length
  | _ => 0

end Verif.Spec

namespace Verif.Spec
open Verif Verif.Model Verif.Model.Life

/-- Some `close()` call, or the destructor, has got past its call of `release()`. -/
def ReleaseReturned (s : St) : Prop :=
  (∃ v, s.o = .closing (.check v)) ∨ s.o = .closing .get ∨
  (∃ v, s.o = .dtorClosing (.check v)) ∨ s.o = .dtorClosing .get ∨
  s.o = .dtorFuture ∨ s.o = .dtorFd ∨ s.o = .gone ∨
  (∃ v n, s.w = .selfClose (.check v) n) ∨ (∃ n, s.w = .selfClose .get n) ∨
  ∃ b, Obs.closeRet b ∈ s.log

/-- A status that is no reason to stop: nothing special, or a warning (text beginning with `w`). -/
def Mild (r : Result) : Prop := r = .pending ∨ r.str.head? = some 119

/-- A wake-up without stop signal in which reading succeeded or ended in a warning. -/
def WarnOnly (items : List Item) : Prop := ∀ i ∈ items, ∃ evs r, i = .ke evs r ∧ Mild r

/-- What a wake-up entry delivers. -/
def evsOf : Item → List Ev
  | .ke evs _ => evs
  | _ => []

end Verif.Spec
