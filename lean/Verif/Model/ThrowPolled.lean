import Verif.Model.Polled
/-!
# Callbacks that throw, on Windows and with the portable scanner

`adapter::watch` is `noexcept` there (`include/wtr/watcher.hpp` 1944, 2164), and so are all functions through which it calls the callback
(1844, 2011, 2091): an exception that leaves the callback while an event is told ends the program at once. The live and the die message are sent by the body of `std::async`
(2248-2272), which is not `noexcept`: there the exception is stored in the future, the thread ends, and `watching.get()` (2278) rethrows it out of `close()` or
the destructor (2275-2281), which are `noexcept`.

Simplification: on Windows the last step of the destructor is not separate (see `Model/Polled.lean`).
-/

namespace Verif.Model.Poll
open Verif Verif.Model

variable {B : Backend}

/-- A watch whose callback may throw. -/
structure XSt (B : Backend) where
  life : St B := {}
  exc : Bool := false     -- the future holds an exception
  dead : Bool := false    -- `std::terminate` has been called

/-- Inputs of a step. -/
inductive XAct (B : Backend) where
  | life (a : Act B)
  | throw                 -- the running callback throws

/-- Is the owner about to take the result (2278)? -/
def atGet : OPc → Bool
  | .closing .get => true
  | .dtorClosing .get => true
  | _ => false

/-- Is this the owner's own next step? -/
def Act.isO : Act B → Bool
  | .o => true
  | _ => false

/-- The callback throws. While events are delivered the exception meets a `noexcept` function (1944, 2164); from the live and the die message it leaves the
body (2248-2272) and is stored, and the thread has ended. -/
def throwStep (x : XSt B) : Option (XSt B) :=
  match x.life.w with
  | .inCb (.deliver _ _) => some { x with dead := true }
  | .inCb _ => some { x with life := { x.life with w := .finished, fut := some false }, exc := true }
  | _ => none

/-- One step; a program that has been terminated has none. -/
def xstep (dirOk : Bool) (x : XSt B) : XAct B → Option (XSt B)
  | .throw => if x.dead then none else throwStep x
  | .life a =>
    if x.dead then none
    -- 2278: `get` rethrows, out of a `noexcept` function
    else if x.exc && atGet x.life.o && a.isO then some { x with dead := true }
    else (step dirOk x.life a).map fun l => { x with life := l }

/-- A whole schedule. -/
def xrun (dirOk : Bool) (x : XSt B) : List (XAct B) → Option (XSt B)
  | [] => some x
  | a :: as => match xstep dirOk x a with
    | none => none
    | some x' => xrun dirOk x' as

/-- States some schedule leads to. -/
def XReach (dirOk : Bool) (x : XSt B) : Prop := ∃ acts, xrun dirOk {} acts = some x

end Verif.Model.Poll
