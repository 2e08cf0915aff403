import Verif.Model.Lifecycle
/-!
# Callbacks that throw, on Linux

The body of `std::async` (`include/wtr/watcher.hpp` 2248-2272) stores an exception that leaves it in the future; no function between the callback
and the body catches one (the Linux adapter, 1037-1724, has no `try`), and none of them is `noexcept`. `watching.get()` (2278) rethrows it, and `close()` and the
destructor (2275-2281) are `noexcept`, so the program ends with `std::terminate`.

Not modelled: the descriptors that the adapter does not close when an exception passes it (1694), and the directory handle of `walkdir_do` (968-984).
On Windows and in the portable adapter `watch` is `noexcept` (1944, 2164): see `Model/ThrowPolled.lean`.
-/

namespace Verif.Model.Life
open Verif Verif.Model

/-- A watch whose callback may throw. -/
structure XSt where
  life : St
  exc : Bool := false     -- the future holds an exception
  dead : Bool := false    -- `std::terminate` has been called
deriving DecidableEq, Repr

/-- Inputs of a step. -/
inductive XAct where
  | life (a : Act)
  | throw          -- the running callback throws
deriving DecidableEq, Repr

/-- Is the owner about to take the result (2278)? -/
def atGet : OPc → Bool
  | .closing .get => true
  | .dtorClosing .get => true
  | _ => false

/-- The callback throws: the exception leaves the body (2248-2272) and is stored; the thread has ended. -/
def throwStep (x : XSt) : Option XSt :=
  match x.life.w with
  | .inCb _ => some { x with life := { x.life with w := .finished, fut := some false }, exc := true }
  | _ => none

/-- One step; a program that has been terminated has none. -/
def xstep (cfg : Cfg) (x : XSt) : XAct → Option XSt
  | .throw => if x.dead then none else throwStep x
  | .life a =>
    if x.dead then none
    -- 2278: `get` rethrows, out of a `noexcept` function
    else if x.exc && atGet x.life.o && decide (a = .o) then some { x with dead := true }
    else (step cfg x.life a).map fun l => { x with life := l }

/-- A whole schedule. -/
def xrun (cfg : Cfg) (x : XSt) : List XAct → Option XSt
  | [] => some x
  | a :: as => match xstep cfg x a with
    | none => none
    | some x' => xrun cfg x' as

/-- Right after construction. -/
def xinit (cfg : Cfg) : XSt := { life := init cfg }

/-- States some schedule leads to. -/
def XReach (cfg : Cfg) (x : XSt) : Prop := ∃ acts, xrun cfg (xinit cfg) acts = some x

end Verif.Model.Life
