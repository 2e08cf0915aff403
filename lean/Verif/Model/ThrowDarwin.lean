import Verif.Model.DarwinLife
/-!
# Callbacks that throw, on Darwin

The live and the die message are sent by the body of `std::async` (`include/wtr/watcher.hpp` 2248-2272): an exception that leaves the callback there is stored in the future, the thread ends,
and `watching.get()` (2278) rethrows it out of `close()` or the destructor (2275-2281), which are `noexcept`. Events are told by `event_recv` (633-652) on a thread of the system; nothing
between the callback and the system catches an exception (542-617, 648-651), and the system does not let one leave a task of a dispatch queue: the program ends (`std::terminate`). That is a
property of the system and not of the code of the watcher.
-/

namespace Verif.Model.DLife
open Verif Verif.Model

/-- A watch whose callback may throw. -/
structure XSt where
  life : St := {}
  exc : Bool := false     -- the future holds an exception
  dead : Bool := false    -- `std::terminate` has been called

/-- Inputs of a step. -/
inductive XAct where
  | life (a : Act)
  | wThrow                -- the callback the worker runs throws
  | kThrow                -- the callback the system's thread runs throws
deriving DecidableEq, Repr

/-- Is the owner about to take the result (2278)? -/
def atGet : OPc → Bool
  | .closing .get => true
  | .dtorClosing .get => true
  | _ => false

/-- The callback throws on the worker's thread, at the live (2258-2263) or the die message (2265-2270): the exception leaves the body (2248-2272) and is stored; the thread has ended. -/
def wThrow (x : XSt) : Option XSt :=
  match x.life.w with
  | .inLive _ => some { x with life := { x.life with w := .finished, fut := some false }, exc := true }
  | .inDie _ _ => some { x with life := { x.life with w := .finished, fut := some false }, exc := true }
  | _ => none

/-- The callback throws on the system's thread (649-651). -/
def kThrow (x : XSt) : Option XSt :=
  match x.life.k with
  | .inCb _ _ => some { x with dead := true }
  | _ => none

/-- One step; a program that has been terminated has none. -/
def xstep (waits dirOk : Bool) (x : XSt) : XAct → Option XSt
  | .wThrow => if x.dead then none else wThrow x
  | .kThrow => if x.dead then none else kThrow x
  | .life a =>
    if x.dead then none
    -- 2278: `get` rethrows, out of a `noexcept` function
    else if x.exc && atGet x.life.o && decide (a = .o) then some { x with dead := true }
    else (step waits dirOk x.life a).map fun l => { x with life := l }

/-- A whole schedule. -/
def xrun (waits dirOk : Bool) (x : XSt) : List XAct → Option XSt
  | [] => some x
  | a :: as => match xstep waits dirOk x a with
    | none => none
    | some x' => xrun waits dirOk x' as

/-- States some schedule leads to. -/
def XReach (waits dirOk : Bool) (x : XSt) : Prop := ∃ acts, xrun waits dirOk {} acts = some x

end Verif.Model.DLife
