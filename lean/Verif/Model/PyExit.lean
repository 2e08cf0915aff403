import Verif.Model.Handle
/-!
# A Python program that ends while it has a `Watch`

Models `watcher-py/watcher/watcher.py` lines 153-202 (`Watch`) together with the end of the interpreter: a global name holds
the object, and the program comes to its end, with or without having closed the watch. The documentation (157-158) says that
closing is not needed. On top of the `Watch` of `Model/Handle.lean`.

Not code of the repository: the interpreter. When the main thread has ended, the interpreter declares that it is finalizing, and then deletes
what global names hold, so that `__del__` (192-193) runs in the main thread. A call through `ctypes.CDLL` gives the interpreter lock away,
and a callback has to take it. A thread that asks for the lock of a finalizing interpreter does not get it any more: it waits
for ever (Python 3.14), or is ended on the spot by `pthread_exit` (before), which the C++ functions, being `noexcept`, do not survive; this model
is of the former. So from then on the callback can neither begin nor return.

Simplifications: one thread uses the object, besides the watcher's; a Linux watch.
-/

namespace Verif.Model.PyExit
open Verif Verif.Model Verif.Model.Life

/-- Where the interpreter is. -/
inductive Phase where
  | running
  | finalizing
  | exited
deriving DecidableEq, Repr

structure X where
  ps : Handle.PS
  phase : Phase := .running
deriving DecidableEq, Repr

inductive XAct where
  | life (a : Life.Act) (now inner : Int)   -- a step of either thread inside the library, or of the callback
  | close                                   -- the program calls `close`, or leaves a `with` block
  | finish                                  -- the program's last line has been executed
deriving DecidableEq, Repr

/-- `Watch(path, callback)`, watcher.py:166-181. -/
def xnew (cfg : Cfg) : X := { ps := Handle.pnew cfg }

/-- The process ends when the object is gone. -/
def xsettle (x : X) : X :=
  match x.phase with
  | .finalizing => if x.ps.alive then x else { x with phase := .exited }
  | _ => x

/-- Does the watcher's thread need the interpreter lock for this step: to begin a callback or to return from one
(watcher.py:172-174)? -/
def needsLock (x : X) (a : Life.Act) (q : Handle.PS) : Bool :=
  a == .cbReturn || a == .cbClose || !(Handle.newCbs x.ps.h.life.log q.h.life.log).isEmpty

/-- One step; `none` when it is not possible in that state. -/
def xstep (utf8 : Str → Bool) (cfg : Cfg) (x : X) : XAct → Outcome (Option X)
  | .life a now inner =>
    match x.phase with
    | .exited => .ok none
    | .running => do
      match ← Handle.pstep utf8 cfg x.ps (.life a now inner) with
      | none => pure none
      | some q => pure (some { x with ps := q })
    | .finalizing => do
      match ← Handle.pstep utf8 cfg x.ps (.life a now inner) with
      | none => pure none
      | some q => if needsLock x a q then pure none else pure (some (xsettle { x with ps := q }))
  | .close =>
    match x.phase with
    | .running => do
      match ← Handle.pstep utf8 cfg x.ps .close with
      | none => pure none
      | some q => pure (some { x with ps := q })
    | _ => .ok none
  | .finish =>
    match x.phase with
    | .running => do
      match ← Handle.pstep utf8 cfg x.ps .del with
      | none => pure none
      | some q => pure (some (xsettle { ps := q, phase := .finalizing }))
    | _ => .ok none

def xrun (utf8 : Str → Bool) (cfg : Cfg) (x : X) : List XAct → Outcome (Option X)
  | [] => .ok (some x)
  | a :: as => do
    match ← xstep utf8 cfg x a with
    | none => pure none
    | some x' => xrun utf8 cfg x' as

end Verif.Model.PyExit
