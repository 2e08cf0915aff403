import Verif.Model.Handle
/-!
# The Python program while it watches

Models the last lines of `watcher-py/watcher/watcher.py` (204-213), the program run by `python -m watcher.watcher` or as a
script, on top of the Python `Watch` of `Model/Handle.lean`: what is printed, and when and how the program ends.

Simplifications: a Linux watch; the library was loaded (for that see `Model/PyLoad.lean`); the standard output takes what is
printed and encodes it as UTF-8; a program that an interrupt ends has status 130, as a shell shows it; an interrupt comes while
`input()` waits, not inside `close`.
-/

namespace Verif.Model.PyProg
open Verif Verif.Model Verif.Model.Life

/-- How `input()` ends, watcher.py:213: a line came; there is no input any more (`EOFError`); an interrupt
(`KeyboardInterrupt`). -/
inductive Came where
  | line
  | eof
  | interrupt
deriving DecidableEq, Repr

/-- The exit status of the interpreter: 0, or 1 after an error nobody caught, or 130 after an interrupt. `__exit__`
(watcher.py:201-202) returns `None`, so the error goes on after it. -/
def status : Came → Nat
  | .line => 0
  | .eof => 1
  | .interrupt => 130

/-- Where the main thread is: in `input()` (213); in `__exit__` (201-202) and `__del__` (192-193); gone,
while the process still runs for a moment. -/
inductive Phase where
  | waiting
  | leaving (code : Nat)
  | exited (code : Nat)
deriving DecidableEq, Repr

/-- A program: its `Watch`, its main thread, the texts it has printed. -/
structure Py where
  ps : Handle.PS
  phase : Phase := .waiting
  out : List Str := []
deriving DecidableEq, Repr

/-- What is watched, watcher.py:205 and 177: the first argument, or `.`. `none`: the argument is not UTF-8, so encoding it
raises an error, and the program ends with status 1 and no watch. -/
def pyPath (utf8 : Str → Bool) (args : List Str) : Option Str :=
  let at_ := match args with | a :: _ => a | [] => b!"."
  if utf8 at_ then some at_ else none

/-- watcher.py:211, after `Watch(events_at, show)` and `__enter__` (198-199). -/
def pystart (cfg : Cfg) : Py := { ps := Handle.pnew cfg }

/-- `show`, watcher.py:207-209: `print` adds a line end. -/
def pyLine (e : Bind.PyEvent) : Str := Bind.pyJson e ++ b!"\n"

inductive PyAct where
  | life (a : Life.Act) (now inner : Int)   -- a step of either thread inside the library; if it calls the callback, with the clock's readings
  | came (c : Came)                         -- `input()` has ended
deriving DecidableEq, Repr

/-- When `__exit__` has returned, nobody holds the object any more, so `__del__` runs (192-193), and the program ends. -/
def pysettle (utf8 : Str → Bool) (cfg : Cfg) (p : Py) : Outcome (Option Py) :=
  match p.phase with
  | .leaving c =>
    if p.ps.busy then .ok (some p)
    else do
      match ← Handle.pstep utf8 cfg p.ps .del with
      | none => pure none
      | some q => pure (some { p with ps := q, phase := .exited c })
  | _ => .ok (some p)

/-- A step inside the library. `show` is called once for each event the bridge could turn into a Python event. -/
def pyinside (utf8 : Str → Bool) (cfg : Cfg) (p : Py) (a : Life.Act) (now inner : Int) : Outcome (Option Py) := do
  match ← Handle.pstep utf8 cfg p.ps (.life a now inner) with
  | none => pure none
  | some q => pysettle utf8 cfg { p with ps := q, out := p.out ++ (q.told.drop p.ps.told.length).map pyLine }

/-- `input()` has ended; `__exit__` begins, watcher.py:201-202. -/
def pyleave (utf8 : Str → Bool) (cfg : Cfg) (p : Py) (c : Came) : Outcome (Option Py) := do
  match ← Handle.pstep utf8 cfg p.ps .close with
  | none => pure none
  | some q => pysettle utf8 cfg { p with ps := q, phase := .leaving (status c) }

/-- One step. `show` only prints, so it does not close (`cbClose`). When the main
thread has ended, the process may run for a moment. -/
def pystep (utf8 : Str → Bool) (cfg : Cfg) (p : Py) : PyAct → Outcome (Option Py)
  | .life a now inner =>
    if a = .cbClose then .ok none else pyinside utf8 cfg p a now inner
  | .came c =>
    match p.phase with
    | .waiting => pyleave utf8 cfg p c
    | _ => .ok none

def pyrun (utf8 : Str → Bool) (cfg : Cfg) (p : Py) : List PyAct → Outcome (Option Py)
  | [] => .ok (some p)
  | a :: as => do
    match ← pystep utf8 cfg p a with
    | none => pure none
    | some p' => pyrun utf8 cfg p' as

end Verif.Model.PyProg
