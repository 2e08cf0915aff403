import Verif.Model.NodeLife
/-!
# The end of a Node.js program, or of one of its Workers, around a watch

`watcher-nodejs/lib/watcher-napi.cpp` lines 72-88 (`callback_bridge`), 92-119 (`close`), 146-157 (the thread-safe function is made with one
thread, no finalizer, and is never unreferenced), 168 (`napi_wrap` without a finalizer): nothing in the binding is told when the
environment ends, so a watch that is open then stays open, and its thread goes on calling `callback_bridge`.

What Node.js does is modelled after its documentation: a thread-safe function keeps the event loop alive until it was released
and has worked off its queue (`napi_create_threadsafe_function`, `napi_unref_threadsafe_function`); when its environment ends, what waits is
given to `callback_js_receiver` with a null environment, which frees the copies (every Node-API call with a null environment fails and changes
nothing); the first `napi_call_threadsafe_function` after that answers `napi_closing`, and then the function must not be used any
more, "because it is no longer guaranteed to be allocated". (This is the kindest reading; before Node.js 22.13 it is freed at once.)

Simplifications: those of `Model/NodeLife.lean`; the program has one watch and nothing else that keeps the event loop alive.
-/

namespace Verif.Model.NodeEnd
open Verif Verif.Model Verif.Model.Life Verif.Model.Handle Verif.Model.NodeLife

/-- A watch in an environment. `kept`: the thread-safe function keeps the event loop alive; `ended`: the environment has ended, by
itself (`true`) or because it was told to (`false`); `late`: the events for which the library called `callback_bridge` after that. -/
structure NE where
  n : NS
  kept : Bool := true
  ended : Option Bool := none
  late : List (Ev × Int) := []
deriving DecidableEq, Repr

/-- `watch`, watcher-napi.cpp:127-170. -/
def enew (cfg : Cfg) : NE := { n := nnew cfg }

inductive EAct where
  | node (a : NAct)        -- what happens in `Model/NodeLife.lean`
  | drop                   -- the event loop finds the released function with nothing waiting and closes its handle
  | empty                  -- the event loop finds nothing that keeps it alive: the environment ends
  | stop                   -- `process.exit()`, `worker.terminate()`, an exception nobody catches
deriving DecidableEq, Repr

/-- `callback_bridge` when the environment has ended, watcher-napi.cpp:72-88: a copy is made, `w->tsfn` is still set; the first call is
answered `napi_closing`, which is not looked at (83). -/
def lateBridge (now : Int) (s : NE) : List Ev → Outcome NE
  | [] => .ok s
  | e :: es =>
    if s.late ≠ [] then .ub "napi_call_threadsafe_function after napi_closing"
    else lateBridge now { s with n := { s.n with copies := s.n.copies + 1 }, late := s.late ++ [(e, now)] } es

/-- A step of the library's threads when the environment has ended. -/
def lateStep (cfg : Cfg) (s : NE) (a : Life.Act) (now : Int) : Outcome (Option NE) := do
  if a = .cbClose then pure none else
  match ← hstep cfg s.n.h (.life a) with
  | none => pure none
  | some h =>
    let evs := newCbs s.n.h.life.log h.life.log
    if !evs.isEmpty && s.n.freed then .ub "callback_bridge on a freed watcher_lifetime"     -- 74
    else do
      let s' ← lateBridge now { s with n := { s.n with h := h } } evs
      pure (some s')

/-- Is the callback of the user running? Its copy of the event is freed when the end of JavaScript unwinds it (watcher-napi.cpp:61-66). -/
def inCbCopies : Js → Nat
  | .inCb => 1
  | _ => 0

/-- JavaScript is not inside `close()`: that is not JavaScript, and cannot be stopped. -/
def stoppable : Js → Bool
  | .closing _ => false
  | _ => true

/-- One step; `none` when the input is not possible in that state. -/
def estep (text : Str → Str) (cfg : Cfg) (s : NE) : EAct → Outcome (Option NE)
  | .node a =>
    if s.ended = none then do
      match ← nstep text cfg s.n a with
      | none => pure none
      | some n => pure (some { s with n := n })
    else
      match a with
      | .life a now _ => lateStep cfg s a now
      | _ => .ok none
  | .drop =>
    if s.ended = none ∧ s.kept = true ∧ s.n.js = .idle ∧ s.n.queue = [] ∧ s.n.freed = true then .ok (some { s with kept := false })
    else .ok none
  | .empty =>
    if s.ended = none ∧ s.kept = false ∧ s.n.js = .idle then .ok (some { s with ended := some true }) else .ok none
  | .stop =>
    if s.ended = none ∧ stoppable s.n.js = true then
      .ok (some { s with
        ended := some false
        n := { s.n with js := .idle, queue := [], copies := s.n.copies - s.n.queue.length - inCbCopies s.n.js } })
    else .ok none

def erun (text : Str → Str) (cfg : Cfg) (s : NE) : List EAct → Outcome (Option NE)
  | [] => .ok (some s)
  | a :: as => do
    match ← estep text cfg s a with
    | none => pure none
    | some s' => erun text cfg s' as

end Verif.Model.NodeEnd
