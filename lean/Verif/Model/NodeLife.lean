import Verif.Model.Handle
/-!
# A watch in Node.js, with the threads inside

`watcher-nodejs/lib/watcher-napi.cpp` and `watcher-nodejs/lib/watcher.ts` around the C handle of `Model/Handle.lean`: the
watcher's thread hands copies of its events to a queue, the JavaScript thread takes them out of it and calls the callback
of the user, and `close()` runs on the JavaScript thread, inside that callback or not.

Simplifications: a Linux watch; the functions of Node-API succeed, except `napi_call_threadsafe_function` on a full queue;
the callback of the user does not throw; JavaScript is one thread, so nothing is taken from the queue while it is inside the
callback or inside `close()`. A thread-safe function that was released still works off its queue (documentation of
`napi_release_threadsafe_function`).
-/

namespace Verif.Model.NodeLife
open Verif Verif.Model Verif.Model.Life Verif.Model.Handle

/-- Where the JavaScript thread is: in code or the event loop, in the callback of the user, in `close()` (called from the
callback or not). -/
inductive Js where
  | idle
  | inCb
  | closing (fromCb : Bool)
deriving DecidableEq, Repr

/-- What can be seen: the library called `callback_bridge` with an event and the clock's reading; the callback of the user
was called; it returned; `close()` was called; it returned. -/
inductive NObs where
  | came (e : Ev) (now : Int)
  | told (j : Bind.JsEvent)
  | returned
  | closeCall
  | closeRet (b : Bool)
deriving DecidableEq, Repr

/-- A watch. `set`: `watcher` and `typedCb` of watcher.ts:39-49 are not null; `freed`: `watcher_lifetime` was freed; `queue`: copies in
the queue of the thread-safe function; `copies`: how many copies are allocated; `log`: what happened, oldest first. -/
structure NS where
  h : H
  set : Bool := true
  js : Js := .idle
  freed : Bool := false
  queue : List Bind.JsEvent := []
  copies : Nat := 0
  log : List NObs := []
deriving DecidableEq, Repr

/-- `watch`, watcher-napi.cpp:127-170, watcher.ts:38-49. -/
def nnew (cfg : Cfg) : NS := { h := hopen cfg }

inductive NAct where
  | life (a : Life.Act) (now inner : Int)   -- see `HAct.life`; if it calls the callback, with the clock's readings
  | take                                    -- the event loop takes a copy and calls the callback
  | done                                    -- the callback returns
  | close                                   -- JavaScript calls `close()`
deriving DecidableEq, Repr

/-- What JavaScript will see of an event: `event_view` (watcher-c.cpp:41-65), then watcher-napi.cpp:25-49 and watcher.ts:39-48. -/
def jsOf (text : Str → Str) (now inner : Int) (e : Ev) : Bind.JsEvent := Bind.jsEvent text (Bind.cView (e.stamp now inner))

/-- `callback_bridge`, watcher-napi.cpp:72-88: a copy is made; a full queue refuses it, which is not noticed. -/
def bridge (text : Str → Str) (now inner : Int) (n : NS) (e : Ev) : NS :=
  { n with
    queue := if n.queue.length < Bind.queueMax then n.queue ++ [jsOf text now inner e] else n.queue
    copies := n.copies + 1
    log := n.log ++ [.came e now] }

/-- When `wtr_watcher_close` has returned: watcher-napi.cpp:103-118 (answer, release, free), watcher.ts:56-58. -/
def back (n : NS) : NS :=
  match n.js with
  | .closing fromCb =>
    if n.h.inC then n
    else { n with
      set := false
      js := if fromCb then .inCb else .idle
      freed := true
      log := n.log ++ [.closeRet (n.h.rets.getLast?.getD false)] }
  | _ => n

/-- One step; `none` when the input is not possible in that state. `callback_bridge` does not call `close`. -/
def nstep (text : Str → Str) (cfg : Cfg) (n : NS) : NAct → Outcome (Option NS)
  | .life a now inner => do
    if a = .cbClose then pure none else
    match ← hstep cfg n.h (.life a) with
    | none => pure none
    | some h =>
      let evs := newCbs n.h.life.log h.life.log
      if !evs.isEmpty && n.freed then .ub "callback_bridge on a freed watcher_lifetime"     -- 74
      else pure (some (back (evs.foldl (bridge text now inner) { n with h := h })))
  -- `callback_js_receiver`, watcher-napi.cpp:54-61
  | .take =>
    match n.js, n.queue with
    | .idle, j :: q => .ok (some { n with js := .inCb, queue := q, log := n.log ++ [.told j] })
    | _, _ => .ok none
  -- watcher-napi.cpp:62-66
  | .done =>
    match n.js with
    | .inCb => .ok (some { n with js := .idle, copies := n.copies - 1, log := n.log ++ [.returned] })
    | _ => .ok none
  -- watcher.ts:51-55, watcher-napi.cpp:94-102
  | .close =>
    match n.js with
    | .closing _ => .ok none
    | _ =>
      if !n.set then .ok (some { n with log := n.log ++ [.closeCall, .closeRet false] })
      else if n.freed then .ub "close on a freed watcher_lifetime"
      else do
        match ← hstep cfg n.h .close with
        | none => pure none
        | some h => pure (some { n with h := h, js := .closing (n.js == .inCb), log := n.log ++ [.closeCall] })

def nrun (text : Str → Str) (cfg : Cfg) (n : NS) : List NAct → Outcome (Option NS)
  | [] => .ok (some n)
  | a :: as => do
    match ← nstep text cfg n a with
    | none => pure none
    | some n' => nrun text cfg n' as

end Verif.Model.NodeLife
