import Verif.Model.Lifecycle
import Verif.Model.Bindings
/-!
# A watch behind the C interface, and the Rust and Python objects that own one

Models `watcher-c/src/watcher-c.cpp` lines 36-75 (`wtr_watcher_open`, `wtr_watcher_close`),
`watcher-rs/src/lib.rs` lines 103-149 (`fwd_ev`, `Watch`) and `watcher-py/watcher/watcher.py` lines 153-202
(`Watch`) on top of the two-thread model of a `watch` object (`Model/Lifecycle.lean`): `wtr_watcher_close` is not
one step but a `close()` and, if that answers true, a destructor, and the watcher's thread and the user's
callback run in between.  `Model/Bindings.lean` has the same functions with the C call as one step.

Simplifications: one thread uses the handle (a Rust `Watch` holds a raw pointer, so it is neither `Send` nor
`Sync`; for Python threads see `Model/Bindings.lean`); a Linux watch.
-/

namespace Verif.Model.Handle
open Verif Verif.Model Verif.Model.Life

/-- A handle: the `watch` object it points to, whether its user is inside `wtr_watcher_close`, whether the
object was deleted, and what the calls of `wtr_watcher_close` answered. -/
structure H where
  life : Life.St
  inC : Bool := false
  freed : Bool := false
  rets : List Bool := []
deriving DecidableEq, Repr

/-- `wtr_watcher_open`, watcher-c.cpp:36-67: `new watch(..)`, never null. -/
def hopen (cfg : Cfg) : H := { life := Life.init cfg }

inductive HAct where
  | life (a : Life.Act)    -- a step of the watcher's thread, its callback, or of the C function that is running
  | close                  -- the user calls `wtr_watcher_close`
deriving DecidableEq, Repr

/-- Steps that are not the user's to choose: `close()` and the destructor are only reached through
`wtr_watcher_close`. -/
def inner : Life.Act → Bool
  | .oClose | .oDtor => false
  | _ => true

/-- `wtr_watcher_close`, watcher-c.cpp:72-74, where it goes on when `close()` or the destructor has returned. -/
def settle (cfg : Cfg) (h : H) : H :=
  if !h.inC then h
  else match h.life.o with
  | .idle =>
    -- 72: `if (! ...->close()) return false;`
    if h.life.log.getLast? = some (.closeRet true) then
      -- 73: `delete`
      match Life.step cfg h.life .oDtor with
      | some l => { h with life := l }
      | none => h
    else { h with inC := false, rets := h.rets ++ [false] }
  -- 74: `return true;`
  | .gone => { h with inC := false, freed := true, rets := h.rets ++ [true] }
  | _ => h

/-- One step; `none` when the input is not possible in that state. -/
def hstep (cfg : Cfg) (h : H) : HAct → Outcome (Option H)
  | .life a =>
    if inner a then .ok ((Life.step cfg h.life a).map fun l => settle cfg { h with life := l }) else .ok none
  | .close =>
    if h.inC then .ok none
    else if h.freed then .ub "close() on a deleted watch"
    else .ok ((Life.step cfg h.life .oClose).map fun l => { h with life := l, inC := true })

def hrun (cfg : Cfg) (h : H) : List HAct → Outcome (Option H)
  | [] => .ok (some h)
  | a :: as => do
    match ← hstep cfg h a with
    | none => pure none
    | some h' => hrun cfg h' as

/-! ### Rust -/

/-- What `poll_next` answers, lib.rs:140-142. -/
inductive Polled where
  | event (e : Bind.RsEvent)
  | pending
  | ended
deriving DecidableEq, Repr

/-- What the running call is. -/
inductive Call where
  | close | drop
deriving DecidableEq, Repr

/-- A Rust `Watch`. `senders`: how many senders of its channel exist (`tx`, 109-114); `gone`: it was dropped and its
fields freed; `chan`: sent and not yet received. -/
structure RS where
  h : H
  call : Option Call := none
  senders : Nat := 1
  gone : Bool := false
  chan : List Bind.RsEvent := []
  polls : List Polled := []
deriving DecidableEq, Repr

inductive RAct where
  | life (a : Life.Act) (now inner : Int)   -- see `HAct.life`; if it calls the callback, with the clock's readings
  | close
  | drop
  | poll
deriving DecidableEq, Repr

/-- The callbacks of a step. -/
def newCbs (old new : List Obs) : List Ev :=
  (new.drop old.length).filterMap fun | .cb e => some e | _ => none

/-- What `fwd_ev` makes of an event, lib.rs:103-106, watcher-c.cpp:41-65. -/
def rsOf (utf8 : Str → Bool) (now inner : Int) (e : Ev) : Bind.RsEvent := Bind.rsEvent utf8 (Bind.cView (e.stamp now inner))

/-- `Watch::try_new`, lib.rs:117-127. -/
def rnew (cfg : Cfg) : RS := { h := hopen cfg }

/-- When the C function has returned, `close` has (129-134), and `drop` frees the fields (145-149). -/
def back (r : RS) : RS :=
  if r.h.inC then r
  else match r.call with
  | none => r
  | some .close => { r with call := none }
  | some .drop => { r with call := none, senders := 0, gone := true }

/-- One step. The callback uses `tx` (105-106); while it exists, so does the receiver, and sending succeeds.
A dropped `Watch` cannot be used; `close(&self)` and `poll_next(&mut self)` are not called while another call runs
(one thread). The stream has ended when no sender exists any more. -/
def rstep (utf8 : Str → Bool) (cfg : Cfg) (r : RS) : RAct → Outcome (Option RS)
  | .life a now inner => do
    if a = .cbClose then pure none else
    match ← hstep cfg r.h (.life a) with
    | none => pure none
    | some h =>
      let evs := newCbs r.h.life.log h.life.log
      if !evs.isEmpty && r.gone then .ub "fwd_ev on a freed sender"
      else pure (some (back { r with h := h, chan := r.chan ++ evs.map (rsOf utf8 now inner) }))
  | .close => do
    if r.call ≠ none || r.gone then pure none else
    match ← hstep cfg r.h .close with
    | none => pure none
    | some h => pure (some { r with h := h, call := some .close })
  | .drop => do
    if r.call ≠ none || r.gone then pure none else
    match ← hstep cfg r.h .close with
    | none => pure none
    | some h => pure (some { r with h := h, call := some .drop })
  | .poll =>
    if r.call ≠ none || r.gone then .ok none
    else match r.chan with
    | e :: es => .ok (some { r with chan := es, polls := r.polls ++ [.event e] })
    | [] => .ok (some { r with polls := r.polls ++ [if r.senders = 0 then .ended else .pending] })

def rrun (utf8 : Str → Bool) (cfg : Cfg) (r : RS) : List RAct → Outcome (Option RS)
  | [] => .ok (some r)
  | a :: as => do
    match ← rstep utf8 cfg r a with
    | none => pure none
    | some r' => rrun utf8 cfg r' as

/-! ### Python -/

/-- A Python `Watch` whose constructor succeeded. `attr`: `self._watcher` is a handle; `busy`: a call of `close` is
inside the C function; `last`: it is the one made by `__del__`; `alive`: the object and its `_c_callback` exist;
`told`: what the user's callback was called with. -/
structure PS where
  h : H
  attr : Bool := true
  busy : Bool := false
  last : Bool := false
  alive : Bool := true
  told : List Bind.PyEvent := []
deriving DecidableEq, Repr

inductive PAct where
  | life (a : Life.Act) (now inner : Int)    -- as for Rust; a callback that calls `close` is `cbClose`
  | close                  -- `close`, `__exit__`, `__deinit__`
  | del                    -- `__del__`
deriving DecidableEq, Repr

/-- What `callback_bridge` makes of an event, watcher.py:172-174, watcher-c.cpp:41-65: `none` if it raises an error, which
`ctypes` prints; the user's callback is not called then. -/
def pyOf (utf8 : Str → Bool) (now inner : Int) (e : Ev) : Option Bind.PyEvent := Bind.pyEvent utf8 (Bind.cView (e.stamp now inner))

/-- `Watch.__init__`, watcher.py:166-181. -/
def pnew (cfg : Cfg) : PS := { h := hopen cfg }

/-- watcher.py:190, when the C function has returned; after `__del__` the object is gone. -/
def pback (p : PS) : PS :=
  if p.h.inC then p
  else if p.busy then { p with attr := false, busy := false, alive := !p.last } else p

/-- One step. `close`: watcher.py:183-190. Simplification: a callback that calls `close` (183-190) does so on the
watcher's own thread and is handled as `cbClose` of the object. -/
def pstep (utf8 : Str → Bool) (cfg : Cfg) (p : PS) : PAct → Outcome (Option PS)
  | .life a now inner => do
    match ← hstep cfg p.h (.life a) with
    | none => pure none
    | some h =>
      let evs := newCbs p.h.life.log h.life.log
      if !evs.isEmpty && !p.alive then .ub "callback of a deleted object"
      else pure (some (pback { p with h := h, told := p.told ++ evs.filterMap (pyOf utf8 now inner) }))
  | .close => do
    if p.busy || !p.alive then pure none
    else if !p.attr then pure (some p)
    else match ← hstep cfg p.h .close with
    | none => pure none
    | some h => pure (some { p with h := h, busy := true })
  | .del => do
    if p.busy || !p.alive then pure none
    else if !p.attr then pure (some { p with alive := false })
    else match ← hstep cfg p.h .close with
    | none => pure none
    | some h => pure (some { p with h := h, busy := true, last := true })

def prun (utf8 : Str → Bool) (cfg : Cfg) (p : PS) : List PAct → Outcome (Option PS)
  | [] => .ok (some p)
  | a :: as => do
    match ← pstep utf8 cfg p a with
    | none => pure none
    | some p' => prun utf8 cfg p' as

end Verif.Model.Handle
