import Verif.Base
/-!
# Loading the library from Python

Models `watcher-py/watcher/watcher.py` lines 13, 30-59 (`_LIB`, `_lazy_static_solib_handle`), 176-181 (`Watch.__init__`) and
183-190 (`close`), for any number of `Watch` objects that are made and closed in different threads. The interpreter switches
between threads only between two of the steps below (the global interpreter lock).
Library behaviour of `ctypes`: a function without `restype` returns an `int`, and a number passed to a function without `argtypes` is passed
as an `int` (32 bits). The missing `wtr_watcher_open.argtypes` and `wtr_watcher_close.restype` make no difference: the
arguments of `open` are bytes, a function and `None`, and the answer of `close` is not used.
-/

namespace Verif.Model.PyLoad
open Verif

/-- A `ctypes.CDLL` object: which of the four attributes (54-57) are set. -/
structure Lib where
  openArgs : Bool := false
  openRes : Bool := false
  closeArgs : Bool := false
  closeRes : Bool := false
deriving DecidableEq, Repr

/-- The `k`-th of the four lines 54-57. -/
def Lib.put (l : Lib) : Nat → Lib
  | 0 => { l with openArgs := true }
  | 1 => { l with openRes := true }
  | 2 => { l with closeArgs := true }
  | 3 => { l with closeRes := true }
  | _ => l

/-- What a number becomes when it is passed through an `int`. -/
def asInt (v : Int) : Int := let r := v % 4294967296; if r < 2147483648 then r else r - 4294967296

/-- Where the making of an object is. -/
inductive Pc where
  | none                            -- not begun
  | check                           -- 52
  | load                            -- 53: `ctypes.CDLL(solib_path())`
  | assign (i : Nat)                -- 53: `_LIB = ...`
  | put (k : Nat)                   -- 54-57
  | ret                             -- 58
  | encode (i : Nat)                -- 177
  | open_ (i : Nat)                 -- 179
  | made (i : Nat) (v : Int)        -- the constructor has returned; `_lib` and `_watcher`
  | closed                          -- `_watcher` is `None`
  | raised                          -- the constructor has raised an error
deriving DecidableEq, Repr

/-- The calls of the C library, and errors. -/
inductive Obs where
  | opened (t : Nat) (p : Int)      -- `wtr_watcher_open` returned `p`
  | close (t : Nat) (p : Int)       -- `wtr_watcher_close` was called with `p`
  | error (t : Nat)                 -- the constructor raised
deriving DecidableEq, Repr

/-- `libs`: the `CDLL` objects made so far; `glob`: `_LIB`; `live`: the watches of the C library. -/
structure St where
  libs : List Lib := []
  glob : Option Nat := none
  live : List Int := []
  pc : Nat → Pc := fun _ => .none
  log : List Obs := []

inductive Act where
  | make (t : Nat)                  -- `Watch(..)` is called
  | step (t : Nat) (ok : Bool) (p : Int)
      -- it goes on; `ok`: the library exists (45-46), the path can be encoded (177); `p`: the address of the new watch
  | close (t : Nat)                 -- `close()`, `__exit__`, `__del__`
deriving DecidableEq, Repr

/-- `s` with the object `t` at `c`. -/
def St.at (s : St) (t : Nat) (c : Pc) : St := { s with pc := fun u => if u = t then c else s.pc u }

/-- The constructor goes on. -/
def cstep (s : St) (t : Nat) (ok : Bool) (p : Int) : Option St :=
  match s.pc t with
  -- 52
  | .check => some (s.at t (if s.glob = none then .load else .ret))
  -- 53
  | .load =>
    if ok then some (({ s with libs := s.libs ++ [{}] } : St).at t (.assign s.libs.length))
    else some (({ s with log := s.log ++ [.error t] } : St).at t .raised)
  | .assign i => some (({ s with glob := some i } : St).at t (.put 0))
  -- 54-57: `_LIB` is looked up in each line
  | .put k =>
    match s.glob with
    | none => none
    | some i => some (({ s with libs := s.libs.modify i (·.put k) } : St).at t (if k < 3 then .put (k + 1) else .ret))
  -- 58
  | .ret =>
    match s.glob with
    | none => none
    | some i => some (s.at t (.encode i))
  -- 177
  | .encode i =>
    if ok then some (s.at t (.open_ i)) else some (({ s with log := s.log ++ [.error t] } : St).at t .raised)
  -- 179-181
  | .open_ i =>
    if 0 < p ∧ p ∉ s.live then
      let v := if (s.libs[i]?.getD {}).openRes then p else asInt p
      let s : St := { s with live := s.live ++ [p], log := s.log ++ [.opened t p] }
      if v = 0 then some (({ s with log := s.log ++ [.error t] } : St).at t .raised) else some (s.at t (.made i v))
    else none
  | _ => none

/-- One step. `none`: not possible now. -/
def step (s : St) : Act → Outcome (Option St)
  | .make t => if s.pc t = .none then .ok (some (s.at t .check)) else .ok none
  | .step t ok p => .ok (cstep s t ok p)
  | .close t =>
    match s.pc t with
    -- 188-190
    | .made i v =>
      let a := if (s.libs[i]?.getD {}).closeArgs then v else asInt v
      if s.live.contains a then
        .ok (some (({ s with live := s.live.erase a, log := s.log ++ [.close t a] } : St).at t .closed))
      else .ub "wtr_watcher_close of no watch"
    | .closed => .ok (some s)
    | _ => .ok none

def run (s : St) : List Act → Outcome (Option St)
  | [] => .ok (some s)
  | a :: as => do
    match ← step s a with
    | none => pure none
    | some s' => run s' as

end Verif.Model.PyLoad
