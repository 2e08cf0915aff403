import Verif.Model.Semabin
/-!
# `close()` from several threads

Models `watch::close`, `include/wtr/watcher.hpp` lines 2275-2279, called on one object by any number of the user's threads, at the
level of the C++ memory model: `semabin::is` is an atomic (390-466), the `std::future` member `watching` (2243) is not, so two accesses
to it of which one is a write must be ordered by synchronisation, otherwise the behaviour is undefined. What a thread knows of
(`seen`) are the accesses that happen before its next step. Simplifications: the watching thread is anything that
reads and writes `is` and ends with some result; what it does is in `Model/Lifecycle.lean`. The destructor is not called meanwhile.
-/

namespace Verif.Model.Thr
open Verif Verif.Model

/-- The three `semabin`s, watcher.hpp:395, 436, 459. -/
inductive Plat where
  | linux | darwin | other
deriving DecidableEq, Repr

/-- Where a thread is in `close()`. -/
inductive Pc where
  | out           -- not in it
  | enter         -- 2277: before the first use of `is` in `release()`
  | write         -- 412: `is` was not released
  | valid         -- 2278: before `watching.valid()`
  | get           -- 2278: before `watching.get()`
  | wait          -- inside `get()`
  | ret (b : Bool)  -- about to return
deriving DecidableEq, Repr

/-- What can be seen from outside. -/
inductive Obs where
  | call (t : Nat)
  | ret (t : Nat) (b : Bool)
deriving DecidableEq, Repr

/-- The object and its threads. Accesses to `watching` are numbered; `acc` tells for each whether it is a write. `atom`: what
the last store to `is` published; `lseen`: what the last unlocking of the user's mutex published; `wseen`: what the
watching thread knows of. -/
structure St where
  is : SemState := .pending
  atom : List Nat := []
  future : Bool := true
  result : Option Bool := none
  holder : Option Nat := none
  lseen : List Nat := []
  wseen : List Nat := []
  pc : Nat → Pc := fun _ => .out
  seen : Nat → List Nat := fun _ => []
  acc : List Bool := []
  log : List Obs := []

inductive Act where
  | call (t : Nat)                  -- `t` calls `close()`
  | step (t : Nat) (ok : Bool)      -- `t` goes on; `ok`: whether `eventfd_write` succeeds, if it is called
  | lock (t : Nat)                  -- `t` takes the user's mutex
  | unlock (t : Nat)
  | wload                           -- the watching thread reads `is` (428)
  | wstore (v : SemState)           -- the watching thread writes `is` (431)
  | wend (r : Bool)                 -- the watching thread's function returns (2271)
deriving DecidableEq, Repr

/-- `f` changed at `t`. -/
def upd {α} (f : Nat → α) (t : Nat) (a : α) : Nat → α := fun u => if u = t then a else f u

/-- The thread `t` uses `watching`: a data race if an earlier access, one of the two being a write, does not happen before this one. -/
def access (t : Nat) (w : Bool) (s : St) : Outcome St :=
  if (List.range s.acc.length).all (fun i => !(w || s.acc.getD i false) || (s.seen t).contains i) then
    .ok { s with acc := s.acc ++ [w], seen := upd s.seen t (s.seen t ++ [s.acc.length]) }
  else .ub "data race"

/-- The first use of `is` in `release()`: on Linux a load (409), on Darwin a compare-and-exchange (443-447: release if
it succeeds, which continues the release sequence; acquire if not), elsewhere a store (461). -/
def enter (p : Plat) (t : Nat) (s : St) : St :=
  match p with
  | .linux => { s with seen := upd s.seen t (s.seen t ++ s.atom), pc := upd s.pc t (if s.is = .released then .valid else .write) }
  | .darwin =>
    if s.is = .pending then { s with is := .released, atom := s.atom ++ s.seen t, pc := upd s.pc t .valid }
    else { s with seen := upd s.seen t (s.seen t ++ s.atom), pc := upd s.pc t .valid }
  | .other => { s with is := .released, atom := s.seen t, pc := upd s.pc t .valid }

/-- `close()` goes on, watcher.hpp:2277-2278. `none`: it waits. -/
def cstep (p : Plat) (t : Nat) (ok : Bool) (s : St) : Outcome (Option St) :=
  match s.pc t with
  | .out => .ok none
  | .enter => .ok (some (enter p t s))
  -- 401-407, 412
  | .write =>
    if ok then .ok (some { s with is := .released, atom := s.seen t, pc := upd s.pc t .valid })
    else .ok (some { s with is := .error, atom := s.seen t, pc := upd s.pc t (.ret false) })
  | .valid => do
    let s ← access t false s
    pure (some { s with pc := upd s.pc t (if s.future then .get else .ret false) })
  | .get => do
    let s ← access t false s
    pure (some { s with pc := upd s.pc t .wait })
  -- The shared state is ready, and the future gives it up.
  | .wait =>
    match s.result with
    | none => .ok none
    | some r => do
      let s ← access t true { s with seen := upd s.seen t (s.seen t ++ s.wseen) }
      pure (some { s with future := false, pc := upd s.pc t (.ret r) })
  | .ret b => .ok (some { s with log := s.log ++ [.ret t b], pc := upd s.pc t .out })

/-- One step; `none`: not possible now. -/
def step (p : Plat) (s : St) : Act → Outcome (Option St)
  | .call t => if s.pc t = .out then .ok (some { s with log := s.log ++ [.call t], pc := upd s.pc t .enter }) else .ok none
  | .step t ok => cstep p t ok s
  | .lock t =>
    if s.pc t = .out ∧ s.holder = none then .ok (some { s with holder := some t, seen := upd s.seen t (s.seen t ++ s.lseen) }) else .ok none
  | .unlock t => if s.pc t = .out ∧ s.holder = some t then .ok (some { s with holder := none, lseen := s.seen t }) else .ok none
  | .wload => .ok (some { s with wseen := s.wseen ++ s.atom })
  | .wstore v => .ok (some { s with is := v, atom := s.wseen })
  | .wend r => if s.result = none then .ok (some { s with result := some r }) else .ok none

def run (p : Plat) (s : St) : List Act → Outcome (Option St)
  | [] => .ok (some s)
  | a :: as => do
    match ← step p s a with
    | none => pure none
    | some s' => run p s' as

end Verif.Model.Thr
