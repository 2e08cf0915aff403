import Verif.Model.Semabin
import Verif.Model.Warthog
import Verif.Model.Windows
/-!
# The life of a `watch` object on Windows and with the portable scanner, as two interleaved threads

Models `include/wtr/watcher.hpp` lines 2239-2282 (`class watch`) with the stop signal of lines 459-465 (an atomic
flag) and a back end that asks for the flag between its turns: `watch` of Windows (1939-1970) or of the scanner
(2161-2181). Linux is in `Model/Lifecycle.lean`, Darwin in `Model/DarwinLife.lean`.

Every load and store of shared state is a step of its own, and every call of the callback is two (call and
return), so that all interleavings of owner and worker are executions of `step`. What the threads do not decide
themselves (the system's answers, whether a callback returns or calls `close()`) is an input of a step.

Simplifications as in `Model/Lifecycle.lean`: sequentially consistent memory, nobody but the two threads uses the
object, no exceptions leave the callback.
-/

namespace Verif.Model.Poll
open Verif Verif.Model

/-- A back end: what `adapter::watch` does, cut where the stop flag is asked for and where the system answers.
`start` is what comes before the first loop; a `turn` delivers some events and then goes on or returns from
`adapter::watch`. `head` says whether the flag is asked for before the turn. `none`: this answer is not possible, or
the program ends (`std::terminate`) or has no defined behaviour (C50, C69, C70 are about that). -/
structure Backend where
  ε : Type
  σ : Type
  ι : Type
  start : ι → Option (List ε × (σ ⊕ Bool))
  turn : σ → ι → Option (List ε × (σ ⊕ Bool))
  head : σ → Bool

/-- What is handed to the callback: the live message (watcher.hpp:2258-2263: a create event of path type watcher,
"s/self/live@" or "e/self/live@" and the path), the die message (2265-2270: a destroy event of path type watcher), or
what the back end delivers. -/
inductive Msg (ε : Type) where
  | live (ok : Bool)
  | die (ok : Bool)
  | ev (e : ε)
deriving DecidableEq, Repr

/-- Where a `close()` call is, watcher.hpp:2275-2279 and 461. `release()` is one store and answers what it stored,
so it is never an error. -/
inductive ClosePc where
  | store | valid | get
deriving DecidableEq, Repr

/-- Where the worker is, watcher.hpp:2248-2270. -/
inductive WPc (B : Backend) where
  | start
  | check                                          -- `living.state()`, 2257
  | live (pre : Bool)
  | opening                                        -- `adapter::watch` is called
  | deliver (es : List B.ε) (next : B.σ ⊕ Bool)    -- the events of a turn
  | head (s : B.σ)                                 -- before the next turn
  | turn (s : B.σ)
  | die (pre post : Bool)
  | setFut (r : Bool)
  | finished
  | inCb (next : WPc B)
  | selfClose (c : ClosePc) (next : WPc B)

/-- Where the owner is, watcher.hpp:2275-2282. The destructor runs `close()`, then destroys `watching` (waits for
the thread if the result was not fetched), then `living`. -/
inductive OPc where
  | idle
  | closing (c : ClosePc)
  | dtorClosing (c : ClosePc)
  | dtorFuture
  | gone
deriving DecidableEq, Repr

/-- What can be seen from outside. -/
inductive Obs (ε : Type) where
  | cb (m : Msg ε)
  | closeCall
  | closeRet (b : Bool)
  | dtorCall
  | dtorRet
deriving DecidableEq, Repr

structure St (B : Backend) where
  is : SemState := .pending
  fut : Option Bool := none
  valid : Bool := true
  w : WPc B := .start
  o : OPc := .idle
  log : List (Obs B.ε) := []        -- oldest first

/-- Inputs of a step. -/
inductive Act (B : Backend) where
  | w                               -- the worker's next deterministic step
  | sys (i : B.ι)                   -- the system answers the back end
  | cbReturn                        -- the running callback returns
  | cbClose                         -- the running callback calls `close()`
  | o                               -- the owner's next deterministic step
  | oClose                          -- the owner calls `close()`
  | oDtor                           -- the owner destroys the object

variable {B : Backend}

/-- One step of a `close()` call. `none`: blocked. `inr b`: returned `b`. -/
def closeStep (s : St B) : ClosePc → Option (St B × (ClosePc ⊕ Bool))
  -- 461
  | .store => some ({ s with is := .released }, .inl .valid)
  -- 2278: `this->watching.valid() && ...`
  | .valid => if s.valid then some (s, .inl .get) else some (s, .inr false)
  -- 2278: `get()` waits for the result, hands it over and makes the future invalid
  | .get => match s.fut with
    | none => none
    | some b => some ({ s with valid := false }, .inr b)

def callCb (s : St B) (m : Msg B.ε) (next : WPc B) : St B := { s with log := s.log ++ [.cb m], w := .inCb next }

/-- The worker's deterministic steps. `dirOk`: whether `absolute` and `is_directory` succeeded (2253-2256). -/
def wStep (dirOk : Bool) (s : St B) : Option (St B) :=
  match s.w with
  -- 2253-2256: `&&` skips `state()` when the path is not a directory
  | .start => some { s with w := if dirOk then .check else .live false }
  -- 2257 and 463
  | .check => some { s with w := .live (decide (s.is = .pending)) }
  -- 2258-2264
  | .live pre => some (callCb s (.live pre) (if pre then .opening else .die false false))
  | .deliver (e :: es) next => some (callCb s (.ev e) (.deliver es next))
  | .deliver [] (.inl b) => some { s with w := .head b }
  | .deliver [] (.inr r) => some { s with w := .die true r }
  -- the condition of the loop, 1951 and 2175; at its end 1967 and 2180
  | .head b =>
    if B.head b then some { s with w := if s.is = .pending then .turn b else .die true true }
    else some { s with w := .turn b }
  -- 2265-2271
  | .die pre post => some (callCb s (.die post) (.setFut (pre && post)))
  | .setFut r => some { s with fut := some r, w := .finished }
  | .selfClose c next => match closeStep s c with
    | none => none
    | some (s', .inl c') => some { s' with w := .selfClose c' next }
    | some (s', .inr _) => some { s' with w := .inCb next }
  | _ => none

/-- The owner's deterministic steps. -/
def oStep (s : St B) : Option (St B) :=
  match s.o with
  | .closing c => match closeStep s c with
    | none => none
    | some (s', .inl c') => some { s' with o := .closing c' }
    | some (s', .inr b) => some { s' with o := .idle, log := s'.log ++ [.closeRet b] }
  | .dtorClosing c => match closeStep s c with
    | none => none
    | some (s', .inl c') => some { s' with o := .dtorClosing c' }
    | some (s', .inr _) => some { s' with o := .dtorFuture }
  | .dtorFuture =>
    if s.valid then (match s.fut with
      | none => none
      | some _ => some { s with o := .gone, log := s.log ++ [.dtorRet] })
    else some { s with o := .gone, log := s.log ++ [.dtorRet] }
  | _ => none

/-- One step; `none` when the input is not possible in that state. -/
def step (dirOk : Bool) (s : St B) : Act B → Option (St B)
  | .w => wStep dirOk s
  | .sys i => match s.w with
    | .opening => (B.start i).map fun r => { s with w := .deliver r.1 r.2 }
    | .turn b => (B.turn b i).map fun r => { s with w := .deliver r.1 r.2 }
    | _ => none
  | .cbReturn => match s.w with
    | .inCb next => some { s with w := next }
    | _ => none
  | .cbClose => match s.w with
    | .inCb next => some { s with w := .selfClose .store next }
    | _ => none
  | .o => oStep s
  | .oClose => match s.o with
    | .idle => some { s with o := .closing .store, log := s.log ++ [.closeCall] }
    | _ => none
  | .oDtor => match s.o with
    | .idle => some { s with o := .dtorClosing .store, log := s.log ++ [.dtorCall] }
    | _ => none

/-- A whole schedule. -/
def run (dirOk : Bool) (s : St B) : List (Act B) → Option (St B)
  | [] => some s
  | a :: as => match step dirOk s a with
    | none => none
    | some s' => run dirOk s' as

/-- States some schedule leads to. -/
def Reachable (B : Backend) (dirOk : Bool) (s : St B) : Prop := ∃ acts, run dirOk {} acts = some s

/-! ### The two back ends -/

/-- The scanner, watcher.hpp:2161-2181: the loop's body is `tend_bucket`, `scan` and a sleep. The state is the
bucket and whether it was tended; the system's answer is what the file system looks like. -/
def scanner : Backend where
  ε := Ev
  σ := Warthog.Bucket × Bool
  ι := Warthog.World
  start _ := some ([], .inl ([], false))
  turn s w :=
    match if s.2 then Warthog.scan w s.1 else Warthog.tend w s.1 with
    | .done b evs true => some (evs, .inl (b, !s.2))
    | .done _ evs false => some (evs, .inr false)
    | .terminated _ => none
    | .undefined => none
  head s := !s.2

/-- Where `watch` of Windows is: the loop at 1950, the loop at 1951, or the one at 1961 inside it. -/
inductive WinAt where
  | first | outer | inner
deriving DecidableEq, Repr

/-- What the system answers: whether the proxy is valid and the first read's answer (1947-1949), nothing to be
answered, a completion or a failed read (1954-1960), a read's answer (1963). -/
inductive WinAns where
  | opened (valid : Bool) (a : Windows.ReadAnswer)
  | none
  | completion (c : Option (Nat × List Windows.WEv))
  | failed
  | read (a : Windows.ReadAnswer)
deriving DecidableEq, Repr

/-- Windows, watcher.hpp:1939-1970. The state is the proxy (what it said is handed out at once) and the place. -/
def windows : Backend where
  ε := Windows.Said
  σ := Windows.Win × WinAt
  ι := WinAns
  start
    | .opened false _ => some ([], .inr false)                     -- 1948
    | .opened true a =>
      let w := Windows.start a                                     -- 1949
      some (w.said, .inl ({ w with said := [] }, .first))
    | _ => none
  turn s i :=
    let (w, at') := s
    match at', i with
    | .first, .none =>                                             -- 1950
      if w.valid && w.ready != 0 then some ((Windows.send w).said, .inl (w, .first)) else some ([], .inl (w, .outer))
    | .outer, .completion Option.none => some ([], .inl (w, .outer))
    | .outer, .completion (some (n, evs)) =>                       -- 1954-1960
      if w.armed then some ([], .inl ({ w with armed := false, ready := n, evs := evs }, .inner)) else none
    | .outer, .failed => if w.armed then some ([], .inl ({ w with armed := false }, .outer)) else none
    | .inner, .none =>                                             -- 1961, the condition is false
      if w.valid && w.ready != 0 then Option.none else some ([], .inl (w, .outer))
    | .inner, .read a =>                                           -- 1962-1963
      if w.valid && w.ready != 0 then
        let w' := Windows.recv (Windows.send w) a
        some (w'.said, .inl ({ w' with said := [] }, .inner))
      else Option.none
    | _, _ => Option.none
  head s := s.2 == .outer

end Verif.Model.Poll
