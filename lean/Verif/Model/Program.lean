import Verif.Model.Handle
import Verif.Model.Cli
import Verif.Model.Text
/-!
# The command line programs while they watch

Models the last lines of `src/wtr/watcher/main.cpp` (110-122) and `src/wtr/tiny_watcher/main.cpp` (25-36), and
`watcher-rs/src/main.rs` (5-17), on top of the two-thread model of a `watch` object (`Model/Lifecycle.lean`): what
is printed, and when and how the program ends. `Model/Cli.lean` has the same programs up to the point where the
watch is opened, with the answer of `close()` as an input.

Simplifications: a Linux watch; printing does not fail; the main thread waits for the end of the time or the input,
which may come at any moment; `std::endl` writes the line at once.
-/

namespace Verif.Model.Prog
open Verif Verif.Model Verif.Model.Life

/-- Where the main thread is: waiting for input or for the time to pass, inside `w.close()`, destroying `w` with
the exit status known, gone. -/
inductive Phase where
  | waiting
  | closing
  | leaving (code : Nat)
  | exited (code : Nat)
deriving DecidableEq, Repr

/-- A program: its `watch`, its main thread, the lines it has printed. -/
structure P where
  life : Life.St
  phase : Phase := .waiting
  out : List Str := []
deriving DecidableEq, Repr

/-- main.cpp:116, after `watch(*args->path, cb)`. -/
def start (cfg : Cfg) : P := { life := Life.init cfg }

inductive PAct where
  | life (a : Life.Act) (now inner : Int)   -- a step of either thread inside the library; if it calls the callback, with the clock's readings
  | go                                      -- `cin.get()` or `sleep_for` has returned (117-118)
deriving DecidableEq, Repr

/-- What the main thread goes on with when a library function has returned: main.cpp:119 `return ! w.close();`, then the
destructor of `w`; tiny_watcher/main.cpp:35 `return watcher.close() ? 0 : 1;`. -/
def settle (cfg : Cfg) (p : P) : P :=
  match p.phase, p.life.o with
  | .closing, .idle =>
    match Life.step cfg p.life .oDtor with
    | some l => { p with life := l, phase := .leaving (if p.life.log.getLast? = some (.closeRet true) then 0 else 1) }
    | none => p
  | .leaving c, .gone => { p with phase := .exited c }
  | _, _ => p

/-- One step. `fmt` is the text of an event, its line end included: main.cpp:112 (`json`) or tiny_watcher/main.cpp:16-23.
The callback only prints, so it does not close (`cbClose`). -/
def pstep (fmt : Event → Str) (cfg : Cfg) (p : P) : PAct → Option P
  | .life a now inner =>
    match p.phase with
    | .exited _ => none
    | _ =>
      if Handle.inner a && a != .cbClose then
        (Life.step cfg p.life a).map fun l =>
          settle cfg { p with
            life := l
            out := p.out ++ (Handle.newCbs p.life.log l.log).map fun e => fmt (e.stamp now inner) }
      else none
  | .go =>
    match p.phase with
    | .waiting => (Life.step cfg p.life .oClose).map fun l => { p with life := l, phase := .closing }
    | _ => none

def prun (fmt : Event → Str) (cfg : Cfg) (p : P) : List PAct → Option P
  | [] => some p
  | a :: as => match pstep fmt cfg p a with
    | none => none
    | some p' => prun fmt cfg p' as

/-- The line of the full program, main.cpp:112. -/
def jsonLine (e : Event) : Str := cliJson e ++ b!"\n"

/-! ### The Rust program -/

/-- Where `main` of main.rs is: in `select!` (13-16); dropping its branches and with them the `Watch`; returning,
while the process still runs for a moment. -/
inductive RPhase where
  | selecting
  | leaving
  | returning
deriving DecidableEq, Repr

structure RP where
  rs : Handle.RS
  phase : RPhase := .selecting
  out : List Bind.RsEvent := []   -- the events printed (8)
deriving DecidableEq, Repr

inductive RPAct where
  | life (a : Life.Act) (now inner : Int)
  | poll       -- `for_each` asks the stream
  | ctrlC      -- `ctrl_c()` is ready, and `select!` takes it
deriving DecidableEq, Repr

def rstart (cfg : Cfg) : RP := { rs := Handle.rnew cfg }

/-- One step. When `for_each` has finished or Ctrl-C came, `select!` drops both branches, and the `Watch` with
them; then `main` returns `Ok`. -/
def rpstep (utf8 : Str → Bool) (cfg : Cfg) (p : RP) : RPAct → Outcome (Option RP)
  | .life a now inner => do
    match ← Handle.rstep utf8 cfg p.rs (.life a now inner) with
    | none => pure none
    | some rs => pure (some { p with rs := rs, phase := if rs.gone then .returning else p.phase })
  | .poll =>
    match p.phase with
    | .selecting => do
      match ← Handle.rstep utf8 cfg p.rs .poll with
      | none => pure none
      | some rs =>
        match rs.polls.getLast? with
        | some (.event e) => pure (some { p with rs := rs, out := p.out ++ [e] })
        | some .ended => do
          match ← Handle.rstep utf8 cfg rs .drop with
          | none => pure none
          | some rs => pure (some { p with rs := rs, phase := .leaving })
        | _ => pure (some { p with rs := rs })
    | _ => .ok none
  | .ctrlC =>
    match p.phase with
    | .selecting => do
      match ← Handle.rstep utf8 cfg p.rs .drop with
      | none => pure none
      | some rs => pure (some { p with rs := rs, phase := .leaving })
    | _ => .ok none

def rprun (utf8 : Str → Bool) (cfg : Cfg) (p : RP) : List RPAct → Outcome (Option RP)
  | [] => .ok (some p)
  | a :: as => do
    match ← rpstep utf8 cfg p a with
    | none => pure none
    | some p' => rprun utf8 cfg p' as

end Verif.Model.Prog
