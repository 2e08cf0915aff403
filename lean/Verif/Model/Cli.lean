import Verif.Model.Text
/-!
# The command line programs

Models `src/wtr/watcher/main.cpp` lines 19-122 (`Args::try_parse` and `main`; `json`, lines 92-105, is
in `Verif.Model.Text`) and `src/wtr/tiny_watcher/main.cpp`.
-/

namespace Verif.Model.Cli
open Verif Verif.Model

/-- A double returned by `strtod`, as far as main.cpp:79-83 looks at it: not a number, one of the
infinities, or a finite value (exact). Negative zero is `fin 0`: no comparison tells them apart. -/
inductive Dbl where
  | nan
  | posInf
  | negInf
  | fin (x : Rat)
deriving DecidableEq

/-- What the program asks of the library and the system. -/
structure Env where
  /-- `fs::exists(p)`, main.cpp:60; `none`: it throws (for example `EACCES`). -/
  exist : Str → Option Bool
  /-- `fs::current_path()`, main.cpp:59; `none`: it throws. -/
  cwd : Option Str
  /-- `strtod(st, ...)`, main.cpp:79. The end pointer is never looked at. -/
  strtod : Str → Dbl
  /-- `llroundl`, main.cpp:83, of NaN or of a value that rounds to no `long long`: the C standard
  leaves the result unspecified. -/
  roundBad : Dbl → Int
  /-- What `w.close()` returns, main.cpp:120 (see the lifecycle model for what decides it). -/
  closeOk : Bool

/-- A piece of the program either finishes, dies of an uncaught exception (`std::terminate`), or has
undefined behaviour. -/
inductive Res (α : Type) where
  | ok (a : α)
  | abort
  | ub (why : String)
deriving DecidableEq, Repr

def Res.bind {α β : Type} : Res α → (α → Res β) → Res β
  | .ok a, f => f a
  | .abort, _ => .abort
  | .ub w, _ => .ub w

instance : Monad Res where
  pure := .ok
  bind := Res.bind

/-- `argis`, main.cpp:52-53. `argv` is the whole vector, program name included. -/
def argis (argv : List Str) (i : Nat) (a : Str) : Bool :=
  match argv[i]? with
  | some x => x == a
  | none => false

/-- `ttons`, main.cpp:67-78: nanoseconds per unit. The products are doubles below 2^53 times a power of
two, hence exact (the largest, 31536000 * 1e9, is 31536 * 5^12 * 2^12). -/
def ttons (argv : List Str) : Nat :=
  let t := argis argv 2
  if t b!"-nanoseconds" || t b!"-ns" then 1
  else if t b!"-microseconds" || t b!"-us" then 1000
  else if t b!"-milliseconds" || t b!"-ms" then 1000000
  else if t b!"-seconds" || t b!"-s" then 1000000000
  else if t b!"-minutes" || t b!"-m" then 60 * 1000000000
  else if t b!"-hours" || t b!"-h" then 60 * 60 * 1000000000
  else if t b!"-days" || t b!"-d" then 24 * 60 * 60 * 1000000000
  else if t b!"-weeks" || t b!"-w" then 7 * 24 * 60 * 60 * 1000000000
  else if t b!"-months" || t b!"-mts" then 30 * 24 * 60 * 60 * 1000000000
  else if t b!"-years" || t b!"-y" then 365 * 24 * 60 * 60 * 1000000000
  else 1000000

/-- `llroundl`, main.cpp:83: to the nearest integer, halves away from zero. Only positive arguments
reach it. -/
def roundPos (x : Rat) : Int := (x + 1 / 2).floor

/-- Whether an integer is a `long long`. -/
def fitsLL (n : Int) : Bool := -(2 ^ 63 : Int) ≤ n && n < (2 ^ 63 : Int)

/-- The multiplication of main.cpp:83, in `long long`. -/
def scale (n unit : Int) : Res (Option Int) :=
  if fitsLL (n * unit) then .ok (some (n * unit)) else .ub "signed overflow"

/-- `time`, main.cpp:63-84: `none` is "no duration". -/
def timeArg (env : Env) (argv : List Str) (isHelp : Bool) : Res (Option Int) :=
  let st := match argv[3]? with
    | some s => s
    | none => b!"0"
  let unit : Int := ttons argv
  if isHelp then .ok none
  else match env.strtod st with
    | .posInf => .ok none
    | .negInf => .ok none
    | .nan => scale (env.roundBad .nan) unit
    | .fin td =>
      if td ≤ 0 then .ok none
      else scale (if fitsLL (roundPos td) then roundPos td else env.roundBad (.fin td)) unit

/-- `struct Args`, main.cpp:46-48. -/
structure Args where
  isHelp : Bool
  path : Option Str
  time : Option Int

/-- `Args::try_parse`, main.cpp:50-89. -/
def tryParse (env : Env) (argv : List Str) : Res (Option Args) :=
  let isHelp := argis argv 1 b!"-h" || argis argv 1 b!"--help"
  let path : Res (Option Str) :=
    if isHelp then .ok none
    else match argv[1]? with
      | none =>
        match env.cwd with
        | none => .abort
        | some d => .ok (some d)
      | some a =>
        match env.exist a with
        | none => .abort
        | some true => .ok (some a)
        | some false => .ok none
  path.bind fun p =>
  (timeArg env argv isHelp).bind fun t =>
  .ok (if isHelp || p.isSome || t.isSome then some ⟨isHelp, p, t⟩ else none)

/-- How long a watch is kept open. -/
inductive Wait where
  /-- `cin.get()`, until a byte of input or its end -/
  | untilInput
  /-- `sleep_for` -/
  | ns (n : Int)
deriving DecidableEq, Repr

/-- What a run of the program is seen to do. -/
structure Run where
  /-- help on the standard output -/
  helpOut : Bool
  /-- help on the standard error -/
  helpErr : Bool
  /-- the watch opened, if any, and how long for -/
  watched : Option (Str × Wait)
  /-- exit status -/
  exit : Nat
deriving DecidableEq, Repr

/-- `main`, main.cpp:110-122. -/
def main (env : Env) (argv : List Str) : Res Run :=
  (tryParse env argv).bind fun args =>
  match args with
  | none => .ok ⟨false, true, none, 1⟩
  | some a =>
    if a.isHelp then .ok ⟨true, false, none, 0⟩
    else match a.path with
      | none => .ok ⟨false, true, none, 1⟩
      | some p =>
        let w := match a.time with
          | none => Wait.untilInput
          | some n => Wait.ns n
        .ok ⟨false, false, some (p, w), if env.closeOk then 0 else 1⟩

/-! ### The tiny watcher -/

/-- `show`, src/wtr/tiny_watcher/main.cpp:16-23; `endl` ends the line. -/
def tinyShow (e : Event) : Str :=
  e.effect.str ++ b!" " ++ e.ptype.str ++ b!" " ++ e.path
    ++ (match e.assoc with
        | some a => b!" -> " ++ a.path
        | none => [])
    ++ b!"\n"

/-- `main`, src/wtr/tiny_watcher/main.cpp:25-36: watches ".", waits for a byte of input (or its end),
and reports whether closing worked. -/
def tinyMain (closeOk : Bool) : Run :=
  ⟨false, false, some (b!".", .untilInput), if closeOk then 0 else 1⟩

end Verif.Model.Cli
