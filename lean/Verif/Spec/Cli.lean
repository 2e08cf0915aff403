import Verif.Base
/-!
# What users of the command line program rely on

Independent of the model's functions: the usage text, as a reader understands it.
-/

namespace Verif.Spec.Cli
open Verif

/-- The units of the usage text, in nanoseconds; months have 30 days, years 365. -/
def units : List (Str × Str × Nat) :=
  let s := 1000000000
  [(b!"-nanoseconds", b!"-ns", 1), (b!"-microseconds", b!"-us", 1000),
   (b!"-milliseconds", b!"-ms", 1000000), (b!"-seconds", b!"-s", s),
   (b!"-minutes", b!"-m", 60 * s), (b!"-hours", b!"-h", 3600 * s),
   (b!"-days", b!"-d", 86400 * s), (b!"-weeks", b!"-w", 604800 * s),
   (b!"-months", b!"-mts", 2592000 * s), (b!"-years", b!"-y", 31536000 * s)]

/-- A unit's length. -/
def unitNs (u : Str) : Option Nat :=
  (units.find? fun x => x.1 == u || x.2.1 == u).map fun x => x.2.2

/-- Value of a numeral: digits only, at least one. -/
def numeral (s : Str) : Option Nat :=
  if s ≠ [] ∧ s.all (fun c => 48 ≤ c && c ≤ 57) then
    some (s.foldl (fun acc c => acc * 10 + (c.toNat - 48)) 0)
  else none

/-- What the arguments (without the program's name) ask for. -/
inductive Request where
  | help
  /-- `path` as given, `none` for the default; `ns`: for how long, `none` for ever -/
  | watch (path : Option Str) (ns : Option Nat)
  /-- not in the usage text -/
  | bad
deriving DecidableEq

/-- The usage text: `<PATH=. [-UNIT <TIME>]>` or `<-h | --help>`. -/
def request : List Str → Request
  | [] => .watch none none
  | [a] => if a = b!"-h" ∨ a = b!"--help" then .help else .watch (some a) none
  | [p, u, t] =>
    if p = b!"-h" ∨ p = b!"--help" then .bad
    else match unitNs u, numeral t with
      | some k, some n => if 0 < n then .watch (some p) (some (n * k)) else .bad
      | _, _ => .bad
  | _ => .bad

/-! ### Lines of the small example program

"effect path_type path", with " -> other path" for an associated event, each on its own line. -/

/-- Before and after the first occurrence of `sep`. -/
def cut (sep : Str) : Str → Option (Str × Str)
  | [] => none
  | c :: rest =>
    if sep.isPrefixOf (c :: rest) then some ([], (c :: rest).drop sep.length)
    else (cut sep rest).map fun (a, b) => (c :: a, b)

/-- Reading the first line of a text: its words, and the rest of the text. -/
def readLine (s : Str) : Option ((Str × Str × Str × Option Str) × Str) := do
  let (line, more) ← cut b!"\n" s
  let (effect, s1) ← cut b!" " line
  let (ptype, s2) ← cut b!" " s1
  match cut b!" -> " s2 with
  | none => some ((effect, ptype, s2, none), more)
  | some (p, q) => some ((effect, ptype, p, some q), more)

/-- Reading all lines. -/
def readLines : (fuel : Nat) → Str → Option (List (Str × Str × Str × Option Str))
  | _, [] => some []
  | 0, _ => none
  | fuel + 1, s => do
    let (l, more) ← readLine s
    let ls ← readLines fuel more
    some (l :: ls)

end Verif.Spec.Cli
