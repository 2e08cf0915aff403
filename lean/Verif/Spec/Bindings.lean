import Verif.Spec.Text
/-!
# What users of the bindings rely on

Independent of the model's functions.
-/

namespace Verif.Spec.Bind
open Verif Verif.Model Verif.Spec

/-- Constants of `watcher-c/include/wtr/watcher-c.h`, lines 11-16. -/
def headerEffect : EffectType → Int
  | .rename => 0 | .modify => 1 | .create => 2 | .destroy => 3 | .owner => 4 | .other => 5
/-- Constants of `watcher-c/include/wtr/watcher-c.h`, lines 19-24. -/
def headerPath : PathType → Int
  | .dir => 0 | .file => 1 | .hardLink => 2 | .symLink => 3 | .watcher => 4 | .other => 5

/-- JavaScript's spelling of the path types. -/
def camelPath : PathType → Str
  | .dir => b!"dir" | .file => b!"file" | .hardLink => b!"hardLink"
  | .symLink => b!"symLink" | .watcher => b!"watcher" | .other => b!"other"

/-- A byte `10xxxxxx`. -/
def cont (c : UInt8) : Bool := 0x80 ≤ c && c ≤ 0xBF

/-- Well-formed UTF-8 (Unicode, table 3-7). -/
def utf8 : Str → Bool
  | [] => true
  | a :: b :: c :: d :: rest =>
    if a ≤ 0x7F then utf8 (b :: c :: d :: rest)
    else if 0xC2 ≤ a && a ≤ 0xDF then cont b && utf8 (c :: d :: rest)
    else if a = 0xE0 then (0xA0 ≤ b && b ≤ 0xBF) && cont c && utf8 (d :: rest)
    else if a = 0xED then (0x80 ≤ b && b ≤ 0x9F) && cont c && utf8 (d :: rest)
    else if 0xE1 ≤ a && a ≤ 0xEF then cont b && cont c && utf8 (d :: rest)
    else if a = 0xF0 then (0x90 ≤ b && b ≤ 0xBF) && cont c && cont d && utf8 rest
    else if 0xF1 ≤ a && a ≤ 0xF3 then cont b && cont c && cont d && utf8 rest
    else if a = 0xF4 then (0x80 ≤ b && b ≤ 0x8F) && cont c && cont d && utf8 rest
    else false
  | [a, b, c] =>
    if a ≤ 0x7F then utf8 [b, c]
    else if 0xC2 ≤ a && a ≤ 0xDF then cont b && utf8 [c]
    else if a = 0xE0 then (0xA0 ≤ b && b ≤ 0xBF) && cont c
    else if a = 0xED then (0x80 ≤ b && b ≤ 0x9F) && cont c
    else (0xE1 ≤ a && a ≤ 0xEF) && cont b && cont c
  | [a, b] => if a ≤ 0x7F then utf8 [b] else (0xC2 ≤ a && a ≤ 0xDF) && cont b
  | [a] => a ≤ 0x7F
termination_by s => s.length

/-- Text a C string can carry. -/
def NoNul (s : Str) : Prop := (0 : UInt8) ∉ s

instance (s : Str) : Decidable (NoNul s) := by unfold NoNul; infer_instance

/-- Integers that are doubles: at most 53 significant bits. (Exponent limits do not matter below 2^1024.) -/
def IsDouble (n : Int) : Prop := ∃ (c e : Nat), c ≤ 2 ^ 53 ∧ n.natAbs = c * 2 ^ e

/-! ### Handles of the C interface -/

/-- What a program sees of its calls. -/
inductive Obs where
  | opened (h : Option Nat)
  | closed (h : Option Nat) (ok : Bool)
deriving DecidableEq, Repr

/-- The rule for handles: null, or one it was given and has not closed successfully. -/
def mayClose (seen : List Obs) (h : Option Nat) : Prop :=
  h = none ∨ (Obs.opened h ∈ seen ∧ Obs.closed h true ∉ seen)

/-! ### The queue to JavaScript -/

/-- What happens: an event comes, JavaScript takes one, JavaScript closes. -/
inductive Tick where
  | comes | taken | closed
deriving DecidableEq, Repr

/-- How many events wait if none is ever refused. -/
def waiting : Nat → List Tick → Nat
  | n, [] => n
  | n, .comes :: ts => waiting (n + 1) ts
  | n, .taken :: ts => waiting (n - 1) ts
  | n, .closed :: ts => waiting n ts

end Verif.Spec.Bind
