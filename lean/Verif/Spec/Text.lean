import Verif.Model.Event
import Verif.Spec.Json
/-!
# What the text of an event should say

Uses only the data type of events and the JSON reader.
-/

namespace Verif.Spec
open Verif Verif.Model

/-- Canonical decimal numerals of natural numbers: digits, no superfluous leading zero. -/
def NatDecimal (s : Str) (n : Nat) : Prop :=
  s ≠ [] ∧ (∀ c ∈ s, 48 ≤ c ∧ c ≤ 57) ∧ (s.head? = some 48 → s.length = 1) ∧
  s.foldl (fun acc c => acc * 10 + (c.toNat - 48)) 0 = n

/-- Canonical decimal numerals of integers. -/
def Decimal (s : Str) (n : Int) : Prop :=
  if n < 0 then ∃ t, s = 45 :: t ∧ NatDecimal t n.natAbs else NatDecimal s n.natAbs

/-- The range of `long long`. -/
def Is64 (n : Int) : Prop := -9223372036854775808 ≤ n ∧ n < 9223372036854775808

/-- Times whose decimal text has exactly nineteen characters. -/
def NineteenChars (t : Int) : Prop :=
  (1000000000000000000 ≤ t ∧ t < 9223372036854775808) ∨
  (-1000000000000000000 < t ∧ t ≤ -100000000000000000)

/-- Documented names (readme, "The Library"). -/
def effectName : EffectType → Str
  | .rename => b!"rename" | .modify => b!"modify" | .create => b!"create"
  | .destroy => b!"destroy" | .owner => b!"owner" | .other => b!"other"
def pathTypeName : PathType → Str
  | .dir => b!"dir" | .file => b!"file" | .hardLink => b!"hard_link"
  | .symLink => b!"sym_link" | .watcher => b!"watcher" | .other => b!"other"

/-- The three fields every (associated) event shows. -/
def fields (ev : Event) : List (Str × Json) :=
  [(b!"effect_type", .str (effectName ev.effect)),
   (b!"path_name", .str ev.path),
   (b!"path_type", .str (pathTypeName ev.ptype))]

/-- The JSON value of the streamed text: the fields and, when present, the associated event's. -/
def streamBody (ev : Event) : Json :=
  .obj (fields ev ++ match ev.assoc with
    | none => []
    | some a => [(b!"associated", .obj (fields a))])

/-- The JSON value of a line of the command line program: the whole chain. -/
def cliDoc : Event → Json
  | .mk p e t tm assoc =>
    .obj [(b!"path_type", .str (pathTypeName t)), (b!"path_name", .str p),
      (b!"effect_type", .str (effectName e)), (b!"effect_time", .num tm),
      (b!"associated", match assoc with | none => .null | some a => cliDoc a)]

/-- Every path in the chain satisfies `P` and every time satisfies `Q`. -/
def AllEvents (P : Str → Prop) (Q : Int → Prop) : Event → Prop
  | .mk p _ _ tm none => P p ∧ Q tm
  | .mk p _ _ tm (some a) => P p ∧ Q tm ∧ AllEvents P Q a

end Verif.Spec
