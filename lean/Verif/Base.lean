import Lean.Elab.Command
/-!
# Base vocabulary

Narrow C++ strings (`std::string`, `char const*`, POSIX `std::filesystem::path`) are modelled as
lists of bytes.  `b!"..."` is notation for the explicit list of the (UTF-8) bytes of a literal.
-/

namespace Verif

/-- A narrow string: a sequence of bytes. Simplification: memory exhaustion is not modelled. -/
abbrev Str := List UInt8

open Lean in
/-- `b!"abc"` is `[97, 98, 99]`. Pure notation. -/
scoped syntax:max "b!" str : term

open Lean in
macro_rules
  | `(b! $s:str) => do
    let bs := s.getString.toUTF8.toList
    let xs : Array (TSyntax `term) :=
      (bs.map (fun b => (Syntax.mkNumLit (toString b.toNat)))).toArray
    `(([$xs,*] : Str))

/-- `mask & c` used as a condition in C++ (`include/wtr/watcher.hpp`, throughout): non-zero means
true. -/
def anyBit {n : Nat} (mask c : BitVec n) : Bool := (mask &&& c) != 0#n

/-- Result of running a piece of C++ whose behaviour may be undefined. `ub why` is the explicit
"undefined behaviour happened" outcome; it is never produced by a fall-through of the model. -/
inductive Outcome (α : Type) where
  | ok (a : α)
  | ub (why : String)
deriving DecidableEq, Repr

namespace Outcome

def bind {α β : Type} (x : Outcome α) (f : α → Outcome β) : Outcome β :=
  match x with
  | .ok a => f a
  | .ub w => .ub w

instance : Monad Outcome where
  pure := .ok
  bind := bind

@[simp] theorem bind_ok {α β} (a : α) (f : α → Outcome β) : (Outcome.ok a >>= f) = f a := rfl
@[simp] theorem bind_ub {α β} (w : String) (f : α → Outcome β) :
    ((Outcome.ub w : Outcome α) >>= f) = .ub w := rfl
@[simp] theorem pure_eq {α} (a : α) : (pure a : Outcome α) = .ok a := rfl

end Outcome

end Verif
