import Verif.Spec.Text
import Verif.Spec.Bindings
/-!
# What the wide text of an event should say
-/

namespace Verif.Spec.Wide
open Verif Verif.Model

/-- The numbers that are characters of Unicode. -/
def IsChar (n : Nat) : Prop := n < 0xD800 ∨ (0xE000 ≤ n ∧ n < 0x110000)

/-- The wide text `w` consists of characters, and they are those of the narrow text `s`, one by one. -/
def SameText (w : List UInt32) (s : Str) : Prop :=
  (∀ c ∈ w, IsChar c.toNat) ∧ w.flatMap (fun c => Json.utf8Enc c.toNat) = s

/-- The names an event shows are UTF-8. -/
def NamesAreText (ev : Event) : Prop :=
  Bind.utf8 ev.path = true ∧ ∀ a, ev.assoc = some a → Bind.utf8 a.path = true

end Verif.Spec.Wide
