import Verif.Model.Event
/-!
# What "the same event" means

Uses only the data type of events, none of the model's functions.
-/

namespace Verif.Spec
open Verif Verif.Model

/-- Replace every run of `/` by a single one: two spellings of a path with the same result are the
same path for `std::filesystem`. -/
def squeeze : Str → Str
  | [] => []
  | [c] => [c]
  | c :: d :: cs => if c = 47 ∧ d = 47 then squeeze (d :: cs) else c :: squeeze (d :: cs)

/-- Same path, effect, path type and time, and the same associated event (or none) at every depth. -/
inductive SameEvent : Event → Event → Prop where
  | flat {p p' e t tm} : squeeze p = squeeze p' →
      SameEvent (.mk p e t tm none) (.mk p' e t tm none)
  | assoc {p p' e t tm a a'} : squeeze p = squeeze p' → SameEvent a a' →
      SameEvent (.mk p e t tm (some a)) (.mk p' e t tm (some a'))

end Verif.Spec
