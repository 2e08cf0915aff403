import Verif.Model.PyLoad
/-!
# Python objects and the C library: what should hold

Only the inputs and the observations are used.
-/

namespace Verif.Spec.PyLoad
open Verif Verif.Model.PyLoad

/-- Is it about the object `t`? -/
def about (t : Nat) : Obs → Bool
  | .opened u _ => u == t
  | .close u _ => u == t
  | .error u => u == t

/-- Each object opens at most one watch, and closes just that one, at most once; or its constructor raises an error
and has opened nothing. -/
def Right (log : List Obs) : Prop :=
  ∀ t, log.filter (about t) = [.error t] ∨ ∃ p, log.filter (about t) <+: [.opened t p, .close t p]

/-- One object, `t`, is made before all others: it has opened its watch before another constructor begins. -/
def FirstAlone (t : Nat) (acts : List Act) : Prop :=
  ∀ pre u post, acts = pre ++ .make u :: post → u ≠ t →
    ∀ s, run {} pre = .ok (some s) → ∃ p, Obs.opened t p ∈ s.log

end Verif.Spec.PyLoad
