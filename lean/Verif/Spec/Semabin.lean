import Verif.Model.Semabin
/-! # Histories of the stop signal -/

namespace Verif.Spec
open Verif Verif.Model

/-- The two things one can do with the stop signal. -/
inductive SigOp where
  | release | query
deriving DecidableEq, Repr

/-- The answers of a history of calls, for a given implementation of the two calls. -/
def answers {σ : Type} (rel st : σ → SemState × σ) : σ → List SigOp → List (SigOp × SemState)
  | _, [] => []
  | s, .release :: h => (.release, (rel s).1) :: answers rel st (rel s).2 h
  | s, .query :: h => (.query, (st s).1) :: answers rel st (st s).2 h

/-- The signal after a history of calls. -/
def after {σ : Type} (rel st : σ → SemState × σ) : σ → List SigOp → σ
  | s, [] => s
  | s, .release :: h => after rel st (rel s).2 h
  | s, .query :: h => after rel st (st s).2 h

/-- As long as nobody released it, every query answers pending, whatever happens later. -/
def NeverEarly {σ : Type} (rel st : σ → SemState × σ) (init : σ) : Prop :=
  ∀ (before after : List SigOp), SigOp.release ∉ before →
    ∀ x ∈ (answers rel st init (before ++ after)).take before.length, x.2 = .pending

/-- After a successful release every query answers released. -/
def StaysReleased {σ : Type} (rel st : σ → SemState × σ) (init : σ) : Prop :=
  ∀ (before after : List SigOp),
    (∃ x, (answers rel st init (before ++ .release :: after))[before.length]? = some x ∧ x.2 = .released) →
    ∀ x ∈ (answers rel st init (before ++ .release :: after)).drop before.length,
      x.1 = .query → x.2 = .released

end Verif.Spec
