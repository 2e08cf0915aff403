/-!
# Happens before (C152, C153)

The relation of the C++ standard over the steps of a schedule: the order inside each thread, and what synchronizes with what.
-/

namespace Verif.Spec.Mem

/-- The step with number `i` happens before the one with number `j`: `thread` says which thread a step is of, `sync x y` that the step `x` synchronizes with
a later step `y`. -/
inductive Happens {α β : Type} (thread : α → β) (sync : α → α → Prop) (t : List α) : Nat → Nat → Prop where
  | thread {i j x y} : i < j → t[i]? = some x → t[j]? = some y → thread x = thread y → Happens thread sync t i j
  | sync {i j x y} : i < j → t[i]? = some x → t[j]? = some y → sync x y → Happens thread sync t i j
  | trans {i j k} : Happens thread sync t i j → Happens thread sync t j k → Happens thread sync t i k

end Verif.Spec.Mem
