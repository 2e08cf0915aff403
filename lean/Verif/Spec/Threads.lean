import Verif.Model.Threads
/-!
# `close()` from several threads: what should hold, and the ways to use it

Only the inputs (`Act`) and the observations (`Obs`) are used.
-/

namespace Verif.Spec.Thr
open Verif Verif.Model.Thr

/-- What the calls of `close()` answered, in the order in which they returned. -/
def answers (log : List Obs) : List Bool := log.filterMap fun | .ret _ b => some b | .call _ => none

/-- At most one call is answered with true, and then the watching thread's function returned true. -/
def Sound (log : List Obs) (result : Option Bool) : Prop :=
  (answers log).count true ≤ 1 ∧ (true ∈ answers log → result = some true)

/-- The user's mutex, as the sequence of inputs has it: `h` held it before, who does afterwards. -/
def holds (h : Option Nat) : List Act → Option Nat
  | [] => h
  | .lock t :: as => holds (some t) as
  | .unlock _ :: as => holds none as
  | _ :: as => holds h as

/-- Every thread calls `close()` only while it holds the mutex. (It cannot release it before `close()` has returned.) -/
def Guarded (acts : List Act) : Prop := ∀ pre t post, acts = pre ++ .call t :: post → holds none pre = some t

/-- Only the thread `t` calls `close()`. -/
def OnlyBy (t : Nat) (acts : List Act) : Prop := ∀ u, .call u ∈ acts → u = t

/-- The threads do not synchronise with each other. -/
def NoLock (acts : List Act) : Prop := ∀ t, Act.lock t ∉ acts ∧ Act.unlock t ∉ acts

/-- No thread calls `close()` twice. -/
def OneEach (acts : List Act) : Prop := ∀ t, acts.count (.call t) ≤ 1

/-- `eventfd_write` does not fail. -/
def WritesOk (acts : List Act) : Prop := ∀ t, Act.step t false ∉ acts

end Verif.Spec.Thr
