import Verif.Spec.Fds
import Verif.Model.ManyFds
/-!
# The descriptors of several watches in one program (C160)
-/

namespace Verif.Spec
open Verif Verif.Model.Fds

/-- What the threads of a process do with descriptors, in the order in which it happens: who, and what. -/
abbrev FdTrace := List (Nat × FdStep)

/-- What one of them does. -/
def mine (i : Nat) : FdTrace → List FdStep
  | [] => []
  | (j, x) :: t => if j = i then x :: mine i t else mine i t

/-- One more step for the process's table of open descriptors, with who has opened each. `close` removes the descriptor, whoever has opened it. -/
def tableStep (tab : List (Nat × Int)) : Nat × FdStep → List (Nat × Int)
  | (i, .opened fd) => (i, fd) :: tab
  | (_, .close fd) => tab.filter fun e => e.2 ≠ fd

/-- The table after a trace. -/
def table (t : FdTrace) : List (Nat × Int) := t.foldl tableStep []

/-- The kernel hands out only numbers that are not open in the process, and no negative ones. -/
def Handed (t : FdTrace) : Prop := ∀ a b i fd, t = a ++ (i, .opened fd) :: b → 0 ≤ fd ∧ ∀ e ∈ table a, e.2 ≠ fd

/-- Whoever closes a descriptor is the one who has opened it (closing a negative number does nothing). -/
def OwnOnly (t : FdTrace) : Prop := ∀ a b i fd, t = a ++ (i, .close fd) :: b → 0 ≤ fd → (i, fd) ∈ table a

/-- Code that closes only what it has opened and not closed yet. -/
def Careful (l : List FdStep) : Prop := replay [] l ≠ none

/-- The fanotify back end was never given descriptor 0 (a program whose standard input is open never gets it). -/
def NeverZero (a : ObjAns) : Prop := a.watch.faInit ≠ 0 ∧ a.watch.faEp.create ≠ 0 ∧ ∀ x ∈ a.watch.faHandles, x ≠ 0

end Verif.Spec
