import Verif.Model.Result
/-!
# What effect times should say

Only the data types of events are used.
-/

namespace Verif.Spec.Time
open Verif Verif.Model

/-- A clock that does not go back: `clk n` is its `n`-th reading. -/
def Steady (clk : Nat → Int) : Prop := ∀ m n, m ≤ n → clk m ≤ clk n

/-- The callback gets the events in the order of their times. -/
def InOrder (es : List Event) : Prop := es.Pairwise (fun a b => a.time ≤ b.time)

/-- `w` warns that a directory is not watched, and `e` announces that this directory was made. -/
def UnwatchedNew (w e : Event) : Prop :=
  w.path = b!"w/sys/not_watched@" ++ e.path ∧ w.ptype = .watcher ∧ w.effect = .other ∧
  e.effect = .create ∧ e.ptype = .dir

/-- The only events in the wrong order are neighbours: a warning about a new directory, then the event about its being made. -/
def InOrderBut (es : List Event) : Prop :=
  ∀ (i j : Nat) (a b : Event), i < j → es[i]? = some a → es[j]? = some b → b.time < a.time →
    j = i + 1 ∧ UnwatchedNew a b

/-- An event without its times: the first level of association is all there is. -/
structure Bare where
  path : Str
  effect : EffectType
  ptype : PathType
  other : Option (Str × EffectType × PathType)
deriving DecidableEq

def bare (e : Event) : Bare := ⟨e.path, e.effect, e.ptype, e.assoc.map fun a => (a.path, a.effect, a.ptype)⟩

/-- The same of what a back end hands over. -/
def bareEv (e : Ev) : Bare := ⟨e.path, e.effect, e.ptype, e.assoc.map fun h => (h.path, h.effect, h.ptype)⟩

end Verif.Spec.Time
