import Verif.Model.Start
/-!
# Specification of starting watches (C167), by what happened in the program
-/

namespace Verif.Spec.Start
open Verif.Model.Start

/-- How often something of a kind happened. -/
def times (p : Act → Bool) (as : List Act) : Nat := (as.filter p).length

def isMake : Act → Bool | .make _ => true | _ => false
def isOver : Act → Bool | .over _ => true | _ => false
def isGone : Act → Bool | .gone _ => true | _ => false

/-- Watches made whose destructor has not returned. -/
def openWatches (as : List Act) : Nat := times isMake as - times isGone as

/-- Watches made whose worker is not through. -/
def workers (as : List Act) : Nat := times isMake as - times isOver as

/-- The threads the program has made itself and that still run, and its first one. -/
def ownThreads (as : List Act) : Nat := 1 + (times (· == .spawn) as - times (· == .join) as)

/-- There was memory for each watch. -/
def Memory (as : List Act) : Prop := ∀ mem, Act.make mem ∈ as → mem = true

end Verif.Spec.Start
