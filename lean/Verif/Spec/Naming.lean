import Verif.Spec.Adapter
/-!
# Under which names changes are reported (C149)

`Ker.Below root p` (`Spec/Kernel.lean`): `p` is `root`, or begins with it and a separator; `Ker.BelowEv`: so do both paths of an event.
-/

namespace Verif.Spec.Ad
open Verif Verif.Model Verif.Model.Ad Verif.Spec

/-- A path the watcher may ask for: below the path it was given, or below the directory this stands for. -/
def Asked (given real p : Str) : Prop := Ker.Below given p ∨ Ker.Below real p

/-- The watched path `given` stands for the directory `real`: paths below either, without their symbolic links, are below `real`. -/
def Resolves (given real : Str) (resolve : Str → Option Str) : Prop := ∀ p r, Asked given real p → resolve p = some r → Ker.Below real r

/-- The same of the system calls of a back end, in every state of the world. -/
def StandsFor {σ} (S : In.Sys σ) (given real : Str) : Prop := ∀ w, Resolves given real fun p => (S.realpath w p).1

/-- The directories of which fanotify tells (marked ones only) are named below `real`. -/
def Located {σ} (S : Fa.Sys σ) (real : Str) : Prop := ∀ w fd d, (S.readlink w fd).1 = some d → Ker.Below real d

/-- The walk visits directories of the tree. -/
def WalksTree {σ} (given real : Str) : CAct σ → Prop
  | .openBack a => ∀ d ∈ a.dirs, Asked given real d
  | _ => True

end Verif.Spec.Ad
