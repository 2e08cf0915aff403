import Verif.Spec.Adapter
import Verif.Model.Windows
/-!
# Absolute paths (C151)
-/

namespace Verif.Spec.Ad
open Verif Verif.Model Verif.Model.Ad Verif.Spec

/-- A path of Linux that begins at the root. -/
def Absolute (p : Str) : Prop := p.head? = some 47

/-- All paths of an event are absolute. -/
def AbsoluteEv (e : Ev) : Prop := Absolute e.path ∧ ∀ a, e.assoc = some a → Absolute a.path

/-- `realpath(3)` and the links of `/proc/self/fd` are absolute paths. -/
def SystemPaths {σ} (E : Env σ) : Prop := (∀ w p r, (E.inn.realpath w p).1 = some r → Absolute r) ∧ ∀ w fd d, (E.fa.readlink w fd).1 = some d → Absolute d

/-- The walk visits absolute paths (it begins with an absolute one and goes on with answers of `realpath`: `C24`, `C149_walk_partial`). -/
def WalksAbsolute {σ} : CAct σ → Prop
  | .openBack a => ∀ d ∈ a.dirs, Absolute d
  | _ => True

/-- A directory that can be opened has a path (shorter than `PATH_MAX` by more than a name). -/
def Linked {σ} (S : Fa.Sys σ) : Prop := ∀ w h, 0 < (S.openByHandle w h).1.1 →
  ∃ d, (S.readlink (S.openByHandle w h).2 (S.openByHandle w h).1.1).1 = some d ∧ d ≠ [] ∧ d.length ≤ 3839

end Verif.Spec.Ad
