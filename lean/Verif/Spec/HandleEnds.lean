import Verif.Spec.Handle
/-!
# What it means that closing through C, Rust and Python ends (C134)
-/

namespace Verif.Spec.Hd
open Verif Verif.Model Verif.Model.Life Verif.Model.Handle Verif.Spec

/-- The watcher's thread is not inside a `close` called by the callback. -/
def NotInside (h : H) : Prop := ∀ c n, h.life.w ≠ .selfClose c n

/-- A step of a thread of the library while files are not changed (see `Quiet`), here for the three interfaces. -/
def QuietH : HAct → Prop
  | .life a => Quiet a
  | .close => False
def QuietR : RAct → Prop
  | .life a _ _ => Quiet a
  | _ => False
def QuietP : PAct → Prop
  | .life a _ _ => Quiet a
  | _ => False

/-- Warnings while opening cost two steps each (see C15). -/
def costH : HAct → Nat
  | .life a => openCost a
  | .close => 0
def costR : RAct → Nat
  | .life a _ _ => openCost a
  | _ => 0
def costP : PAct → Nat
  | .life a _ _ => openCost a
  | _ => 0

end Verif.Spec.Hd
