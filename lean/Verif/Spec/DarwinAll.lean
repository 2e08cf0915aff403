import Verif.Spec.Darwin
/-!
# What a history of notifications is reported as on Darwin (C127)
-/

namespace Verif.Spec.Darwin
open Verif Verif.Model Verif.Model.Darwin

/-- A path is known to have been created: some notification told its creation and not also its removal, and none after it
told its removal. -/
def Known (p : Str) (ns : List Note) : Prop :=
  ∃ a n b, ns = a ++ n :: b ∧ n.path = p ∧ bit n 8 = true ∧ bit n 9 = false ∧ ∀ m ∈ b, m.path = p → bit m 9 = false

/-- The rename notification that waits for its other half: the latest one, unless it was joined with the one that waited
before. -/
inductive Waiting : List Note → Option Note → Prop
  | nil : Waiting [] none
  | other (ns : List Note) (n : Note) (w : Option Note) : bit n 11 = false → Waiting ns w → Waiting (ns ++ [n]) w
  | first (ns : List Note) (n : Note) : bit n 11 = true → Waiting ns none → Waiting (ns ++ [n]) (some n)
  | joined (ns : List Note) (a n : Note) : bit n 11 = true → Waiting ns (some a) → Connects a n → Waiting (ns ++ [n]) none
  | instead (ns : List Note) (a n : Note) : bit n 11 = true → Waiting ns (some a) → ¬ Connects a n → Waiting (ns ++ [n]) (some n)

/-- `l` is the one event if the condition holds, and otherwise empty. -/
def If (c : Prop) (e : Ev) (l : List Ev) : Prop := (c ∧ l = [e]) ∨ (¬ c ∧ l = [])

/-- What a notification is reported as when these came before it: `other` if no flag says what happened; otherwise a
creation (if the path is not known), a destruction (if it is, or was just now), a modification and a rename (if a
notification for another path, now gone, waits), in this order, each if the flags say so. -/
def Says (before : List Note) (n : Note) (es : List Ev) : Prop :=
  (Unrecognised n ∧ es = [⟨n.path, .other, typeTold n, none⟩]) ∨
  (¬ Unrecognised n ∧ ∃ c d m r, es = c ++ d ++ m ++ r ∧
    If (bit n 8 = true ∧ ¬ Known n.path before) ⟨n.path, .create, typeTold n, none⟩ c ∧
    If (bit n 9 = true ∧ (Known n.path before ∨ bit n 8 = true)) ⟨n.path, .destroy, typeTold n, none⟩ d ∧
    If (Modified n) ⟨n.path, .modify, typeTold n, none⟩ m ∧
    ((∃ a, bit n 11 = true ∧ Waiting before (some a) ∧ Connects a n ∧ r = [⟨a.path, .rename, typeTold n, some ⟨n.path, .rename, typeTold n⟩⟩]) ∨
     ((¬ ∃ a, bit n 11 = true ∧ Waiting before (some a) ∧ Connects a n) ∧ r = [])))

/-- What a history of notifications is reported as. -/
inductive Story : List Note → List Ev → Prop
  | nil : Story [] []
  | snoc (ns : List Note) (n : Note) (o es : List Ev) : Story ns o → Says ns n es → Story (ns ++ [n]) (o ++ es)

end Verif.Spec.Darwin
