import Verif.Model.Windows
/-!
# Specification for the Windows back end (C49 - C51, C66 - C68)
-/

namespace Verif.Spec.Windows
open Verif Verif.Model Verif.Model.Windows

/-- A notification record: its action and the changed path, relative to the watched one. -/
structure Rec where
  action : Nat
  name : WStr
deriving DecidableEq, Repr

/-- Little endian bytes of a 32-bit number. -/
def le32 (n : Nat) : List UInt8 := [UInt8.ofNat n, UInt8.ofNat (n / 256), UInt8.ofNat (n / 65536), UInt8.ofNat (n / 16777216)]

/-- Little endian bytes of wide characters. -/
def le16 : WStr → List UInt8
  | [] => []
  | c :: l => UInt8.ofNat c.toNat :: UInt8.ofNat (c.toNat / 256) :: le16 l

/-- Size of a record and its distance to the next one, a multiple of four. -/
def Rec.size (r : Rec) : Nat := 12 + 2 * r.name.length
def Rec.stride (r : Rec) : Nat := (r.size + 3) / 4 * 4

/-- The buffer the system fills for a batch. -/
def encode : List Rec → List UInt8
  | [] => []
  | [r] => le32 0 ++ le32 r.action ++ le32 (2 * r.name.length) ++ le16 r.name
  | r :: rs => le32 r.stride ++ le32 r.action ++ le32 (2 * r.name.length) ++ le16 r.name ++
      List.replicate (r.stride - r.size) 0 ++ encode rs

/-- The numbers fit into their fields. -/
def Rec.Fits (r : Rec) : Prop := r.action < 2 ^ 32 ∧ r.stride < 2 ^ 32

/-- The place of a name below a directory: one separator between the two, unless the directory's own name ends
in one, is empty, or is a drive such as `C:`. -/
def place (dir name : WStr) : WStr :=
  if dir = [] ∨ [92].isSuffixOf dir ∨ [47].isSuffixOf dir ∨ (dir.length = 2 ∧ [58].isSuffixOf dir) then dir ++ name
  else dir ++ [92] ++ name

/-- Path and type of a record, as reported. -/
def Rec.path (base : WStr) (r : Rec) : WStr := place base r.name
def Rec.pt (isDir : WStr → Option Bool) (base : WStr) (r : Rec) : PathType :=
  match isDir (r.path base) with
  | some true => .dir
  | some false => .file
  | none => .other

/-- The effect a user is told for an action that is not half of a rename. -/
def plainEffect (action : Nat) : EffectType :=
  match action with
  | 1 => .create | 2 => .destroy | 3 => .modify | _ => .other

/-- Halves of a rename: old name and new name. -/
def IsOld (r : Rec) : Prop := r.action = 4
def IsNew (r : Rec) : Prop := r.action = 5
def Plain (r : Rec) : Prop := r.action ≠ 4 ∧ r.action ≠ 5
instance (r : Rec) : Decidable (Plain r) := by unfold Plain; infer_instance

/-- The event of a record that is not half of a rename. -/
def plainEvent (isDir : WStr → Option Bool) (base : WStr) (r : Rec) : WEv :=
  ⟨r.path base, plainEffect r.action, r.pt isDir base, none⟩

/-- The event of a rename. -/
def renameEvent (isDir : WStr → Option Bool) (base : WStr) (old new : Rec) : WEv :=
  ⟨old.path base, .rename, old.pt isDir base, some (new.path base, new.pt isDir base)⟩

/-- How a batch is to be reported: every plain record by its event, in order; the two halves of a rename, in
either order and with any plain records in between, by one event at the place of the second. -/
inductive Reports (isDir : WStr → Option Bool) (base : WStr) : List Rec → List WEv → Prop
  | nil : Reports isDir base [] []
  | plain (r : Rec) (rs : List Rec) (o : List WEv) : Plain r → Reports isDir base rs o →
      Reports isDir base (r :: rs) (plainEvent isDir base r :: o)
  | oldNew (a b : Rec) (ps rs : List Rec) (o : List WEv) : IsOld a → IsNew b → (∀ p ∈ ps, Plain p) →
      Reports isDir base rs o →
      Reports isDir base (a :: ps ++ b :: rs) (ps.map (plainEvent isDir base) ++ renameEvent isDir base a b :: o)
  | newOld (a b : Rec) (ps rs : List Rec) (o : List WEv) : IsOld a → IsNew b → (∀ p ∈ ps, Plain p) →
      Reports isDir base rs o →
      Reports isDir base (b :: ps ++ a :: rs) (ps.map (plainEvent isDir base) ++ renameEvent isDir base a b :: o)

/-- Halves of the same kind. -/
def SameHalf (a b : Rec) : Prop := (IsOld a ∧ IsOld b) ∨ (IsNew a ∧ IsNew b)

/-- How any batch at all is reported, also one with renames of which only one half is in it: a half is told together
with the next half of the batch if that is of the other kind; if it is of the same kind, or if there is none, the half is
not told. Plain records are told at their places whatever is around them. -/
inductive ReportsAll (isDir : WStr → Option Bool) (base : WStr) : List Rec → List WEv → Prop
  | nil : ReportsAll isDir base [] []
  | plain (r : Rec) (rs : List Rec) (o : List WEv) : Plain r → ReportsAll isDir base rs o →
      ReportsAll isDir base (r :: rs) (plainEvent isDir base r :: o)
  | oldNew (a b : Rec) (ps rs : List Rec) (o : List WEv) : IsOld a → IsNew b → (∀ p ∈ ps, Plain p) →
      ReportsAll isDir base rs o →
      ReportsAll isDir base (a :: ps ++ b :: rs) (ps.map (plainEvent isDir base) ++ renameEvent isDir base a b :: o)
  | newOld (a b : Rec) (ps rs : List Rec) (o : List WEv) : IsOld a → IsNew b → (∀ p ∈ ps, Plain p) →
      ReportsAll isDir base rs o →
      ReportsAll isDir base (b :: ps ++ a :: rs) (ps.map (plainEvent isDir base) ++ renameEvent isDir base a b :: o)
  | overtaken (a b : Rec) (ps rs : List Rec) (o : List WEv) : SameHalf a b → (∀ p ∈ ps, Plain p) →
      ReportsAll isDir base (b :: rs) o →
      ReportsAll isDir base (a :: ps ++ b :: rs) (ps.map (plainEvent isDir base) ++ o)
  | left (a : Rec) (ps : List Rec) : ¬ Plain a → (∀ p ∈ ps, Plain p) →
      ReportsAll isDir base (a :: ps) (ps.map (plainEvent isDir base))

/-- An event tells of a path. -/
def Tells (e : WEv) (p : WStr) : Prop := e.path = p ∨ ∃ t, e.assoc = some (p, t)

/-- The records that can be reached in a buffer by following the distances to the next one. -/
inductive Reaches (m : List UInt8) : Nat → Prop
  | first : Reaches m 0
  | next (o n : Nat) : Reaches m o → rd32 m o = some n → n ≠ 0 → Reaches m (o + n)

end Verif.Spec.Windows
