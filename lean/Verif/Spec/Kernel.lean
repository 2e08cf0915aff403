import Verif.Model.Kernel
/-!
# Specification of whole histories (C31 - C35)
-/

namespace Verif.Spec
open Verif Verif.Model Verif.Model.In Verif.Model.Ker

/-- What the callback should receive for a change, if its directory is called `d`. -/
def Ker.event (c : Change) (d : Str) : Ev where
  path := entryPath d c.name
  effect := match c.kind with
    | .create => .create | .delete => .destroy | .modify => .modify
    | .moveFrom _ => .rename | .moveTo _ => .rename
  ptype := if c.onDir then .dir else .file

/-- What it should receive for both halves of a rename. -/
def Ker.renamed (a b : Change) (d1 d2 : Str) : Ev :=
  { path := entryPath d1 a.name, effect := .rename, ptype := if a.onDir then .dir else .file,
    assoc := some { path := entryPath d2 b.name, effect := .rename, ptype := if b.onDir then .dir else .file } }

/-- The events tell the changes, in order, each exactly once: a rename as one event or (cut by a read) as
two, immediately repeated modifications of one file possibly together. `path` says what a change's
directory is called. -/
inductive Tells (path : Change → Str) : List Change → List Ev → Prop
  | nil : Tells path [] []
  | one (c : Change) {l es} : Tells path l es → Tells path (c :: l) (Ker.event c (path c) :: es)
  | both (a b : Change) {l es} (id : BitVec 32) : a.kind = .moveFrom id → b.kind = .moveTo id →
      Tells path l es → Tells path (a :: b :: l) (Ker.renamed a b (path a) (path b) :: es)
  | again (c c' : Change) {l es} : c.kind = .modify → c'.kind = .modify → c'.name = c.name → c'.onDir = c.onDir →
      path c' = path c → Tells path (c :: l) es → Tells path (c' :: c :: l) es

/-- The same, except that the new name of a rename that is told in one event stands below the directory of
the old name, whatever the new directory is. -/
inductive TellsOld (path : Change → Str) : List Change → List Ev → Prop
  | nil : TellsOld path [] []
  | one (c : Change) {l es} : TellsOld path l es → TellsOld path (c :: l) (Ker.event c (path c) :: es)
  | both (a b : Change) {l es} (id : BitVec 32) : a.kind = .moveFrom id → b.kind = .moveTo id →
      TellsOld path l es → TellsOld path (a :: b :: l) (Ker.renamed a b (path a) (path a) :: es)
  | again (c c' : Change) {l es} : c.kind = .modify → c'.kind = .modify → c'.name = c.name → c'.onDir = c.onDir →
      path c' = path c → TellsOld path (c :: l) es → TellsOld path (c' :: c :: l) es

/-- Operations in which no directory changes its place. -/
def Ker.keepsDirs : Op → Bool
  | .moveDir .. => false
  | .moveOver .. => false
  | .swapDirs .. => false
  | _ => true

/-- Operations that do not move an entry from one directory to another. -/
def Ker.local : Op → Bool
  | .cross .. => false
  | .moveDir d1 _ d2 _ _ => d1 == d2
  | .moveOver d1 _ d2 _ _ => d1 == d2
  | .swapDirs d1 _ d2 _ _ _ => d1 == d2
  | _ => true

/-- All operations of a step satisfy `p`. -/
def Ker.allOps (p : Op → Bool) : Step → Bool
  | .op o => p o
  | .read _ sched => sched.all (fun x => x.1.all p)

/-- The same for what happens during opening. -/
def Ker.allSched (p : Op → Bool) (sched : List (List Op × Bool)) : Bool := sched.all (fun x => x.1.all p)

end Verif.Spec

namespace Verif.Spec
open Verif Verif.Model Verif.Model.In Verif.Model.Ker

/-- The operations that neither move a file between two directories of the tree nor a directory. -/
def Ker.calm : Op → Bool
  | .cross .. => false
  | .moveDir .. => false
  | .moveInDir .. => false
  | .moveOver .. => false
  | .moveInOver .. => false
  | .swapDirs .. => false
  | _ => true

def Ker.plainEv (d n : Str) (et : EffectType) (pt : PathType) : Ev := { path := entryPath d n, effect := et, ptype := pt }

/-- What an operation means for a tree with the directories `dirs`: the event due, if the operation takes
place in a directory of the tree, and the directories afterwards. This knows nothing of watches. -/
def Ker.expected (dirs : List Str) : Op → List Ev × List Str
  | .create d n => (if okName n && dirs.contains d then [Ker.plainEv d n .create .file] else [], dirs)
  | .modify d n => (if okName n && dirs.contains d then [Ker.plainEv d n .modify .file] else [], dirs)
  | .unlink d n => (if okName n && dirs.contains d then [Ker.plainEv d n .destroy .file] else [], dirs)
  | .rename d n1 n2 ck =>
    (if okName n1 && okName n2 && ck != 0#32 && dirs.contains d then
      [{ path := entryPath d n1, effect := .rename, ptype := .file,
         assoc := some { path := entryPath d n2, effect := .rename, ptype := .file } }] else [], dirs)
  | .moveOut d n ck => (if okName n && ck != 0#32 && dirs.contains d then [Ker.plainEv d n .rename .file] else [], dirs)
  | .moveIn d n ck => (if okName n && ck != 0#32 && dirs.contains d then [Ker.plainEv d n .rename .file] else [], dirs)
  | .mkdir d n =>
    if okName n && dirs.contains d && !dirs.contains (entryPath d n) then
      ([Ker.plainEv d n .create .dir], dirs ++ [entryPath d n]) else ([], dirs)
  | .rmdir d n _ =>
    if okName n && dirs.contains (entryPath d n) && dirs.all (fun q => !(entryPath d n ++ b!"/").isPrefixOf q) then
      (if dirs.contains d then [Ker.plainEv d n .destroy .dir] else [], dirs.filter (· != entryPath d n)) else ([], dirs)
  | _ => ([], dirs)

/-- The same for a list of operations. -/
def Ker.expectedAll (dirs : List Str) : List Op → List Ev
  | [] => []
  | o :: os => (Ker.expected dirs o).1 ++ Ker.expectedAll (Ker.expected dirs o).2 os

/-- A watcher that keeps up: after every operation everything pending is read, undisturbed. -/
def Ker.follow (st : St World) : List Op → Outcome (St World)
  | [] => .ok st
  | o :: os => do
    let st ← exec st (.op o)
    let st ← exec st (.read st.sys.k.queue.length [])
    Ker.follow st os

end Verif.Spec

namespace Verif.Spec
open Verif Verif.Model Verif.Model.In Verif.Model.Ker

/-- The path `p` is the directory `root` or lies below it, by its letters. -/
def Ker.Below (root p : Str) : Prop := p = root ∨ (if root = b!"/" then b!"/" else root ++ b!"/") <+: p

/-- Both paths of an event lie below `root`. -/
def Ker.BelowEv (root : Str) (e : Ev) : Prop := Ker.Below root e.path ∧ ∀ a, e.assoc = some a → Ker.Below root a.path

instance (root p : Str) : Decidable (Ker.Below root p) := by unfold Ker.Below; exact inferInstance

/-- The warning the code has for records the kernel dropped, about a directory. -/
def overflowMsg (d : Str) : Ev := { path := b!"w/sys/q_overflow@" ++ d, effect := .other, ptype := .watcher }

end Verif.Spec
