import Verif.Model.FKernel
/-!
# Specification of whole histories with fanotify (C83 - C86)
-/

namespace Verif.Spec.FKer
open Verif Verif.Model Verif.Model.Fa Verif.Model.FKer

/-- The directories by their paths, each with whether it is watched. -/
abbrev Tree := List (Str × Bool)

def exists? (t : Tree) (d : Str) : Bool := t.any (fun e => e.1 == d)
def watched (t : Tree) (d : Str) : Bool := t.any (fun e => e.1 == d && e.2)

/-- A name that may be given to an entry: 1 to 255 bytes, neither `.` nor `..`, without `/` and zero bytes. -/
def legalName (n : Str) : Bool :=
  decide (0 < n.length) && decide (n.length ≤ 255) && n.all (fun c => c != 0 && c != 47) && !(n == b!"." || n == b!"..")

/-- `x` is `p` or lies below it. -/
def below (p x : Str) : Bool := x == p || (p ++ b!"/").isPrefixOf x

/-- An event about the entry `n` of `d`. -/
def about (d n : Str) (et : EffectType) (pt : PathType) : Ev := { path := d ++ b!"/" ++ n, effect := et, ptype := pt }

/-- The events due for a move: one with both paths if both directories are watched, otherwise one about the
watched end. -/
def moved (t : Tree) (d1 n1 d2 n2 : Str) (pt : PathType) : List Ev :=
  match watched t d1, watched t d2 with
  | true, true => [{ path := d1 ++ b!"/" ++ n1, effect := .rename, ptype := pt,
                     assoc := some { path := d2 ++ b!"/" ++ n2, effect := .rename, ptype := pt } }]
  | true, false => [about d1 n1 .rename pt]
  | false, true => [about d2 n2 .rename pt]
  | false, false => []

/-- A directory is moved to a place where nothing is: the events due, and the directories afterwards. -/
def movedDir (t : Tree) (d1 n1 d2 n2 : Str) : List Ev × Tree :=
  let p := d1 ++ b!"/" ++ n1
  let q := d2 ++ b!"/" ++ n2
  let t' := t.map (fun e => (if below p e.1 then q ++ e.1.drop p.length else e.1, e.2))
  if legalName n1 && legalName n2 && exists? t p && exists? t d2 && !below p d2 && t.all (fun e => !below q e.1)
      && t'.all (fun e => decide (e.1.length ≤ 3829)) then
    (moved t d1 n1 d2 n2 .dir, t') else ([], t)

/-- Can the two directories change places? -/
def canSwap (t : Tree) (d1 n1 d2 n2 : Str) : Bool :=
  let p := d1 ++ b!"/" ++ n1
  let q := d2 ++ b!"/" ++ n2
  let t' := t.map (fun e => (if below p e.1 then q ++ e.1.drop p.length else if below q e.1 then p ++ e.1.drop q.length else e.1, e.2))
  legalName n1 && legalName n2 && exists? t p && exists? t q && !below p q && !below q p
    && t'.all (fun e => decide (e.1.length ≤ 3829))

/-- What an operation means: the events due, and the directories afterwards. A new directory is watched
exactly if the one it was made in is; a moved one stays as it was; of an empty directory that another one replaces nothing is said; an exchange is two moves. This knows nothing of handles and records. -/
def expected (t : Tree) : Op → List Ev × Tree
  | .create d n => (if legalName n && watched t d then [about d n .create .file] else [], t)
  | .modify d n => (if legalName n && watched t d then [about d n .modify .file] else [], t)
  | .unlink d n => (if legalName n && watched t d then [about d n .destroy .file] else [], t)
  | .move d1 n1 d2 n2 =>
    (if legalName n1 && legalName n2 && !(d1 == d2 && n1 == n2) then moved t d1 n1 d2 n2 .file else [], t)
  | .mkdir d n _ =>
    let p := d ++ b!"/" ++ n
    if legalName n && exists? t d && !exists? t p && decide (p.length ≤ 3829) then
      (if watched t d then [about d n .create .dir] else [], t ++ [(p, watched t d)]) else ([], t)
  | .rmdir d n =>
    let p := d ++ b!"/" ++ n
    if legalName n && exists? t p && t.all (fun e => e.1 == p || !below p e.1) then
      (if watched t d then [about d n .destroy .dir] else [], t.filter (fun e => e.1 != p)) else ([], t)
  | .moveDir d1 n1 d2 n2 => movedDir t d1 n1 d2 n2
  | .moveOver d1 n1 d2 n2 =>
    let p := d1 ++ b!"/" ++ n1
    let q := d2 ++ b!"/" ++ n2
    let t' := t.map (fun e => (if below p e.1 then q ++ e.1.drop p.length else e.1, e.2))
    if legalName n1 && legalName n2 && exists? t p && exists? t q && exists? t d2 && p != q && !below p d2 && t.all (fun e => e.1 == q || !below q e.1)
        && t'.all (fun e => decide (e.1.length ≤ 3829)) then
      movedDir (t.filter (fun e => e.1 != q)) d1 n1 d2 n2 else ([], t)
  | .swapDirs d1 n1 d2 n2 =>
    let p := d1 ++ b!"/" ++ n1
    let q := d2 ++ b!"/" ++ n2
    let t' := t.map (fun e => (if below p e.1 then q ++ e.1.drop p.length else if below q e.1 then p ++ e.1.drop q.length else e.1, e.2))
    if canSwap t d1 n1 d2 n2 then (moved t d1 n1 d2 n2 .dir ++ moved t d2 n2 d1 n1 .dir, t') else ([], t)

/-- Not an exchange of two directories. -/
def single (x : Do) : Bool := match x.op with | .swapDirs .. => false | _ => true

/-- The same for a list of operations. -/
def expectedAll (t : Tree) : List Do → List Ev
  | [] => []
  | x :: xs => (expected t x.op).1 ++ expectedAll (expected t x.op).2 xs

/-- Exchanges are not merged with anything, and of the two directories they take place in both are watched or none. -/
def neat (t : Tree) : List Do → Bool
  | [] => true
  | x :: xs =>
    (match x.op with
      | .swapDirs d1 _ d2 _ => !x.who.merge && watched t d1 == watched t d2
      | _ => true) && neat (expected t x.op).2 xs

/-- What is in fact told of an exchange: if the kernel merges its records, only half of it; if of the two
directories it takes place in only one is watched, one rename, without merging a rename of a directory to itself. -/
def swapTold (t : Tree) (merge : Bool) (d1 n1 d2 n2 : Str) : List Ev :=
  let p := d1 ++ b!"/" ++ n1
  let q := d2 ++ b!"/" ++ n2
  let ev (a b : Str) : Ev := { path := a, effect := .rename, ptype := .dir, assoc := some { path := b, effect := .rename, ptype := .dir } }
  match watched t d1, watched t d2 with
  | true, true => if merge then [ev p q] else [ev p q, ev q p]
  | true, false => if merge then [about d1 n1 .rename .dir] else [ev p p]
  | false, true => if merge then [about d2 n2 .rename .dir] else [ev q q]
  | false, false => []

/-- What is in fact told of an operation. -/
def actual (t : Tree) (x : Do) : List Ev :=
  match x.op with
  | .swapDirs d1 n1 d2 n2 => if canSwap t d1 n1 d2 n2 then swapTold t x.who.merge d1 n1 d2 n2 else []
  | op => (expected t op).1

def actualAll (t : Tree) : List Do → List Ev
  | [] => []
  | x :: xs => actual t x ++ actualAll (expected t x.op).2 xs

/-- A watcher that keeps up: after every operation everything pending is read, undisturbed. -/
def follow (rf : Bool) (st : Fa.St World) : List Do → Outcome (Fa.St World)
  | [] => .ok st
  | x :: xs => do
    let st ← exec rf st (.op x)
    let st ← exec rf st (.read st.sys.k.queue.length [])
    follow rf st xs

/-- A tree of directories: different handles of at most 128 bytes, different paths, none of them the root,
empty, ending in a slash or over-long. -/
structure GoodTree (dirs : List (Handle × Str)) : Prop where
  handles : (dirs.map (·.1)).Nodup
  paths : (dirs.map (·.2)).Nodup
  short : ∀ e ∈ dirs, e.1.length ≤ 128 ∧ e.2.length ≤ 3829
  canon : ∀ e ∈ dirs, e.2 ≠ [] ∧ e.2.getLast? ≠ some 47

/-- The handles given to new directories. -/
def newHandles : List Do → List Handle
  | [] => []
  | ⟨.mkdir _ _ h, _⟩ :: xs => h :: newHandles xs
  | _ :: xs => newHandles xs

/-- The file system gives every new directory a handle no directory has or had, of at most 128 bytes. -/
def NewHandles (dirs : List (Handle × Str)) (ops : List Do) : Prop :=
  (dirs.map (·.1) ++ newHandles ops).Nodup ∧ ∀ h ∈ newHandles ops, h.length ≤ 128

end Verif.Spec.FKer

namespace Verif.Spec.FKer
open Verif Verif.Model Verif.Model.Fa Verif.Model.FKer

/-- How a change should be reported. -/
def effectDue : Kind → EffectType
  | .create => .create | .delete => .destroy | .modify => .modify | .moveFrom => .rename | .moveTo => .rename

def typeOf (c : Change) : PathType := if c.onDir then .dir else .file

/-- `p` is the entry of the change below a path its directory has or had. -/
def At (past : List (Handle × Str)) (c : Change) (p : Str) : Prop := ∃ d, (c.handle, d) ∈ past ∧ p = d ++ b!"/" ++ c.name

/-- The same, or below such a path with the suffix the kernel gives to removed directories. -/
def Near (past : List (Handle × Str)) (c : Change) (p : Str) : Prop :=
  At past c p ∨ ∃ d, (c.handle, d) ∈ past ∧ p = d ++ b!" (deleted)" ++ b!"/" ++ c.name

/-- The event is about a change that happened in a directory marked at that moment; one with an associated
event is about an old name and a new name. The paths are ones `At'` allows for the change. -/
def Genuine (At' : Change → Str → Prop) (log : List Change) (e : Ev) : Prop :=
  match e.assoc with
  | none => ∃ c ∈ log, At' c e.path ∧ e.effect = effectDue c.kind ∧ e.ptype = typeOf c
  | some a => ∃ c ∈ log, ∃ c' ∈ log, c.kind = .moveFrom ∧ c'.kind = .moveTo ∧ At' c e.path ∧ At' c' a.path ∧
      e.effect = .rename ∧ a.effect = .rename ∧ a.ptype = e.ptype ∧ (e.ptype = typeOf c ∨ e.ptype = typeOf c')

/-- All operations of a step satisfy `p`. -/
def allOps (p : Do → Bool) : Step → Bool
  | .op o => p o
  | .read _ sched => sched.all (fun x => x.1.all p)

/-- The same for what happens during opening. -/
def allSched (p : Do → Bool) (sched : List (List Do × Bool)) : Bool := sched.all (fun x => x.1.all p)

/-- All operations that happen during the system calls of a read satisfy `p`. -/
def allReads (p : Do → Bool) : Step → Bool
  | .op _ => true
  | .read _ sched => allSched p sched

/-- Nobody removes a directory or replaces one. -/
def keeps (x : Do) : Bool := match x.op with | .rmdir .. => false | .moveOver .. => false | _ => true

/-- The kernel does not merge the record with another. -/
def apart (x : Do) : Bool := !x.who.merge

/-- Nothing is moved or removed as a directory. -/
def plain (x : Do) : Bool := match x.op with | .rmdir .. => false | .move .. => false | .moveDir .. => false | .moveOver .. => false | .swapDirs .. => false | _ => true

/-- The event is about the entry of the change. -/
def Mentions (past : List (Handle × Str)) (c : Change) (e : Ev) : Prop := At past c e.path ∨ ∃ a, e.assoc = some a ∧ At past c a.path

/-- The events tell the changes, in order, each exactly once; an old name directly followed by a new name
in one event. -/
inductive Told (past : List (Handle × Str)) : List Change → List Ev → Prop
  | nil : Told past [] []
  | one {c : Change} {l : List Change} {p : Str} {es : List Ev} : At past c p → Told past l es →
      Told past (c :: l) (⟨p, effectDue c.kind, typeOf c, none⟩ :: es)
  | both {a b : Change} {l : List Change} {p q : Str} {es : List Ev} : a.kind = .moveFrom → b.kind = .moveTo → At past a p → At past b q →
      Told past l es → Told past (a :: b :: l) (⟨p, .rename, typeOf a, some ⟨q, .rename, typeOf a⟩⟩ :: es)

/-- No read of the history returns a new name directly followed by an old name, or fills the buffer up to its
end with a rename there. -/
def Fine (rf : Bool) (st : Fa.St World) : List Step → Prop
  | [] => True
  | .op o :: ss => ∀ st', exec rf st (.op o) = .ok st' → Fine rf st' ss
  | .read n sched :: ss => NoSwap (st.sys.k.queue.take n) ∧ Roomy (st.sys.k.queue.take n) ∧
      ∀ st', exec rf st (.read n sched) = .ok st' → Fine rf st' ss

/-- Whenever records are read, the directories they are about are still there. -/
def Present (rf : Bool) (st : Fa.St World) : List Step → Prop
  | [] => True
  | .op o :: ss => ∀ st', exec rf st (.op o) = .ok st' → Present rf st' ss
  | .read n sched :: ss => (∀ r ∈ st.sys.k.queue.take n, r.handle ∈ st.sys.k.dirs.map (·.1)) ∧
      ∀ st', exec rf st (.read n sched) = .ok st' → Present rf st' ss

end Verif.Spec.FKer
