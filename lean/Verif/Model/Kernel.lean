import Verif.Spec.Inotify
/-!
# The environment of the inotify back end: a kernel with a directory tree

This is not code of the repository: it is the documented behaviour of inotify(7) that the code of
`include/wtr/watcher.hpp` lines 1386-1398 (`do_mark`) and 1592-1634 (`do_ev_recv`) relies on. It is used
to state what a user sees over whole histories (C31 - C35).

Simplifications: identical records are merged only when they are modifications (a creation or removal
cannot be repeated without a different record in between); a watch is only ever set on a directory;
entries that are not directories, such as symbolic links, behave like files, and links are not followed.
-/

namespace Verif.Model.Ker
open Verif Verif.Model Verif.Model.In Verif.Spec

/-- What can happen to an entry of a directory. The two halves of a move carry the same identifier. -/
inductive Kind where
  | create | delete | modify
  | moveFrom (id : BitVec 32)
  | moveTo (id : BitVec 32)
deriving DecidableEq, Repr

/-- A change seen by a watch: the directory's path at that moment, the path it had when it was first
watched, the entry's name, what happened, and whether the entry is a directory. -/
structure Change where
  dir : Str
  known : Str
  name : Str
  kind : Kind
  onDir : Bool
deriving DecidableEq, Repr

/-- The kernel's side. `hist`, `log` and `lost` are records of what happened, which nothing reads. -/
structure K where
  dirs : List Str                       -- the directories of the tree
  watches : List (Int × Str) := []      -- the live watches, with the directory's present path
  dead : List Int := []                 -- live watches of removed directories somebody still has open
  next : Int := 1                       -- descriptors are given out once
  queue : List Rec := []                -- what `read()` will return
  hist : Table := []                    -- every watch ever set, with the path it was set on
  log : List Change := []               -- every change in a directory watched at that moment, for which there was room
  limit : Option Nat := none            -- how many records may be pending (/proc/sys/fs/inotify/max_queued_events)
  lost : Nat := 0                       -- how many records there was no room for
deriving DecidableEq, Repr

/-- Things other processes do. -/
inductive Op where
  | create (d n : Str)
  | modify (d n : Str)
  | unlink (d n : Str)
  | rename (d n1 n2 : Str) (ck : BitVec 32)            -- inside one directory
  | moveOut (d n : Str) (ck : BitVec 32)               -- of a file, to a directory that is not watched
  | moveIn (d n : Str) (ck : BitVec 32)                -- of a file, from a directory that is not watched
  | cross (d1 n1 d2 n2 : Str) (ck : BitVec 32)         -- of a file, between two directories
  | mkdir (d n : Str)
  | rmdir (d n : Str) (selfFirst : Bool)               -- the two orders in which kernels report it
  | evict (wd : Int)                                   -- the last user of a removed directory closes it
  | moveDir (d1 n1 d2 n2 : Str) (ck : BitVec 32)       -- of a directory and all below it, to wherever
  | moveInDir (d n : Str) (ck : BitVec 32)             -- of an empty directory from outside the tree
  | moveOver (d1 n1 d2 n2 : Str) (ck : BitVec 32)      -- of a directory and all below it, in the place of an empty directory
  | moveInOver (d n : Str) (ck : BitVec 32)            -- of an empty directory from outside, in the place of an empty directory
  | swapDirs (d1 n1 d2 n2 : Str) (ck1 ck2 : BitVec 32) -- two directories change places (`RENAME_EXCHANGE`)
deriving DecidableEq, Repr

/-- The renaming of a directory inside its parent. -/
abbrev Op.renameDir (d n1 n2 : Str) (ck : BitVec 32) : Op := .moveDir d n1 d n2 ck

/-- A name the kernel accepts. -/
def okName (n : Str) : Bool := n != [] && decide (n.length ≤ 255) && !n.contains 0 && !n.contains 47

/-- The watch of the directory that is now at `d`. -/
def wdOf (k : K) (d : Str) : Option Int :=
  (k.watches.find? (fun e => e.2 == d && !k.dead.contains e.1)).map (·.1)

/-- A cookie no pending record has. -/
def fresh (k : K) (ck : BitVec 32) : Bool := ck != 0#32 && k.queue.all (fun r => r.cookie != ck)

def Kind.mask : Kind → BitVec 32
  | .create => 0x100#32 | .delete => 0x200#32 | .modify => 0x2#32
  | .moveFrom _ => 0x40#32 | .moveTo _ => 0x80#32

def Kind.cookie : Kind → BitVec 32
  | .moveFrom id => id | .moveTo id => id | _ => 0#32

/-- The record for a change. Names are padded to a multiple of 16 bytes. -/
def recOf (wd : Int) (kind : Kind) (name : Str) (onDir : Bool) : Rec :=
  { wd := wd, mask := if onDir then kind.mask ||| 0x40000000#32 else kind.mask, cookie := kind.cookie,
    name := name, pad := 16 - name.length % 16 }

def ignoredRec (wd : Int) : Rec := { wd := wd, mask := 0x8000#32 }
def deleteSelfRec (wd : Int) : Rec := { wd := wd, mask := 0x400#32 }
def moveSelfRec (wd : Int) : Rec := { wd := wd, mask := 0x800#32 }

/-- A pending modification is not queued twice in a row. -/
def enqueue (q : List Rec) (r : Rec) (kind : Kind) : List Rec :=
  if kind = .modify ∧ q.getLast? = some r then q else q ++ [r]

/-- The record that stands for those there was no room for. -/
def overflowRec : Rec := { wd := -1, mask := 0x4000#32 }

def full (k : K) : Bool := match k.limit with
  | none => false
  | some m => decide (m ≤ k.queue.length)

/-- A record is lost: unless one is pending already, a record that says so is queued. -/
def lose (k : K) : K := { k with
    queue := if k.queue.contains overflowRec then k.queue else k.queue ++ [overflowRec]
    lost := k.lost + 1 }

/-- A record about a watch itself is queued. -/
def push (k : K) (r : Rec) : K := if full k then lose k else { k with queue := k.queue ++ [r] }

/-- Something happened to the entry `name` of directory `d`. -/
def notify (k : K) (d name : Str) (kind : Kind) (onDir : Bool) : K :=
  match wdOf k d with
  | none => k
  | some wd => if full k then lose k else { k with
      queue := enqueue k.queue (recOf wd kind name onDir) kind
      log := k.log ++ [{ dir := d, known := (k.hist.lookup wd).getD [], name := name, kind := kind, onDir := onDir }] }

/-- The kernel drops a watch whose directory is gone. -/
def evictWd (k : K) (wd : Int) : K :=
  if k.dead.contains wd then
    push (push { k with
      watches := k.watches.filter (fun e => e.1 != wd)
      dead := k.dead.filter (· != wd) } (deleteSelfRec wd)) (ignoredRec wd)
  else k

/-- A directory was removed from the tree: its watch lives until the last user is gone. -/
def bury (k : K) (p : Str) : K :=
  let k' := match wdOf k p with
    | none => k
    | some wd => { k with dead := wd :: k.dead }
  { k' with dirs := k'.dirs.filter (· != p) }

/-- A path after the directory `p` became `q`. -/
def repath (p q x : Str) : Str := if x = p then q else if (p ++ b!"/").isPrefixOf x then q ++ x.drop p.length else x

/-- Directories changed their places: `f` is the new path for the old one. -/
def relocate (k : K) (f : Str → Str) : K := { k with
    dirs := k.dirs.map f
    watches := k.watches.map (fun e => (e.1, if k.dead.contains e.1 then e.2 else f e.2)) }

/-- The watch of the directory that was at `p` in `k0`, if any, gets a record about the move itself. -/
def pushMoved (k0 k : K) (p : Str) : K := match wdOf k0 p with
  | none => k
  | some wd => push k (moveSelfRec wd)

/-- A directory is moved to a place where nothing is. -/
def moveDirK (k : K) (d1 n1 d2 n2 : Str) (ck : BitVec 32) : K :=
  pushMoved k (relocate (notify (notify k d1 n1 (.moveFrom ck) true) d2 n2 (.moveTo ck) true)
    (repath (entryPath d1 n1) (entryPath d2 n2))) (entryPath d1 n1)

/-- Two directories changed their places. -/
def swapPath (p q x : Str) : Str :=
  if x = p ∨ (p ++ b!"/").isPrefixOf x = true then repath p q x else repath q p x

/-- Is `p` a directory without directories in it? -/
def emptyDir (k : K) (p : Str) : Bool := k.dirs.contains p && k.dirs.all (fun q => !(p ++ b!"/").isPrefixOf q)

/-- The effect of an operation; impossible ones do nothing. -/
def apply (k : K) : Op → K
  | .create d n => if okName n then notify k d n .create false else k
  | .modify d n => if okName n then notify k d n .modify false else k
  | .unlink d n => if okName n then notify k d n .delete false else k
  | .rename d n1 n2 ck =>
    if okName n1 && okName n2 && fresh k ck then
      notify (notify k d n1 (.moveFrom ck) false) d n2 (.moveTo ck) false else k
  | .moveOut d n ck => if okName n && fresh k ck then notify k d n (.moveFrom ck) false else k
  | .moveIn d n ck => if okName n && fresh k ck then notify k d n (.moveTo ck) false else k
  | .cross d1 n1 d2 n2 ck =>
    if okName n1 && okName n2 && fresh k ck then
      notify (notify k d1 n1 (.moveFrom ck) false) d2 n2 (.moveTo ck) false else k
  | .mkdir d n =>
    if okName n && k.dirs.contains d && !k.dirs.contains (entryPath d n) then
      notify { k with dirs := k.dirs ++ [entryPath d n] } d n .create true else k
  | .rmdir d n selfFirst =>
    let p := entryPath d n
    if okName n && k.dirs.contains p && k.dirs.all (fun q => !(p ++ b!"/").isPrefixOf q) then
      if selfFirst then
        let k1 := bury k p
        let k2 := match wdOf k p with
          | none => k1
          | some wd => evictWd k1 wd
        notify k2 d n .delete true
      else notify (bury k p) d n .delete true
    else k
  | .evict wd => evictWd k wd
  | .moveDir d1 n1 d2 n2 ck =>
    let p := entryPath d1 n1
    let q := entryPath d2 n2
    if okName n1 && okName n2 && fresh k ck && k.dirs.contains p && !k.dirs.contains q && !(p ++ b!"/").isPrefixOf q then
      moveDirK k d1 n1 d2 n2 ck
    else k
  | .moveInDir d n ck =>
    if okName n && fresh k ck && k.dirs.contains d && !k.dirs.contains (entryPath d n) then
      notify { k with dirs := k.dirs ++ [entryPath d n] } d n (.moveTo ck) true else k
  -- the directory that was there gets no record of its own in its parent; its watch lives until its last user is gone
  | .moveOver d1 n1 d2 n2 ck =>
    let p := entryPath d1 n1
    let q := entryPath d2 n2
    if okName n1 && okName n2 && fresh k ck && k.dirs.contains p && emptyDir k q && p != q && !(p ++ b!"/").isPrefixOf q then
      moveDirK (bury k q) d1 n1 d2 n2 ck
    else k
  | .moveInOver d n ck =>
    let p := entryPath d n
    if okName n && fresh k ck && k.dirs.contains d && emptyDir k p then
      let k1 := bury k p
      notify { k1 with dirs := k1.dirs ++ [p] } d n (.moveTo ck) true else k
  | .swapDirs d1 n1 d2 n2 ck1 ck2 =>
    let p := entryPath d1 n1
    let q := entryPath d2 n2
    if okName n1 && okName n2 && fresh k ck1 && fresh k ck2 && ck1 != ck2 && k.dirs.contains p && k.dirs.contains q && p != q
        && !(p ++ b!"/").isPrefixOf q && !(q ++ b!"/").isPrefixOf p then
      let k1 := pushMoved k (notify (notify k d1 n1 (.moveFrom ck1) true) d2 n2 (.moveTo ck1) true) p
      let k2 := pushMoved k (notify (notify k1 d2 n2 (.moveFrom ck2) true) d1 n1 (.moveTo ck2) true) q
      relocate k2 (swapPath p q)
    else k

/-- The kernel together with what will happen during the next system calls: before each of them some
operations take place, and setting a watch may fail for lack of resources. -/
structure World where
  k : K
  sched : List (List Op × Bool) := []
deriving DecidableEq, Repr

/-- Time passes until the next system call. -/
def tick (w : World) : Bool × World :=
  match w.sched with
  | [] => (false, w)
  | (ops, fail) :: rest => (fail, { k := ops.foldl apply w.k, sched := rest })

/-- Is the path written canonically? (All that `realpath` answers is.) -/
def canonicalB (p : Str) : Bool := p != [] && (p.getLast? != some 47 || p == b!"/")

/-- Setting a watch: the directory's descriptor if it has a watch, otherwise a new one. -/
def addWatchK (k : K) (p : Str) : Int × K :=
  if k.dirs.contains p && decide (k.next < 2147483647) then
    match wdOf k p with
    | some wd => (wd, k)
    | none => (k.next, { k with watches := (k.next, p) :: k.watches, hist := (k.next, p) :: k.hist, next := k.next + 1 })
  else (-1, k)

/-- The system calls, answered by the kernel. -/
def sys : Sys World where
  realpath w p := let (_, w) := tick w; (if w.k.dirs.contains p && canonicalB p then some p else none, w)
  isDir w p := let (_, w) := tick w; (w.k.dirs.contains p, w)
  addWatch w p :=
    let (fail, w) := tick w
    if fail then (-1, w)
    else let (wd, k) := addWatchK w.k p; (wd, { w with k := k })

/-- A history: operations of other processes, and reads of the watcher (the first `n` records; with what
happens during its system calls meanwhile). -/
inductive Step where
  | op (o : Op)
  | read (n : Nat) (sched : List (List Op × Bool))
deriving DecidableEq, Repr

/-- One step. A read of more than fits into the buffer does not happen. If the watcher stopped, the outcome
is `ub`. -/
def exec (st : St World) : Step → Outcome (St World)
  | .op o => .ok { st with sys := { st.sys with k := apply st.sys.k o } }
  | .read n sched =>
    let rs := st.sys.k.queue.take n
    if (batch rs).length ≤ bufLen then do
      let (st, r) ← doEvRecv sys (.data (batch rs))
        { st with sys := { k := { st.sys.k with queue := st.sys.k.queue.drop n }, sched := sched } }
      if r.keepsRunning then pure st else .ub "the watcher stopped"
    else .ok st

def execs (st : St World) : List Step → Outcome (St World)
  | [] => .ok st
  | s :: ss => do let st ← exec st s; execs st ss

/-- Opening a watch on a tree: `make_dm` (watcher.hpp:1413-1420) marks the directories of the walk. At most
`limit` records may be pending in the kernel. -/
def openedLim (limit : Option Nat) (dirs marks : List Str) (sched : List (List Op × Bool)) : St World :=
  (makeDm sys marks { dm := [], sys := { k := { dirs := dirs, limit := limit }, sched := sched } }).1

/-- The same when the kernel's queue has no limit. -/
def opened (dirs marks : List Str) (sched : List (List Op × Bool)) : St World := openedLim none dirs marks sched

end Verif.Model.Ker
