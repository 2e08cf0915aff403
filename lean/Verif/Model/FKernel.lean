import Verif.Spec.Fanotify
/-!
# The environment of the fanotify back end: a kernel with directories known by handles

This is not code of the repository: it is the documented behaviour of fanotify(7), `open_by_handle_at(2)`
and `readlink(2)` on `/proc/self/fd` that the code of `include/wtr/watcher.hpp` lines 1057-1070 (`do_mark`),
1126-1157 (`pathof`) and 1240-1276 (`do_ev_recv`) relies on. It is used to state what a user sees over whole
histories (C83 - C86).

All directories of the file system that matter are in the model, watched or not, so that moves into and out
of the watched part are ordinary moves. Simplifications: the queue has no limit (the code asks for
`FAN_UNLIMITED_QUEUE`); entries that are not directories, such as
symbolic links, behave like files, and links are not followed; paths of directories have at most 3829 bytes; the root directory is not
among the directories (C41 is about it).
-/

namespace Verif.Model.FKer
open Verif Verif.Model Verif.Model.Fa Verif.Spec

/-- What the file system knows a directory by. Handles are not used again. -/
abbrev Handle := List UInt8

/-- What can happen to an entry of a directory. -/
inductive Kind where
  | create | delete | modify | moveFrom | moveTo
deriving DecidableEq, Repr

/-- A change seen by a mark: the directory and its path at that moment, the entry's name, what happened, and
whether the entry is a directory. -/
structure Change where
  handle : Handle
  dir : Str
  name : Str
  kind : Kind
  onDir : Bool
deriving DecidableEq, Repr

/-- The kernel's side. `log` is a record of what happened, which nothing reads. -/
structure K where
  dirs : List (Handle × Str)            -- the directories, with their present paths
  marked : List Handle := []            -- the marked directories
  past : List (Handle × Str)            -- every path a directory has or had, the latest last
  queue : List FRec := []               -- what `read()` will return
  log : List Change := []               -- every change in a directory marked at that moment
deriving DecidableEq, Repr

/-- Things other processes do. -/
inductive Op where
  | create (d n : Str)
  | modify (d n : Str)
  | unlink (d n : Str)
  | move (d1 n1 d2 n2 : Str)            -- of a file, inside a directory or between any two directories
  | mkdir (d n : Str) (h : Handle)
  | rmdir (d n : Str)
  | moveDir (d1 n1 d2 n2 : Str)         -- of a directory with everything below it
  | moveOver (d1 n1 d2 n2 : Str)        -- the same, in the place of an empty directory
  | swapDirs (d1 n1 d2 n2 : Str)        -- two directories, with everything below them, change places (`RENAME_EXCHANGE`)
deriving DecidableEq, Repr

/-- Which process does it, further information the record will carry, and whether the kernel merges the
record with a pending one about the same entry. -/
structure Who where
  pid : BitVec 32 := 1#32
  extra : List UInt8 := []
  merge : Bool := true
deriving DecidableEq, Repr

/-- A name the kernel accepts for a new entry. -/
def okName (n : Str) : Bool :=
  n != [] && decide (n.length ≤ 255) && !n.contains 0 && !n.contains 47 && n != b!"." && n != b!".."

/-- The path of the entry `n` of directory `d`. -/
def child (d n : Str) : Str := d ++ b!"/" ++ n

/-- The directory that is now at `d`. -/
def handleOf (k : K) (d : Str) : Option Handle := (k.dirs.find? (fun e => e.2 == d)).map (·.1)

def Kind.mask : Kind → BitVec 64
  | .create => 0x100#64 | .delete => 0x200#64 | .modify => 0x2#64 | .moveFrom => 0x40#64 | .moveTo => 0x80#64

/-- The record for a change. -/
def recOf (h : Handle) (kind : Kind) (name : Str) (onDir : Bool) (who : Who) : FRec :=
  { mask := if onDir then kind.mask ||| 0x40000000#64 else kind.mask, handle := h, name := name,
    pad := 4 - (h.length + name.length) % 4, extra := who.extra, pid := who.pid }

/-- Are the records about the same entry and from the same process? -/
def same (x r : FRec) : Bool :=
  x.handle == r.handle && x.name == r.name && x.pid == r.pid && (x.onDir == r.onDir)

/-- A pending record about the same entry takes the new one's bits. -/
def mergeInto : List FRec → FRec → Option (List FRec)
  | [], _ => none
  | x :: q, r => if same x r then some ({ x with mask := x.mask ||| r.mask } :: q) else (mergeInto q r).map (x :: ·)

def enqueue (q : List FRec) (r : FRec) (merge : Bool) : List FRec :=
  if merge then (mergeInto q r).getD (q ++ [r]) else q ++ [r]

/-- Something happened to the entry `name` of directory `d`. -/
def notify (k : K) (d name : Str) (kind : Kind) (onDir : Bool) (who : Who) : K :=
  match handleOf k d with
  | none => k
  | some h =>
    if k.marked.contains h then { k with
      queue := enqueue k.queue (recOf h kind name onDir who) who.merge
      log := k.log ++ [{ handle := h, dir := d, name := name, kind := kind, onDir := onDir }] }
    else k

/-- Is there a directory at `p`? -/
def there (k : K) (p : Str) : Bool := k.dirs.any (fun e => e.2 == p)

/-- Is `x` the path `p` or below it? -/
def inside (p x : Str) : Bool := x == p || (p ++ b!"/").isPrefixOf x

/-- A path after the directory `p` became `q`. -/
def repath (p q x : Str) : Str := if inside p x then q ++ x.drop p.length else x

/-- Longest path of a directory. -/
def pathLim : Nat := 3829

/-- The directory at `p` and its mark are gone. -/
def vanish (k : K) (p : Str) : K :=
  { k with dirs := k.dirs.filter (fun e => e.2 != p), marked := k.marked.filter (fun x => some x != handleOf k p) }

/-- A directory is moved to a place where nothing is. -/
def moveDirF (k : K) (who : Who) (d1 n1 d2 n2 : Str) : K :=
  let p := child d1 n1
  let q := child d2 n2
  if okName n1 && okName n2 && there k p && there k d2 && !inside p d2 && k.dirs.all (fun e => !inside q e.2)
      && k.dirs.all (fun e => decide ((repath p q e.2).length ≤ pathLim)) then
    let k := notify (notify k d1 n1 .moveFrom true who) d2 n2 .moveTo true who
    let moved := k.dirs.map (fun e => (e.1, repath p q e.2))
    { k with dirs := moved, past := k.past ++ moved }
  else k

/-- A path after the directories `p` and `q` changed places. -/
def swapPath (p q x : Str) : Str := if inside p x then repath p q x else repath q p x

/-- Two directories change places: the kernel reports it as two moves. -/
def swapDirsF (k : K) (who : Who) (d1 n1 d2 n2 : Str) : K :=
  let p := child d1 n1
  let q := child d2 n2
  if okName n1 && okName n2 && there k p && there k q && !inside p q && !inside q p
      && k.dirs.all (fun e => decide ((swapPath p q e.2).length ≤ pathLim)) then
    let k := notify (notify k d1 n1 .moveFrom true who) d2 n2 .moveTo true who
    let k := notify (notify k d2 n2 .moveFrom true who) d1 n1 .moveTo true who
    let swapped := k.dirs.map (fun e => (e.1, swapPath p q e.2))
    { k with dirs := swapped, past := k.past ++ swapped }
  else k

/-- The effect of an operation; impossible ones do nothing. -/
def apply (k : K) (who : Who) : Op → K
  | .create d n => if okName n then notify k d n .create false who else k
  | .modify d n => if okName n then notify k d n .modify false who else k
  | .unlink d n => if okName n then notify k d n .delete false who else k
  | .move d1 n1 d2 n2 =>
    if okName n1 && okName n2 && !(d1 == d2 && n1 == n2) then
      notify (notify k d1 n1 .moveFrom false who) d2 n2 .moveTo false who else k
  | .mkdir d n h =>
    if okName n && there k d && !there k (child d n) && decide ((child d n).length ≤ pathLim)
        && !(k.past.map (·.1)).contains h && decide (h.length ≤ 128) then
      notify { k with dirs := k.dirs ++ [(h, child d n)], past := k.past ++ [(h, child d n)] } d n .create true who
    else k
  | .rmdir d n =>
    let p := child d n
    if okName n && there k p && k.dirs.all (fun e => e.2 == p || !inside p e.2) then
      let h := handleOf k p
      let k := notify k d n .delete true who
      { k with dirs := k.dirs.filter (fun e => e.2 != p), marked := k.marked.filter (fun x => some x != h) }
    else k
  | .moveDir d1 n1 d2 n2 => moveDirF k who d1 n1 d2 n2
  -- nothing is said of the directory that was there
  | .moveOver d1 n1 d2 n2 =>
    let p := child d1 n1
    let q := child d2 n2
    if okName n1 && okName n2 && there k p && there k q && there k d2 && p != q && !inside p d2 && k.dirs.all (fun e => e.2 == q || !inside q e.2)
        && k.dirs.all (fun e => decide ((repath p q e.2).length ≤ pathLim)) then
      moveDirF (vanish k q) who d1 n1 d2 n2
    else k
  | .swapDirs d1 n1 d2 n2 => swapDirsF k who d1 n1 d2 n2

/-- What somebody does. -/
structure Do where
  op : Op
  who : Who := {}
deriving DecidableEq, Repr

/-- Records have a bounded size: further information is at most 200 bytes. -/
def doIt (k : K) (x : Do) : K := if x.who.extra.length ≤ 200 then apply k x.who x.op else k

/-- The kernel together with what will happen during the next system calls (before each of them some
operations take place, and marking may fail), and the directory opened last. -/
structure World where
  k : K
  sched : List (List Do × Bool) := []
  cur : Handle := []
deriving DecidableEq, Repr

/-- Time passes until the next system call. -/
def tick (w : World) : Bool × World :=
  match w.sched with
  | [] => (false, w)
  | (ops, fail) :: rest => (fail, { w with k := ops.foldl doIt w.k, sched := rest })

/-- What `readlink` says of a directory: its path, followed by " (deleted)" if it was removed. -/
def linkOf (k : K) (h : Handle) : Str :=
  match k.dirs.lookup h with
  | some p => p
  | none => ((k.past.filter (fun e => e.1 == h)).getLast?.map (fun e => e.2 ++ b!" (deleted)")).getD []

/-- Paths the model does not have (see the invariant `Inv` in `Lemmas/FKernel.lean`) read as the root. -/
def clip (p : Str) : Str := if p != [] && decide (p.length ≤ 3839) then p else b!"/"

/-- The system calls, answered by the kernel. ESTALE is 116. -/
def sys (rightFirst : Bool) : Fa.Sys World where
  realpath w p := let (_, w) := tick w; (if there w.k p then some p else none, w)
  isDir w p := let (_, w) := tick w; (there w.k p, w)
  mark w p :=
    let (fail, w) := tick w
    if fail then (false, w)
    else match handleOf w.k p with
      | none => (false, w)
      | some h => (true, { w with k := { w.k with marked := if w.k.marked.contains h then w.k.marked else h :: w.k.marked } })
  openByHandle w h :=
    let (_, w) := tick w
    match w.k.dirs.lookup h with
    | some _ => ((3, 0), { w with cur := h })
    | none => ((-1, 116), w)
  readlink w _ := let (_, w) := tick w; (some (clip (linkOf w.k w.cur)), w)
  rightFirst := rightFirst

/-- A history: operations of other processes, and reads of the watcher (the first `n` records; with what
happens during its system calls meanwhile). -/
inductive Step where
  | op (o : Do)
  | read (n : Nat) (sched : List (List Do × Bool))
deriving DecidableEq, Repr

/-- One step. A read of more than fits into the buffer does not happen. If the watcher stopped, the outcome
is `ub`. -/
def exec (rf : Bool) (st : Fa.St World) : Step → Outcome (Fa.St World)
  | .op o => .ok { st with sys := { st.sys with k := doIt st.sys.k o } }
  | .read n sched =>
    let rs := st.sys.k.queue.take n
    if (fbatch rs).length ≤ bufLen then do
      let (st, r) ← doEvRecv (sys rf) (.data (fbatch rs))
        { st with sys := { st.sys with k := { st.sys.k with queue := st.sys.k.queue.drop n }, sched := sched } }
      if r.keepsRunning then pure st else .ub "the watcher stopped"
    else .ok st

def execs (rf : Bool) (st : Fa.St World) : List Step → Outcome (Fa.St World)
  | [] => .ok st
  | s :: ss => do let st ← exec rf st s; execs rf st ss

/-- Opening a watch: `make_sysres` (watcher.hpp:1084) marks the directories of the walk, `marks`. -/
def opened (rf : Bool) (dirs : List (Handle × Str)) (marks : List Str) (sched : List (List Do × Bool)) : Fa.St World :=
  marks.foldl (fun st d => (doMark (sys rf) d st).1)
    { buf := List.replicate bufLen 0, sys := { k := { dirs := dirs, past := dirs }, sched := sched } }

end Verif.Model.FKer
