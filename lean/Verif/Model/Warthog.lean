import Verif.Model.Result
/-!
# The portable scanner

Models `include/wtr/watcher.hpp` lines 1974-2181. What the file system answers during a pass is the input;
a file's answers may differ between the two halves of a pass (`tend_bucket`, `scan`), but are the same within
a half. Not modelled: the pause between passes, the order of an unordered map, errors of `exists` and
`is_regular_file` other than "does not exist" (these throw, and the functions are `noexcept`).
-/

namespace Verif.Model.Warthog
open Verif Verif.Model

/-- Write times. -/
abbrev Time := Int

/-- A path met while listing: is it a regular file (after links), and its write time if that can be read. -/
structure Entry where
  path : Str
  regular : Bool
  time : Option Time
deriving DecidableEq, Repr

/-- What the recursive iteration meets, in order: an entry, or a directory that can not be read (an entry,
then a failure to enter it). -/
inductive Item where
  | plain (e : Entry)
  | locked (e : Entry)
deriving DecidableEq, Repr

/-- The watched path. A directory that can not be opened at all has no items. -/
inductive Root where
  | missing
  | single (e : Entry)                                  -- not a directory
  | dir (items : List Item) (time : Option Time)
deriving DecidableEq, Repr

/-- The file system during half a pass. -/
structure World where
  root : Root
  exist : Str → Bool

/-- `directory_options`: follow_directory_symlink = 1, skip_permission_denied = 2; the code takes their
bitwise conjunction, watcher.hpp:1997-1999. -/
def scanDirOpts : Nat := 2 &&& 1

/-- The entries the iteration yields, and whether it throws afterwards (a directory that can not be entered,
unless such directories are skipped). -/
def iterate (opts : Nat) : List Item → List Entry × Bool
  | [] => ([], false)
  | .plain e :: is => (e :: (iterate opts is).1, (iterate opts is).2)
  | .locked e :: is => if opts &&& 2 = 0 then ([e], true) else (e :: (iterate opts is).1, (iterate opts is).2)

/-- The bucket, watcher.hpp:2001-2002: write times by path. -/
abbrev Bucket := List (Str × Time)

def Bucket.get (b : Bucket) (p : Str) : Option Time := (b.find? (fun x => x.1 == p)).map Prod.snd
def Bucket.erase (b : Bucket) (p : Str) : Bucket := b.filter (fun x => x.1 != p)
def Bucket.set (b : Bucket) (p : Str) (t : Time) : Bucket := (p, t) :: Bucket.erase b p

/-- `scan_file`, watcher.hpp:2017-2058: the bucket and the events. Answers `false` when the path is not a
regular file. -/
def scanFile (b : Bucket) (e : Entry) : Bucket × List Ev × Bool :=
  if e.regular then
    match e.time with
    | none => (b.erase e.path, [⟨e.path, .destroy, .file, none⟩], true)
    | some t =>
      match b.get e.path with
      | none => (b.set e.path t, [⟨e.path, .create, .file, none⟩], true)
      | some u => if u ≠ t then (b.set e.path t, [⟨e.path, .modify, .file, none⟩], true) else (b, [], true)
  else (b, [], false)

/-- The entries of a directory, watcher.hpp:2070-2074. -/
def scanFiles (b : Bucket) : List Entry → Bucket × List Ev
  | [] => (b, [])
  | e :: es =>
    let r := scanFile b e
    let s := scanFiles r.1 es
    (s.1, r.2.1 ++ s.2)

/-- What half a pass does: go on (or stop, with a bucket and events), be ended by an exception in a
`noexcept` function, or have no defined behaviour. -/
inductive Half where
  | done (b : Bucket) (evs : List Ev) (ok : Bool)
  | terminated (evs : List Ev)
  | undefined
deriving DecidableEq, Repr

/-- `scan`, watcher.hpp:2008-2083. -/
def scan (w : World) (b : Bucket) : Half :=
  match w.root with
  | .missing => .done b [] false
  | .single e => .done (scanFile b e).1 (scanFile b e).2.1 (scanFile b e).2.2
  | .dir items _ =>
    let it := iterate scanDirOpts items
    let r := scanFiles b it.1
    if it.2 then .terminated r.2 else .done r.1 r.2 true

/-- The loop of `populate`, watcher.hpp:2106-2115. `none`: the root's write time was needed and could not be
read, which throws. -/
def fill (b : Bucket) (rootTime : Option Time) : List Entry → Option Bucket
  | [] => some b
  | e :: es => match e.time with
    | some t => fill (b.set e.path t) rootTime es
    | none => match rootTime with
      | some t => fill (b.set e.path t) rootTime es
      | none => none

/-- `populate`, watcher.hpp:2094-2118. A path that is not a directory is put in the bucket, and then the
function ends without the answer it has to give. -/
def populate (w : World) (b : Bucket) : Half :=
  match w.root with
  | .missing => .done b [] false
  | .single e => if e.time.isSome then .undefined else .terminated []
  | .dir items rootTime =>
    let it := iterate scanDirOpts items
    match fill b rootTime it.1 with
    | none => .terminated []
    | some b' => if it.2 then .terminated [] else .done b' [] true

/-- The type of the watched path itself (the code asks for it rather than for the file's), watcher.hpp:2140-2143. -/
def rootType (w : World) : PathType :=
  match w.root with
  | .missing => .other
  | .single e => if e.regular then .file else .other
  | .dir _ _ => .dir

/-- `prune`, watcher.hpp:2121-2151: the files of the bucket that do not exist any more. -/
def prune (w : World) : Bucket → Bucket × List Ev
  | [] => ([], [])
  | (p, t) :: b =>
    if w.exist p then ((p, t) :: (prune w b).1, (prune w b).2)
    else ((prune w b).1, ⟨p, .destroy, rootType w, none⟩ :: (prune w b).2)

/-- `tend_bucket`, watcher.hpp:2088-2157: prunes only what `populate` could not fill. -/
def tend (w : World) (b : Bucket) : Half :=
  if b.isEmpty then
    match populate w b with
    | .done b' evs true => .done b' evs true
    | .done b' evs false => .done (prune w b').1 (evs ++ (prune w b').2) true
    | x => x
  else .done b [] true

/-- What has become of the watch. -/
inductive Watch where
  | going (b : Bucket) (out : List Ev)
  | ended (out : List Ev)             -- returned false
  | terminated (out : List Ev)
  | undefined (out : List Ev)
deriving DecidableEq, Repr

/-- One turn of the loop, watcher.hpp:2175-2179. -/
def pass (s : Watch) (wt ws : World) : Watch :=
  match s with
  | .going b out =>
    match tend wt b with
    | .done b1 e1 true =>
      match scan ws b1 with
      | .done b2 e2 true => .going b2 (out ++ e1 ++ e2)
      | .done _ e2 false => .ended (out ++ e1 ++ e2)
      | .terminated e2 => .terminated (out ++ e1 ++ e2)
      | .undefined => .undefined (out ++ e1)
    | .done _ e1 false => .ended (out ++ e1)
    | .terminated e1 => .terminated (out ++ e1)
    | .undefined => .undefined out
  | x => x

/-- `watch`, watcher.hpp:2161-2181, after the given passes. -/
def watch (ps : List (World × World)) : Watch := ps.foldl (fun s p => pass s p.1 p.2) (.going [] [])

/-- Everything sent to the callback so far. -/
def Watch.out : Watch → List Ev
  | .going _ o => o
  | .ended o => o
  | .terminated o => o
  | .undefined o => o

end Verif.Model.Warthog
