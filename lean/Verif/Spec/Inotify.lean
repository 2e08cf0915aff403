import Verif.Model.Inotify
/-!
# Specification of inotify batches (C25 - C30)

What the kernel writes (inotify(7)) and what the callback should receive for it.
-/

namespace Verif.Spec
open Verif Verif.Model Verif.Model.In

/-- One kernel record: watch descriptor, mask, cookie, name, and how many zero bytes pad the name. -/
structure Rec where
  wd : Int
  mask : BitVec 32
  cookie : BitVec 32 := 0#32
  name : Str := []
  pad : Nat := 0
deriving DecidableEq, Repr

/-- A 32-bit number in little-endian order. -/
def le32 (x : BitVec 32) : List UInt8 :=
  [UInt8.ofNat (x.toNat % 256), UInt8.ofNat (x.toNat / 256 % 256),
   UInt8.ofNat (x.toNat / 65536 % 256), UInt8.ofNat (x.toNat / 16777216 % 256)]

/-- The bytes of a record: `wd`, `mask`, `cookie`, `len`, then the name and its padding. -/
def Rec.bytes (r : Rec) : List UInt8 :=
  le32 (BitVec.ofInt 32 r.wd) ++ le32 r.mask ++ le32 r.cookie ++ le32 (BitVec.ofNat 32 (r.name.length + r.pad))
    ++ (r.name ++ List.replicate r.pad 0)

/-- A batch as the kernel puts it into the buffer. -/
def batch (rs : List Rec) : List UInt8 := rs.flatMap Rec.bytes

/-- The bit `k` of a mask. -/
def Rec.bit (r : Rec) (k : Nat) : Bool := r.mask.getLsbD k

/-! The bits of inotify(7). -/
def Rec.modified (r : Rec) : Bool := r.bit 1
def Rec.movedFrom (r : Rec) : Bool := r.bit 6
def Rec.movedTo (r : Rec) : Bool := r.bit 7
def Rec.created (r : Rec) : Bool := r.bit 8
def Rec.deleted (r : Rec) : Bool := r.bit 9
def Rec.deleteSelf (r : Rec) : Bool := r.bit 10
def Rec.moveSelf (r : Rec) : Bool := r.bit 11
def Rec.overflow (r : Rec) : Bool := r.bit 14
def Rec.ignored (r : Rec) : Bool := r.bit 15
def Rec.onDir (r : Rec) : Bool := r.bit 30

/-- Does the record say that something happened to an entry? -/
def Rec.reportable (r : Rec) : Bool :=
  (r.created || r.deleted || r.modified || r.movedFrom || r.movedTo)
    && !(r.ignored || r.deleteSelf || r.moveSelf)

/-- What happened. -/
def Rec.effect (r : Rec) : EffectType :=
  if r.created then .create else if r.deleted then .destroy
  else if r.movedFrom || r.movedTo then .rename else .modify

/-- To what. -/
def Rec.ptype (r : Rec) : PathType := if r.onDir then .dir else .file

/-- Two records are the two halves of one rename. -/
def Rec.renamedTo (a b : Rec) : Bool :=
  (a.effect == .rename) && a.cookie != 0#32 && a.cookie == b.cookie && a.movedFrom && b.movedTo

/-- Well-formed records, as inotify(7) describes them: the descriptor is a 32-bit number; a name has
1 to 255 bytes, none zero and none a separator, and is followed by at least one zero; a record without a
name has length zero and reports nothing about an entry; records about the watched directory itself
report nothing about an entry; the overflow record has descriptor -1. -/
structure Rec.WF (r : Rec) : Prop where
  wd : -2147483648 ≤ r.wd ∧ r.wd < 2147483648
  len : r.name.length + r.pad < 4294967296
  noZero : (0 : UInt8) ∉ r.name
  noSlash : (47 : UInt8) ∉ r.name
  term : r.name ≠ [] → 0 < r.pad
  selfOnly : (r.ignored || r.deleteSelf || r.moveSelf) = true →
    (r.created || r.deleted || r.modified || r.movedFrom || r.movedTo) = false
  named : r.reportable = true → r.name ≠ []
  ovf : r.overflow = true → r.wd = -1

/-- The kernel reports the old name of a rename before the new one. -/
def Ordered : List Rec → Prop
  | a :: b :: rest =>
    ¬ (a.movedTo = true ∧ b.movedFrom = true ∧ a.cookie ≠ 0#32 ∧ a.cookie = b.cookie) ∧ Ordered (b :: rest)
  | _ => True

/-- A batch the kernel can put into the buffer. -/
structure Batch (rs : List Rec) : Prop where
  wf : ∀ r ∈ rs, r.WF
  fits : (batch rs).length ≤ 4096
  ordered : Ordered rs

/-- What marking a directory should do: resolve it, check it, watch it; on success the watch table
learns its descriptor, otherwise a `not_watched` warning is sent. -/
def markSpec {σ} (S : Sys σ) (path : Str) (t : Table) (w : σ) : List Ev × Table × σ :=
  let warn : Ev := { path := b!"w/sys/not_watched@" ++ path, effect := .other, ptype := .watcher }
  match S.realpath w path with
  | (none, w) => ([warn], t, w)
  | (some real, w) => match S.isDir w real with
    | (false, w) => ([warn], t, w)
    | (true, w) => match S.addWatch w real with
      | (wd, w) => if 0 < wd then
          ([], (match t.lookup wd with | none => (wd, real) :: t | some _ => t), w)
        else ([warn], t, w)

/-- The warning for a record of an unknown watch. -/
def phantomMsg : Ev := { path := b!"w/sys/phantom@", effect := .other, ptype := .watcher }

/-- The path of an entry of a directory. -/
def entryPath (dir name : Str) : Str := if dir = b!"/" then b!"/" ++ name else dir ++ b!"/" ++ name

/-- The event for a single record of directory `dir`. -/
def Rec.event (r : Rec) (dir : Str) : Ev := { path := entryPath dir r.name, effect := r.effect, ptype := r.ptype }

/-- The event for a rename pair. The second path is put below `d2`. -/
def pairEvent (a b : Rec) (d1 d2 : Str) : Ev :=
  { path := entryPath d1 a.name, effect := .rename, ptype := a.ptype,
    assoc := some { path := entryPath d2 b.name, effect := .rename, ptype := a.ptype } }

/-- What the callback receives for a batch, in order, with the watch table as it develops.
(In a rename pair both paths are put below the first record's directory; whether that is right is C28's
question.) -/
def report {σ} (S : Sys σ) : List Rec → Table → σ → List Ev × Table × σ
  | [], t, w => ([], t, w)
  | r :: rest, t, w =>
    match t.lookup r.wd with
    -- an unknown watch: one warning
    | none => let (o, t, w) := report S rest t w; (phantomMsg :: o, t, w)
    | some dir =>
      -- nothing to say
      if !r.reportable then report S rest t w
      else
        -- one event; a new directory is marked first
        let (e1, t1, w1) := if r.created && r.onDir then markSpec S (entryPath dir r.name) t w else ([], t, w)
        let (o, t2, w2) := report S rest t1 w1
        let single := (e1 ++ r.event dir :: o, t2, w2)
        match rest with
        | r2 :: rest2 =>
          -- one event for both halves of a rename
          if r.renamedTo r2 then
            let (o, t, w) := report S rest2 t w
            (pairEvent r r2 dir dir :: o, t, w)
          else single
        | [] => single

/-- Descriptors whose directory is gone, by the records of a batch: they leave the table at its end. -/
def gone (rs : List Rec) : List Int := (rs.filter (fun r => r.deleteSelf && !r.moveSelf)).map Rec.wd

/-- The table without these descriptors. -/
def without (t : Table) (wds : List Int) : Table := t.filter (fun e => !wds.contains e.1)

/-- An absolute path as `realpath` returns it: not empty, and ending in a separator only if it is the
root directory. -/
def Canonical (p : Str) : Prop := p ≠ [] ∧ (p.getLast? = some 47 → p = b!"/")

/-- The watch table holds positive descriptors and canonical paths. -/
def SoundTable (t : Table) : Prop := ∀ e ∈ t, 0 < e.1 ∧ Canonical e.2

/-- `realpath` answers canonical paths. -/
def SoundSys {σ} (S : Sys σ) : Prop := ∀ w p real, (S.realpath w p).1 = some real → Canonical real

end Verif.Spec

namespace Verif.Spec
open Verif Verif.Model Verif.Model.In

/-- Events about files and directories (everything but the watcher's own messages). -/
def fileEvents (l : List Ev) : List Ev := l.filter (fun e => e.ptype != .watcher)

/-- The file events due for a batch when every record's watch is known: in kernel order, one for each
reportable record, one for both halves of a rename. -/
def due (t : Table) : List Rec → List Ev
  | [] => []
  | r :: rest =>
    if !r.reportable then due t rest
    else match rest with
      | r2 :: rest2 =>
        if r.renamedTo r2 then pairEvent r r2 ((t.lookup r.wd).getD []) ((t.lookup r.wd).getD []) :: due t rest2
        else r.event ((t.lookup r.wd).getD []) :: due t (r2 :: rest2)
      | [] => [r.event ((t.lookup r.wd).getD [])]

/-- Every record's watch is in the table. -/
def AllKnown (t : Table) (rs : List Rec) : Prop := ∀ r ∈ rs, ∃ d, t.lookup r.wd = some d

end Verif.Spec

namespace Verif.Spec
open Verif Verif.Model Verif.Model.In

/-- Serving any number of batches, one read after the other. -/
def serve {σ} (S : Sys σ) : List (List Rec) → St σ → Outcome (St σ × Result)
  | [], st => .ok (st, .pending)
  | rs :: more, st => do
    let (st, r) ← doEvRecv S (.data (batch rs)) st
    if r.keepsRunning then serve S more st else pure (st, r)

/-- A record of a watch the watcher does not have: not in the table, and never handed out by the
kernel later. -/
def Rec.Unknown {σ} (S : Sys σ) (t : Table) (u : Rec) : Prop :=
  t.lookup u.wd = none ∧ ∀ w p, (S.addWatch w p).1 ≠ u.wd

end Verif.Spec

namespace Verif.Spec

/-- Bits of a mask that mean something happened to an entry: modified (1), moved from (6), moved
to (7), created (8), deleted (9). -/
def EntryBits (m : BitVec 32) : Prop := ∃ k, (k = 1 ∨ k = 6 ∨ k = 7 ∨ k = 8 ∨ k = 9) ∧ m.getLsbD k = true

/-- Bits that mean the record is about the watched directory itself: deleted (10), moved (11), watch
removed (15). -/
def SelfBits (m : BitVec 32) : Prop := ∃ k, (k = 10 ∨ k = 11 ∨ k = 15) ∧ m.getLsbD k = true

end Verif.Spec
