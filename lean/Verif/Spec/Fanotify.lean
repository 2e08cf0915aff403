import Verif.Model.Fanotify
import Verif.Spec.Inotify
/-!
# Specification of fanotify batches (C36 - C43, C63)

What the kernel writes (fanotify(7), `FAN_REPORT_DFID_NAME`) and what the callback should receive for it.
-/

namespace Verif.Spec
open Verif Verif.Model

/-- One kernel record: the mask, the handle of the directory, the entry's name ("." for the directory
itself), zero padding after it, further information records, and fields the code does not look at.
`move` says which rename the record is a half of; it is not written into the buffer. -/
structure FRec where
  mask : BitVec 64
  handle : List UInt8 := []
  name : Str := b!"."
  pad : Nat := 1
  extra : List UInt8 := []
  pid : BitVec 32 := 1#32
  fsid : List UInt8 := [0, 0, 0, 0, 0, 0, 0, 0]
  htype : BitVec 32 := 1#32
  move : Option Nat := none
deriving DecidableEq, Repr

/-- The bit `k` of a mask. -/
def FRec.bit (r : FRec) (k : Nat) : Bool := r.mask.getLsbD k

/-! The bits of fanotify(7). -/
def FRec.modified (r : FRec) : Bool := r.bit 1
def FRec.movedFrom (r : FRec) : Bool := r.bit 6
def FRec.movedTo (r : FRec) : Bool := r.bit 7
def FRec.created (r : FRec) : Bool := r.bit 8
def FRec.deleted (r : FRec) : Bool := r.bit 9
def FRec.overflow (r : FRec) : Bool := r.bit 14
def FRec.onDir (r : FRec) : Bool := r.bit 30

/-- The information record: type, padding, length, file system, handle, name and what follows. -/
def FRec.info (r : FRec) : List UInt8 :=
  ([2, 0, UInt8.ofNat ((20 + r.handle.length + r.name.length + r.pad) % 256),
    UInt8.ofNat ((20 + r.handle.length + r.name.length + r.pad) / 256 % 256)] : List UInt8)
  ++ r.fsid ++ le32 (BitVec.ofNat 32 r.handle.length) ++ le32 r.htype ++ r.handle
  ++ (r.name ++ List.replicate r.pad 0 ++ r.extra)

/-- What follows the metadata: nothing for the overflow record. -/
def FRec.body (r : FRec) : List UInt8 := if r.overflow then [] else r.info

/-- The bytes of a record: total length, version 3, metadata length 24, mask, no descriptor (-1), process,
and the information record. -/
def FRec.bytes (r : FRec) : List UInt8 :=
  le32 (BitVec.ofNat 32 (24 + r.body.length)) ++ ([3, 0, 24, 0] : List UInt8)
  ++ le32 (r.mask.setWidth 32) ++ le32 ((r.mask >>> 32).setWidth 32)
  ++ le32 (BitVec.ofInt 32 (-1)) ++ le32 r.pid ++ r.body

/-- A batch as the kernel puts it into the buffer. -/
def fbatch (rs : List FRec) : List UInt8 := rs.flatMap FRec.bytes

/-- Well-formed records, as fanotify(7) describes them. -/
structure FRec.WF (r : FRec) : Prop where
  fsid : r.fsid.length = 8
  noZero : (0 : UInt8) ∉ r.name
  short : r.name.length ≤ 255
  term : 0 < r.pad
  ovf : r.overflow = true → r.movedFrom = false ∧ r.movedTo = false

/-- A batch the kernel can put into the buffer. -/
structure FBatch (rs : List FRec) : Prop where
  wf : ∀ r ∈ rs, r.WF
  fits : (fbatch rs).length ≤ 4096

/-- What happened, if the mask says only one thing. -/
def FRec.effect (r : FRec) : EffectType :=
  if r.created then .create else if r.deleted then .destroy else if r.modified then .modify
  else if r.movedFrom || r.movedTo then .rename else .other

/-- To what. -/
def FRec.ptype (r : FRec) : PathType := if r.onDir then .dir else .file

/-- An old name directly followed by a new name. -/
def FRec.fromTo (a b : FRec) : Bool := a.effect == .rename && a.movedFrom && b.movedTo

/-- The last two records of the batch are the two halves of a rename. -/
def EndsInRename (rs : List FRec) : Prop := ∃ l a b, rs = l ++ [a, b] ∧ a.fromTo b = true

/-- Either at least four bytes of the buffer stay free, or the batch does not end in a rename. -/
def Roomy (rs : List FRec) : Prop := (fbatch rs).length ≤ 4092 ∨ ¬ EndsInRename rs

/-- A new name directly followed by an old name. -/
def FRec.toFrom (a b : FRec) : Bool := a.effect == .rename && a.movedTo && b.movedFrom

/-- No new name is directly followed by an old name (unless the records are also the other way round). -/
def NoSwap : List FRec → Prop
  | a :: b :: rest => (a.toFrom b = true → a.fromTo b = true) ∧ NoSwap (b :: rest)
  | _ => True

/-- The file system behaves: a handle that cannot be opened sets `errno`, an opened one has a path that
fits (no /proc, deleted or over-long directories: see the refutations in `Props/Fanotify.lean`). -/
structure Fa.Sound {σ} (S : Fa.Sys σ) : Prop where
  err : ∀ w h, (S.openByHandle w h).1.1 ≤ 0 → (S.openByHandle w h).1.2 ≠ 0
  link : ∀ w h, 0 < (S.openByHandle w h).1.1 → ∃ d, (S.readlink (S.openByHandle w h).2 (S.openByHandle w h).1.1).1 = some d ∧
    d ≠ [] ∧ d.length ≤ 3839

/-- Where a record's entry is, asked now: nothing if the directory is gone. -/
def Fa.resolve {σ} (S : Fa.Sys σ) (r : FRec) (w : σ) : Option Str × σ :=
  match S.openByHandle w r.handle with
  | ((fd, _), w) =>
    if fd ≤ 0 then (none, w)
    else match S.readlink w fd with
      | (some d, w) => (some (if r.name = b!"." then d else d ++ b!"/" ++ r.name), w)
      | (none, w) => (none, w)

/-- The two places of a rename, in the order the compiler chose. -/
def Fa.resolve2 {σ} (S : Fa.Sys σ) (a b : FRec) (w : σ) : Option (Str × Str) × σ :=
  if S.rightFirst then
    match Fa.resolve S b w with
    | (pb, w) => match Fa.resolve S a w with
      | (pa, w) => (pa.bind fun x => pb.map fun y => (x, y), w)
  else
    match Fa.resolve S a w with
    | (pa, w) => match Fa.resolve S b w with
      | (pb, w) => (pa.bind fun x => pb.map fun y => (x, y), w)

/-- What marking a directory should do: resolve it, check it, mark it; otherwise one warning is sent. -/
def Fa.markSpec {σ} (S : Fa.Sys σ) (path : Str) (w : σ) : List (Ev × σ) × σ :=
  let warn (w : σ) : List (Ev × σ) := [({ path := b!"w/sys/not_watched@" ++ path, effect := .other, ptype := .watcher }, w)]
  match S.realpath w path with
  | (none, w) => (warn w, w)
  | (some real, w) => match S.isDir w real with
    | (false, w) => (warn w, w)
    | (true, w) => match S.mark w real with
      | (true, w) => ([], w)
      | (false, w) => (warn w, w)

/-- What a batch is reported as: one event for each record, one for an old name followed by a new one; a
new directory is marked first. A record whose directory is gone, and an overflow, end the batch. -/
def Fa.run {σ} (S : Fa.Sys σ) : List FRec → σ → List (Ev × σ) × σ × Result
  | [], w => ([], w, .pending)
  | r :: rest, w =>
    if r.overflow then ([], w, .wQOverflow)
    else
      let single : List (Ev × σ) × σ × Result :=
        match Fa.resolve S r w with
        | (none, w) => ([], w, .wBadFd)
        | (some p, w) =>
          let m := if r.created && r.onDir then Fa.markSpec S p w else ([], w)
          let k := Fa.run S rest m.2
          (m.1 ++ ({ path := p, effect := r.effect, ptype := r.ptype }, m.2) :: k.1, k.2)
      match rest with
      | r2 :: rest2 =>
        if r.fromTo r2 then
          match Fa.resolve2 S r r2 w with
          | (none, w) => ([], w, .wBadFd)
          | (some (p, q), w) =>
            let k := Fa.run S rest2 w
            (({ path := p, effect := .rename, ptype := r.ptype, assoc := some { path := q, effect := .rename, ptype := r.ptype } }, w) :: k.1, k.2)
        else single
      | [] => single

/-- The events due for a batch, if `path` is where the records' entries are: in kernel order, one for each
record, one for both halves of a rename. -/
def Fa.due (path : FRec → Str) : List FRec → List Ev
  | [] => []
  | r :: rest =>
    let single : List Ev := { path := path r, effect := r.effect, ptype := r.ptype } :: Fa.due path rest
    match rest with
    | r2 :: rest2 =>
      if r.fromTo r2 then
        { path := path r, effect := .rename, ptype := r.ptype, assoc := some { path := path r2, effect := .rename, ptype := r.ptype } }
          :: Fa.due path rest2
      else single
    | [] => single

end Verif.Spec

namespace Verif.Spec
open Verif Verif.Model

/-- Nothing of this batch moves while it is read: the handle of every record can be opened, and leads to the
directory `dirOf` says. -/
def Fa.Still {σ} (S : Fa.Sys σ) (dirOf : List UInt8 → Str) (rs : List FRec) : Prop :=
  ∀ r ∈ rs, ∀ w, 0 < (S.openByHandle w r.handle).1.1 ∧
    (S.readlink (S.openByHandle w r.handle).2 (S.openByHandle w r.handle).1.1).1 = some (dirOf r.handle)

/-- Where a record's entry is, if its directory is at `dirOf handle`: below the directory, or the directory
itself. -/
def Fa.place (dirOf : List UInt8 → Str) (r : FRec) : Str :=
  if r.name = b!"." then dirOf r.handle else dirOf r.handle ++ b!"/" ++ r.name

/-- The directory of this record is gone for good. -/
def Fa.Stale {σ} (S : Fa.Sys σ) (r : FRec) : Prop := ∀ w, (S.openByHandle w r.handle).1.1 ≤ 0

/-- The warning that a directory is not watched. -/
def notWatched (p : Str) : Ev := { path := b!"w/sys/not_watched@" ++ p, effect := .other, ptype := .watcher }

/-- Times after `w0`: the world moves only when the system is called. -/
inductive Fa.Later {σ} (S : Fa.Sys σ) (w0 : σ) : σ → Prop
  | now : Fa.Later S w0 w0
  | realpath {w : σ} (p : Str) : Fa.Later S w0 w → Fa.Later S w0 (S.realpath w p).2
  | isDir {w : σ} (p : Str) : Fa.Later S w0 w → Fa.Later S w0 (S.isDir w p).2
  | mark {w : σ} (p : Str) : Fa.Later S w0 w → Fa.Later S w0 (S.mark w p).2
  | openByHandle {w : σ} (h : List UInt8) : Fa.Later S w0 w → Fa.Later S w0 (S.openByHandle w h).2
  | readlink {w : σ} (fd : Int) : Fa.Later S w0 w → Fa.Later S w0 (S.readlink w fd).2

/-- `p` is where the record's entry was when this was asked, some time after `w0` and before `w1`. -/
def Fa.WasAt {σ} (S : Fa.Sys σ) (w0 w1 : σ) (r : FRec) (p : Str) : Prop :=
  ∃ w, Fa.Later S w0 w ∧ (Fa.resolve S r w).1 = some p ∧ Fa.Later S (Fa.resolve S r w).2 w1

/-- The events are drawn from the records, in their order: an event about one record, or about two
neighbours of which one is an old name and the other a new name. After a new name followed by an old name
the latter may be used again. `wasAt` says where a record's entry was. -/
inductive Fa.Drawn (wasAt : FRec → Str → Prop) : List FRec → List Ev → Prop
  | stop (rs : List FRec) : Fa.Drawn wasAt rs []
  | one {r : FRec} {rest : List FRec} {p : Str} {es : List Ev} : wasAt r p → Fa.Drawn wasAt rest es →
      Fa.Drawn wasAt (r :: rest) (⟨p, r.effect, r.ptype, none⟩ :: es)
  | pair {a b : FRec} {rest : List FRec} {p q : Str} {es : List Ev} : a.fromTo b = true → wasAt a p → wasAt b q →
      Fa.Drawn wasAt rest es →
      Fa.Drawn wasAt (a :: b :: rest) (⟨p, .rename, a.ptype, some ⟨q, .rename, a.ptype⟩⟩ :: es)
  | swapped {a b : FRec} {rest : List FRec} {p q : Str} {es : List Ev} : a.toFrom b = true → wasAt a p → wasAt b q →
      Fa.Drawn wasAt (b :: rest) es →
      Fa.Drawn wasAt (a :: b :: rest) (⟨q, .rename, a.ptype, some ⟨p, .rename, a.ptype⟩⟩ :: es)

end Verif.Spec
