import Verif.Spec.Fanotify
/-!
# What a fanotify batch is reported as, in every case (C116, C117)

`Fa.run` of `Spec/Fanotify.lean` says what should be reported; this says what is reported for every batch the kernel
can write, also where that is wrong or undefined. It is about records, not bytes.
-/

namespace Verif.Spec
open Verif Verif.Model

/-- Where a record's entry is: at a path, in a directory that is gone, or the directory is there and has no name
(`readlink` fails). -/
inductive Fa.Place where
  | at (p : Str)
  | gone
  | nameless

/-- Asking for it. A path is cut to 4095 bytes; no path is built for a directory with an empty one. -/
def Fa.ask {σ} (S : Fa.Sys σ) (r : FRec) (w : σ) : Fa.Place × σ :=
  match S.openByHandle w r.handle with
  | ((fd, _), w) =>
    if fd ≤ 0 then (.gone, w)
    else match S.readlink w fd with
      | (none, w) => (.nameless, w)
      | (some d, w) => (.at (if d = [] then [] else if r.name = b!"." then d.take 4095 else (d ++ b!"/" ++ r.name).take 4095), w)

/-- The places of the old and the new name. Both are asked for (in the order the compiler chose) unless the first
question ends everything. -/
inductive Fa.Places where
  | at (p q : Str)
  | gone
  | nameless

def Fa.Places.of : Fa.Place → Fa.Place → Fa.Places
  | .nameless, _ => .nameless
  | _, .nameless => .nameless
  | .gone, _ => .gone
  | _, .gone => .gone
  | .at p, .at q => .at p q

def Fa.ask2 {σ} (S : Fa.Sys σ) (old new : FRec) (w : σ) : Fa.Places × σ :=
  if S.rightFirst then
    match Fa.ask S new w with
    | (q, w) => match Fa.ask S old w with
      | (p, w) => (.of p q, w)
  else
    match Fa.ask S old w with
    | (p, w) => match Fa.ask S new w with
      | (q, w) => (.of p q, w)

/-- What is sent for a batch, the world afterwards, and the status; `none`: undefined behaviour. `seen` is the
number of bytes the reader believes to have in front of it, `full` says that fewer than four bytes of the buffer are
free.

* A record that does not fit into `seen` ends the batch silently.
* An overflow record and a record whose directory is gone end the batch with a status.
* An old name directly followed by a new name is one event. If nothing follows and the buffer is full: undefined.
* A new name directly followed by an old name is one event, too, from the latter to the former; the old name is then
  read once more, but its length has been taken off `seen`, so that many bytes at the end are not read.
* Every other record is one event, with a mark before it for a new directory. -/
def Fa.told {σ} (S : Fa.Sys σ) (full : Bool) : List FRec → Int → σ → Option (List (Ev × σ) × σ × Result)
  | [], _, w => some ([], w, .pending)
  | r :: rest, seen, w =>
    if seen < r.bytes.length then some ([], w, .pending)
    else if r.overflow then some ([], w, .wQOverflow)
    else
      let tail : Int → σ → Option (List (Ev × σ) × σ × Result) := fun seen w => Fa.told S full rest seen w
      let single : Option (List (Ev × σ) × σ × Result) :=
        match Fa.ask S r w with
        | (.nameless, _) => none
        | (.gone, w) => some ([], w, .wBadFd)
        | (.at p, w) =>
          let m := if r.created && r.onDir then Fa.markSpec S p w else ([], w)
          (tail (seen - r.bytes.length) m.2).map fun k =>
            (m.1 ++ ({ path := p, effect := r.effect, ptype := r.ptype }, m.2) :: k.1, k.2)
      match rest with
      | [] => single
      | r2 :: rest2 =>
        if seen < r.bytes.length + r2.bytes.length then single
        else if r.fromTo r2 then
          if full && rest2.isEmpty then none
          else match Fa.ask2 S r r2 w with
          | (.nameless, _) => none
          | (.gone, w) => some ([], w, .wBadFd)
          | (.at p q, w) =>
            (Fa.told S full rest2 (seen - r.bytes.length - r2.bytes.length) w).map fun k =>
              (({ path := p, effect := .rename, ptype := r.ptype, assoc := some { path := q, effect := .rename, ptype := r.ptype } }, w) :: k.1, k.2)
        else if r.toFrom r2 then
          match Fa.ask2 S r2 r w with
          | (.nameless, _) => none
          | (.gone, w) => some ([], w, .wBadFd)
          | (.at p q, w) =>
            (tail (seen - r.bytes.length - r2.bytes.length) w).map fun k =>
              (({ path := p, effect := .rename, ptype := r.ptype, assoc := some { path := q, effect := .rename, ptype := r.ptype } }, w) :: k.1, k.2)
        else single

/-- A call of `open_by_handle_at` that does not give a positive descriptor leaves an error number (it fails, or the
program has closed its standard input and an earlier error number is still there). -/
def Fa.SaysWhy {σ} (S : Fa.Sys σ) : Prop := ∀ w h, (S.openByHandle w h).1.1 ≤ 0 → (S.openByHandle w h).1.2 ≠ 0

/-- Every directory can be opened and has a name, whenever it is asked for. -/
def Fa.Answers {σ} (S : Fa.Sys σ) (rs : List FRec) : Prop :=
  ∀ r ∈ rs, ∀ w, 0 < (S.openByHandle w r.handle).1.1 ∧
    (S.readlink (S.openByHandle w r.handle).2 (S.openByHandle w r.handle).1.1).1 ≠ none

/-- Not an old and a new name in one record. -/
def FRec.Plain (r : FRec) : Prop := ¬ (r.movedFrom = true ∧ r.movedTo = true)

/-- Every new name directly followed by an old name directly follows an old name itself (so that it is taken
for the new name of that one). -/
def NoneCrossed (rs : List FRec) : Prop :=
  ∀ l x y m, rs = l ++ x :: y :: m → x.toFrom y = true → ∃ l' z, l = l' ++ [z] ∧ z.fromTo x = true

end Verif.Spec
