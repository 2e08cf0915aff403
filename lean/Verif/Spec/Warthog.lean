import Verif.Model.Warthog
/-!
# Specification for the portable scanner (C52 - C54, C69, C70)
-/

namespace Verif.Spec.Warthog
open Verif Verif.Model Verif.Model.Warthog

/-- A directory tree whose directories can all be read and whose files' times can be read: the paths in it are
distinct. -/
structure CalmDir where
  entries : List Entry
  distinct : (entries.map Entry.path).Nodup
  timed : ∀ e ∈ entries, e.time.isSome = true

/-- The world that shows such a tree. -/
def CalmDir.world (d : CalmDir) (exist : Str → Bool) : World :=
  { root := .dir (d.entries.map .plain) (some 0), exist := exist }

/-- The write time of a regular file in a tree. -/
def CalmDir.fileTime (d : CalmDir) (p : Str) : Option Time :=
  match d.entries.find? (fun e => e.path == p && e.regular) with
  | some e => e.time
  | none => none

/-- The effects of the events about one path, in order. -/
def about (p : Str) : List Ev → List EffectType
  | [] => []
  | e :: l => if e.path = p then e.effect :: about p l else about p l

/-- What a user expects to be told of a file that is seen with these write times, one after the other (`none`
when it was not there before): created when it is seen first, modified whenever its time is another. -/
def told : Option Time → List Time → List EffectType
  | _, [] => []
  | none, t :: ts => .create :: told (some t) ts
  | some u, t :: ts => if u = t then told (some u) ts else .modify :: told (some t) ts

/-- The times a file was seen with in a series of trees. -/
def seenTimes (p : Str) : List CalmDir → List Time
  | [] => []
  | d :: ds => match d.fileTime p with
    | some t => t :: seenTimes p ds
    | none => seenTimes p ds

/-- With deletions: the tree has the file, or not. -/
def toldAll : Option Time → List (Option Time) → List EffectType
  | _, [] => []
  | none, none :: ts => toldAll none ts
  | none, some t :: ts => .create :: toldAll (some t) ts
  | some _, none :: ts => .destroy :: toldAll none ts
  | some u, some t :: ts => if u = t then toldAll (some u) ts else .modify :: toldAll (some t) ts

/-- Passes over trees: each with the tree found by its first half and the one found by its second. -/
def passes (exist : Str → Bool) (ps : List (CalmDir × CalmDir)) : List (World × World) :=
  ps.map (fun p => (p.1.world exist, p.2.world exist))

/-- Passes over trees that change only between passes. -/
def quietPasses (exist : Str → Bool) (ds : List CalmDir) : List (World × World) :=
  passes exist (ds.map (fun d => (d, d)))

/-! ### The whole report of a series of passes -/

/-- The write time of whatever has this path in a tree, file or not. -/
def CalmDir.anyTime (d : CalmDir) (p : Str) : Option Time :=
  match d.entries.find? (fun e => e.path == p) with
  | some e => e.time
  | none => none

/-- What is told of a tree when these write times are known: for each regular file, in the order they are listed,
a creation if no time is known, a modification if the known time is another, otherwise nothing. -/
def report (known : Str → Option Time) (d : CalmDir) : List Ev :=
  d.entries.filterMap fun e =>
    if e.regular then
      match known e.path with
      | none => some ⟨e.path, .create, .file, none⟩
      | some u => if e.time = some u then none else some ⟨e.path, .modify, .file, none⟩
    else none

/-- The write times known after a tree was seen; what is no longer in the tree stays known. -/
def learn (known : Str → Option Time) (d : CalmDir) (p : Str) : Option Time :=
  match d.fileTime p with
  | some t => some t
  | none => known p

/-- One tree after the other. -/
def reports (known : Str → Option Time) : List CalmDir → List Ev
  | [] => []
  | d :: ds => report known d ++ reports (learn known d) ds

/-- What is told in a series of passes, each with the tree found by its first half and the one found by its second:
nothing until a tree is not empty. If that is found by the first half of a pass, the write times of everything in it
are taken as known and nothing is told of it; if a file is found by the second half, it is told like every other. -/
def seriesReport : List (CalmDir × CalmDir) → List Ev
  | [] => []
  | (d, d') :: ps =>
    if d.entries ≠ [] then reports d.anyTime (d' :: ps.map Prod.snd)
    else if ∃ e ∈ d'.entries, e.regular = true then reports (fun _ => none) (d' :: ps.map Prod.snd)
    else seriesReport ps

end Verif.Spec.Warthog
