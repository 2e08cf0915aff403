import Verif.Model.Warthog
/-!
# What the portable scanner reports, whatever the file system answers (C133)

Only what is remembered of each path matters. Independent of the model's functions.
-/

namespace Verif.Spec.Scan
open Verif Verif.Model Verif.Model.Warthog

/-- The write time remembered of each path, if any. -/
abbrev Mem := Str → Option Time

def Mem.put (m : Mem) (p : Str) (t : Option Time) : Mem := fun q => if q = p then t else m q

/-- Nothing is remembered. -/
def Blank (m : Mem) : Prop := ∀ p, m p = none

/-- What listing a tree meets: everything, or what comes up to the first directory that may not be entered, and that
ends the program. -/
inductive Listed : List Item → List Entry → (ends : Bool) → Prop where
  | all (es : List Entry) : Listed (es.map .plain) es false
  | stopped (es : List Entry) (e : Entry) (rest : List Item) : Listed (es.map .plain ++ .locked e :: rest) (es ++ [e]) true

/-- What is told about something that is met, and what is remembered then. -/
inductive Sees (m : Mem) (e : Entry) : List Ev → Mem → Prop where
  | noFile (h : e.regular = false) : Sees m e [] m
  | unreadable (h : e.regular = true) (ht : e.time = none) : Sees m e [⟨e.path, .destroy, .file, none⟩] (m.put e.path none)
  | new {t} (h : e.regular = true) (ht : e.time = some t) (hm : m e.path = none) : Sees m e [⟨e.path, .create, .file, none⟩] (m.put e.path (some t))
  | changed {t u} (h : e.regular = true) (ht : e.time = some t) (hm : m e.path = some u) (hne : t ≠ u) :
      Sees m e [⟨e.path, .modify, .file, none⟩] (m.put e.path (some t))
  | same {t} (h : e.regular = true) (ht : e.time = some t) (hm : m e.path = some t) : Sees m e [] m

/-- One after the other. -/
inductive SeesAll : Mem → List Entry → List Ev → Mem → Prop where
  | nil {m} : SeesAll m [] [] m
  | cons {m m1 m2 e es x xs} (h : Sees m e x m1) (t : SeesAll m1 es xs m2) : SeesAll m (e :: es) (x ++ xs) m2

/-- Learning without telling: everything that is met is remembered with its write time, or with that of the watched
directory (`root`) if its own cannot be read. -/
inductive Learns (root : Option Time) : Mem → List Entry → Mem → Prop where
  | nil {m} : Learns root m [] m
  | cons {m m2 e es t} (h : e.time = some t ∨ (e.time = none ∧ root = some t)) (r : Learns root (m.put e.path (some t)) es m2) :
      Learns root m (e :: es) m2

/-- What has become of the watch: it goes on, it has returned false, an exception has ended the program, or its behaviour is undefined. -/
inductive Fate where
  | goes | failed | terminated | undefined
deriving DecidableEq, Repr

/-- The first half of a pass does something only if nothing is remembered. -/
inductive First (m : Mem) : Root → Mem → Fate → Prop where
  | known {r} (h : ¬ Blank m) : First m r m .goes
  | gone (h : Blank m) : First m .missing m .goes
  | file {e} (h : Blank m) (ht : e.time ≠ none) : First m (.single e) m .undefined
  | fileUnreadable {e} (h : Blank m) (ht : e.time = none) : First m (.single e) m .terminated
  | learnt {items root es m'} (h : Blank m) (hl : Listed items es false) (hm : Learns root m es m') : First m (.dir items root) m' .goes
  | stopped {items root es m'} (h : Blank m) (hl : Listed items es true) (hm : Learns root m es m') : First m (.dir items root) m' .terminated
  | unreadable {items es b e} (h : Blank m) (hl : Listed items es b) (he : e ∈ es) (ht : e.time = none) : First m (.dir items none) m .terminated

/-- The second half of a pass. -/
inductive Second (m : Mem) : Root → List Ev → Mem → Fate → Prop where
  | gone : Second m .missing [] m .failed
  | file {e x m'} (hr : e.regular = true) (h : Sees m e x m') : Second m (.single e) x m' .goes
  | noFile {e} (hr : e.regular = false) : Second m (.single e) [] m .failed
  | listed {items root es x m'} (hl : Listed items es false) (h : SeesAll m es x m') : Second m (.dir items root) x m' .goes
  | stopped {items root es x m'} (hl : Listed items es true) (h : SeesAll m es x m') : Second m (.dir items root) x m' .terminated

/-- The history of a watch: what the file system answers in the two halves of each pass, all that is told, what is remembered, and
what has become of the watch. -/
inductive Story : List (World × World) → List Ev → Mem → Fate → Prop where
  | start {m} (h : Blank m) : Story [] [] m .goes
  | over {ps evs m f q} (h : Story ps evs m f) (hf : f ≠ .goes) : Story (ps ++ [q]) evs m f
  | first {ps evs m m' f q} (h : Story ps evs m .goes) (h1 : First m q.1.root m' f) (hf : f ≠ .goes) : Story (ps ++ [q]) evs m' f
  | pass {ps evs m m1 m2 x f q} (h : Story ps evs m .goes) (h1 : First m q.1.root m1 .goes) (h2 : Second m1 q.2.root x m2 f) :
      Story (ps ++ [q]) (evs ++ x) m2 f

/-- What has become of a watch. -/
def fateOf : Watch → Fate
  | .going _ _ => .goes
  | .ended _ => .failed
  | .terminated _ => .terminated
  | .undefined _ => .undefined

end Verif.Spec.Scan
