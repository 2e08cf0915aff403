import Verif.Spec.FKernel
/-!
# Which changes a watch that uses fanotify misses (C85)
-/

namespace Verif.Spec.FKer
open Verif Verif.Model Verif.Model.FKer

/-- Among the records of a read, `r` is not told: it is about a directory that has gone, or one before it is, or it is the
old name of a rename whose new name, the next record, is. -/
def Skipped (k : K) (rs : List FRec) (r : FRec) : Prop :=
  ∃ a b x, rs = a ++ r :: b ∧ x.handle ∉ k.dirs.map (·.1) ∧ (x ∈ a ∨ x = r ∨ (b.head? = some x ∧ r.fromTo x = true))

/-- At some read of the history the change had been made, and the record for its entry was skipped. -/
def Missed (rf : Bool) (st : Fa.St World) : List Step → Change → Prop
  | [], _ => False
  | .op o :: ss, c => ∃ st', exec rf st (.op o) = .ok st' ∧ Missed rf st' ss c
  | .read n sched :: ss, c =>
    (c ∈ st.sys.k.log ∧ (fbatch (st.sys.k.queue.take n)).length ≤ 4096 ∧
      ∃ r, Skipped st.sys.k (st.sys.k.queue.take n) r ∧ r.handle = c.handle ∧ r.name = c.name) ∨
    ∃ st', exec rf st (.read n sched) = .ok st' ∧ Missed rf st' ss c

/-- Nothing is moved or renamed; directories may be removed. -/
def unmoving (x : Do) : Bool := match x.op with | .move .. => false | .moveDir .. => false | .moveOver .. => false | .swapDirs .. => false | _ => true

/-- Like `Mentions`; the path may be one with the mark of a removed directory. -/
def NearMentions (past : List (Handle × Str)) (c : Change) (e : Ev) : Prop := Near past c e.path ∨ ∃ a, e.assoc = some a ∧ Near past c a.path

/-- At some read of the history the change had been made, and the record for its entry was skipped: the directory it says had
gone at the end of the read. -/
def MissedLate (rf : Bool) (st : Fa.St World) : List Step → Change → Prop
  | [], _ => False
  | .op o :: ss, c => ∃ st', exec rf st (.op o) = .ok st' ∧ MissedLate rf st' ss c
  | .read n sched :: ss, c =>
    ∃ st', exec rf st (.read n sched) = .ok st' ∧
      ((c ∈ st.sys.k.log ∧ (fbatch (st.sys.k.queue.take n)).length ≤ 4096 ∧
        ∃ r, Skipped st'.sys.k (st.sys.k.queue.take n) r ∧ r.handle = c.handle ∧ r.name = c.name) ∨ MissedLate rf st' ss c)

/-- Like `Told`; the paths may be ones with the mark of a removed directory. -/
inductive ToldNear (past : List (Handle × Str)) : List Change → List Ev → Prop
  | nil : ToldNear past [] []
  | one {c : Change} {l : List Change} {p : Str} {es : List Ev} : Near past c p → ToldNear past l es →
      ToldNear past (c :: l) (⟨p, effectDue c.kind, typeOf c, none⟩ :: es)
  | both {a b : Change} {l : List Change} {p q : Str} {es : List Ev} : a.kind = .moveFrom → b.kind = .moveTo → Near past a p → Near past b q →
      ToldNear past l es → ToldNear past (a :: b :: l) (⟨p, .rename, typeOf a, some ⟨q, .rename, typeOf a⟩⟩ :: es)

/-- Whenever the watch reads, it gets at most one record. -/
def Lone (rf : Bool) (st : Fa.St World) : List Step → Prop
  | [] => True
  | .op o :: ss => ∀ st', exec rf st (.op o) = .ok st' → Lone rf st' ss
  | .read n sched :: ss => (st.sys.k.queue.take n).length ≤ 1 ∧ ∀ st', exec rf st (.read n sched) = .ok st' → Lone rf st' ss

end Verif.Spec.FKer
