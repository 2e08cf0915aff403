import Verif.Lemmas.Event
/-!
# Properties of the event object (C01, C06)
-/

namespace Verif.Props
open Verif Verif.Model Verif.Spec Verif.Lemmas

/-- C01: `==` answers true exactly when the events agree in every field, at every depth. -/
theorem C01_eq_iff_same_event (a b : Event) : Event.eq a b = true ↔ SameEvent a b :=
  eq_iff_same a b

/-- C01: `==` is an equivalence relation. -/
theorem C01_eq_equivalence : Equivalence (fun a b : Event => Event.eq a b = true) where
  refl a := (eq_iff_same a a).2 (same_refl a)
  symm h := (eq_iff_same _ _).2 (same_symm ((eq_iff_same _ _).1 h))
  trans h h' := (eq_iff_same _ _).2 (same_trans ((eq_iff_same _ _).1 h) ((eq_iff_same _ _).1 h'))

/-- C01: `!=` is always the opposite answer of `==`. -/
theorem C01_ne_is_not_eq (a b : Event) : Event.ne a b = true ↔ ¬ Event.eq a b = true := by
  simp [Event.ne]

/-- C01: a copy is the original, field by field and at every depth, and compares equal to it. -/
theorem C01_copy_eq (a : Event) : a.copy = a ∧ Event.eq a.copy a = true :=
  ⟨copy_eq a, by rw [copy_eq]; exact (eq_iff_same a a).2 (same_refl a)⟩

-- a nested event equals its copy, and one different time at depth two makes the answer false;
-- different spellings of one path are equal
example : Event.eq (.mk b!"/a" .rename .file 5 (some (.mk b!"/b" .rename .file 6 none)))
    (.mk b!"//a" .rename .file 5 (some (.mk b!"/b" .rename .file 6 none))) = true := by decide
example : Event.eq (.mk b!"/a" .rename .file 5 (some (.mk b!"/b" .rename .file 6 none)))
    (.mk b!"/a" .rename .file 5 (some (.mk b!"/b" .rename .file 7 none))) = false := by decide

/-- C06: combining two events keeps the base's path, effect and path type, keeps the second event as
the associated one unchanged, and is stamped with the time of combining; the base's own associated
event and time do not survive. -/
theorem C06_join_carries_both (now : Int) (base assoc : Event) :
    (Event.join now base assoc).path = base.path ∧
    (Event.join now base assoc).effect = base.effect ∧
    (Event.join now base assoc).ptype = base.ptype ∧
    (Event.join now base assoc).assoc = some assoc ∧
    (Event.join now base assoc).time = now := ⟨rfl, rfl, rfl, rfl, rfl⟩

/-- C06: for every history of clock readings, the rename event built from freshly made halves
`make t₁ old`, `make t₂ new` at `t₃` is, after any number of copies, the event with the old path,
the new path in its associated event, and the times `t₃`, `t₂`. -/
theorem C06_rename_event_survives_copies (n : Nat) (t1 t2 t3 : Int) (old new : Str)
    (e : EffectType) (p : PathType) :
    (Nat.repeat Event.copy n (Event.join t3 (Event.make t1 old e p) (Event.make t2 new e p)))
      = .mk old e p t3 (some (.mk new e p t2 none)) := by
  induction n with
  | zero => rfl
  | succ n ih => simp only [Nat.repeat, copy_eq]; exact ih

example : (Event.join 9 (Event.make 1 b!"/old" .rename .file) (Event.make 2 b!"/new" .rename .file)).copy
    = .mk b!"/old" .rename .file 9 (some (.mk b!"/new" .rename .file 2 none)) := by rfl

end Verif.Props
