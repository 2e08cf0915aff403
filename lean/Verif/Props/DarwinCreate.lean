import Verif.Spec.DarwinCreate
import Verif.Lemmas.Darwin2
/-!
# C145: creations on Darwin
-/

namespace Verif.Props
open Verif Verif.Model Verif.Model.Darwin Verif.Spec.Darwin Verif.Lemmas.Darwin

/-- The full claim: whenever a file is created at a path where none is, that is reported. -/
def C145_full : Prop := ∀ (ops : List FileOp) (p : Str) (files : List Str), filesAfter [] (ops ++ [.create p]) = some files →
  ReportsCreation p (opNotes ops) (opNotes (ops ++ [.create p]))

/-- A file saved twice the careful way: `tmp` is written and renamed to `doc`. The second creation of `tmp` is not reported (and the watch
remembers `tmp` for ever). -/
theorem C145_refuted : ¬ C145_full := by
  intro h
  obtain ⟨t, h1, e, he, _⟩ := h [.create b!"/w/tmp", .move b!"/w/tmp" b!"/w/doc" false] b!"/w/tmp" [b!"/w/tmp", b!"/w/doc"] (by decide +kernel)
  have e1 : (recvAll {} (opNotes ([.create b!"/w/tmp", .move b!"/w/tmp" b!"/w/doc" false] ++ [.create b!"/w/tmp"]))).out =
    (recvAll {} (opNotes [.create b!"/w/tmp", .move b!"/w/tmp" b!"/w/doc" false])).out := by decide +kernel
  rw [e1] at h1
  have : t = [] := by
    have := congrArg List.length h1
    simp at this; exact this
  subst this; cases he

private theorem opNotes_snoc (ops : List FileOp) (o : FileOp) : opNotes (ops ++ [o]) = opNotes ops ++ o.notes := by
  simp [opNotes]

private theorem lastDone_snoc (p : Str) : ∀ (ops : List FileOp) (o : FileOp), lastDone p (ops ++ [o]) =
    match o with
    | .create q => if q = p then some true else lastDone p ops
    | .remove q => if q = p then some false else lastDone p ops
    | _ => lastDone p ops := by
  intro ops
  induction ops with
  | nil => intro o; cases o <;> simp [lastDone]
  | cons a as ih =>
    intro o
    cases a <;> cases o <;> simp only [List.cons_append, lastDone, ih] <;> (repeat' split) <;> first | rfl | (simp_all; done) | (split <;> simp_all)

private theorem rename_seen (c : Ctx) (n : Note) (h : n.flags = 0x10800#32) : (recvOne c n).seen = c.seen := by
  have h1 : anyBit 0x10800#32 effectAny = true := by decide
  have h2 : anyBit 0x10800#32 effectCreate = false := by decide
  have h3 : anyBit 0x10800#32 effectRemove = false := by decide
  have h4 : anyBit 0x10800#32 effectModify = false := by decide
  have h5 : anyBit 0x10800#32 effectRename = true := by decide
  simp only [recvOne, h, h1, onCreate, onRemove, onModify, onRename, h2, h3, h4, h5, Bool.not_true, Bool.false_eq_true, if_true, if_false]
  split <;> simp [Ctx.send]

/-- The paths the watcher remembers are those where a file was created and not removed since. -/
private theorem seen_iff (ops : List FileOp) (p : Str) : p ∈ (recvAll {} (opNotes ops)).seen ↔ lastDone p ops = some true := by
  have gen : ∀ r : List FileOp, p ∈ (recvAll {} (opNotes r.reverse)).seen ↔ lastDone p r.reverse = some true := by
    intro r
    induction r with
    | nil => simp [opNotes, recvAll, lastDone]
    | cons o r ih =>
      rw [List.reverse_cons, opNotes_snoc, lastDone_snoc]
      generalize opNotes r.reverse = ns at ih
      cases o with
      | create q =>
        simp only [FileOp.notes, recvAll_snoc, recvOne]
        have h1 : anyBit 0x10100#32 effectAny = true := by decide
        have h2 : anyBit 0x10100#32 effectCreate = true := by decide
        have h3 : anyBit 0x10100#32 effectRemove = false := by decide
        have h4 : anyBit 0x10100#32 effectModify = false := by decide
        have h5 : anyBit 0x10100#32 effectRename = false := by decide
        simp only [h1, onCreate, onRemove, onModify, onRename, h2, h3, h4, h5, Bool.not_true, Bool.false_eq_true, if_true, if_false]
        by_cases hq : q = p
        · subst hq; rw [if_pos rfl]
          split
          · rename_i hc; simpa using hc
          · simp [Ctx.send]
        · rw [if_neg hq]
          split
          · exact ih
          · simp only [Ctx.send, List.mem_cons]
            rw [← ih]
            constructor
            · rintro (h | h)
              · exact absurd h.symm hq
              · exact h
            · exact .inr
      | remove q =>
        simp only [FileOp.notes, recvAll_snoc, recvOne]
        have h1 : anyBit 0x10200#32 effectAny = true := by decide
        have h2 : anyBit 0x10200#32 effectCreate = false := by decide
        have h3 : anyBit 0x10200#32 effectRemove = true := by decide
        have h4 : anyBit 0x10200#32 effectModify = false := by decide
        have h5 : anyBit 0x10200#32 effectRename = false := by decide
        simp only [h1, onCreate, onRemove, onModify, onRename, h2, h3, h4, h5, Bool.not_true, Bool.false_eq_true, if_true, if_false]
        by_cases hq : q = p
        · subst hq; rw [if_pos rfl]
          split
          · simp [Ctx.send]
          · rename_i hc; simp at hc; simp [hc]
        · rw [if_neg hq]
          split
          · simp only [Ctx.send, List.mem_filter, bne_iff_ne, ne_eq]
            rw [ih]
            exact ⟨fun h => h.1, fun h => ⟨h, fun e => hq e.symm⟩⟩
          · exact ih
      | move old new prev =>
        have hr : ∀ (c : Ctx) (n : Note), n.flags = 0x10800#32 → (recvOne c n).seen = c.seen := rename_seen
        simp only [FileOp.notes, Move.notes]
        have : ns ++ [{ path := old, flags := 0x10800#32, missing := prev }, { path := new, flags := 0x10800#32, missing := true }] =
          (ns ++ [{ path := old, flags := 0x10800#32, missing := prev }]) ++ [({ path := new, flags := 0x10800#32, missing := true } : Note)] := by simp
        rw [this, recvAll_snoc, recvAll_snoc, hr _ _ rfl, hr _ _ rfl]
        exact ih
      | away old prev =>
        simp only [FileOp.notes, Move.notes]
        rw [recvAll_snoc, rename_seen _ _ rfl]
        exact ih
  have := gen ops.reverse
  simpa using this

/-- C145 (partial: the exact condition): the creation of a file is reported unless the last thing done to that path by creating or removing was a
creation, that is, unless an earlier file that was created there went away under another name. -/
theorem C145_exact_partial (ops : List FileOp) (p : Str) :
    ReportsCreation p (opNotes ops) (opNotes (ops ++ [.create p])) ↔ lastDone p ops ≠ some true := by
  rw [ne_eq, ← not_congr (seen_iff ops p), opNotes_snoc, ReportsCreation]
  simp only [FileOp.notes, recvAll_snoc]
  generalize recvAll {} (opNotes ops) = c
  have h1 : anyBit 0x10100#32 effectAny = true := by decide
  have h2 : anyBit 0x10100#32 effectCreate = true := by decide
  have h3 : anyBit 0x10100#32 effectRemove = false := by decide
  have h4 : anyBit 0x10100#32 effectModify = false := by decide
  have h5 : anyBit 0x10100#32 effectRename = false := by decide
  simp only [recvOne, h1, onCreate, onRemove, onModify, onRename, h2, h3, h4, h5, Bool.not_true, Bool.false_eq_true, if_true, if_false]
  constructor
  · rintro ⟨t, h, e, he, _⟩ hs
    rw [if_pos (by simpa using hs)] at h
    have : t = [] := by
      have := congrArg List.length h
      simp at this; exact this
    subst this; cases he
  · intro hs
    rw [if_neg (by simpa using hs)]
    exact ⟨[{ path := p, effect := .create, ptype := ptypeOf 0x10100#32 }], rfl, _, List.mem_singleton_self _, rfl, rfl⟩

/-- C145 (partial): so the first file at a path is reported, and one created after the one before was removed. -/
theorem C145_after_removal_partial (ops between : List FileOp) (p : Str) (h : lastDone p between = none) :
    ReportsCreation p (opNotes (ops ++ [.remove p] ++ between)) (opNotes (ops ++ [.remove p] ++ between ++ [.create p])) ∧
    ReportsCreation p (opNotes between) (opNotes (between ++ [.create p])) := by
  have app : ∀ a b : List FileOp, lastDone p b = none → lastDone p (a ++ b) = lastDone p a := by
    intro a b hb
    induction a with
    | nil => simpa [lastDone] using hb
    | cons o a ih => cases o <;> simp [lastDone, ih]
  refine ⟨(C145_exact_partial _ p).2 ?_, (C145_exact_partial _ p).2 (by simp [h])⟩
  rw [app _ _ h, lastDone_snoc]
  simp

private def nameK (k : Nat) : Str := List.replicate (k + 1) 97
private def opsK : Nat → List FileOp
  | 0 => []
  | k + 1 => opsK k ++ [.create (nameK k), .away (nameK k) false]

private theorem nameK_inj {i j : Nat} (h : nameK i = nameK j) : i = j := by
  have := congrArg List.length h
  simp [nameK] at this; exact this

private theorem files_append (f : List Str) : ∀ (a b : List FileOp), filesAfter f (a ++ b) = (filesAfter f a).bind (filesAfter · b) := by
  intro a
  induction a generalizing f with
  | nil => intro b; rfl
  | cons o a ih =>
    intro b
    simp only [List.cons_append, filesAfter]
    cases o.apply f with
    | none => rfl
    | some g => exact ih g b

private theorem lastDone_two (p : Str) (ops : List FileOp) (a b : FileOp) : lastDone p (ops ++ [a, b]) = lastDone p ((ops ++ [a]) ++ [b]) := by simp

private theorem opsK_fresh : ∀ k j, k ≤ j → lastDone (nameK j) (opsK k) = none := by
  intro k
  induction k with
  | zero => intro j _; rfl
  | succ k ih =>
    intro j h
    rw [opsK, lastDone_two, lastDone_snoc, lastDone_snoc]
    have : nameK k ≠ nameK j := fun e => by have := nameK_inj e; omega
    simp only [this, if_false]
    exact ih j (by omega)

/-- C145: what the watcher remembers grows with the history, not with the tree: for every number there is a history that leaves no file, after which
so many paths are remembered. -/
theorem C145_memory_grows (k : Nat) : ∃ ops, filesAfter [] ops = some [] ∧ (recvAll {} (opNotes ops)).seen.length = k := by
  refine ⟨opsK k, ?_⟩
  induction k with
  | zero => exact ⟨rfl, rfl⟩
  | succ k ih =>
    constructor
    · rw [opsK, files_append, ih.1]
      simp [filesAfter, FileOp.apply]
    · have hs : nameK k ∉ (recvAll {} (opNotes (opsK k))).seen := by
        rw [seen_iff, opsK_fresh k k (Nat.le_refl _)]; simp
      have e : opNotes (opsK (k + 1)) = (opNotes (opsK k) ++ [{ path := nameK k, flags := 0x10100#32 }]) ++ [({ path := nameK k, flags := 0x10800#32 } : Note)] := by
        simp [opsK, opNotes, FileOp.notes, Move.notes]
      rw [e, recvAll_snoc, rename_seen _ _ rfl, recvAll_snoc]
      have h1 : anyBit 0x10100#32 effectAny = true := by decide
      have h2 : anyBit 0x10100#32 effectCreate = true := by decide
      have h3 : anyBit 0x10100#32 effectRemove = false := by decide
      have h4 : anyBit 0x10100#32 effectModify = false := by decide
      have h5 : anyBit 0x10100#32 effectRename = false := by decide
      simp only [recvOne, h1, onCreate, onRemove, onModify, onRename, h2, h3, h4, h5, Bool.not_true, Bool.false_eq_true, if_true, if_false]
      rw [if_neg (by simpa using hs)]
      simp [Ctx.send, ih.2]

example : filesAfter [] [.create b!"/w/a", .remove b!"/w/a", .create b!"/w/a"] = some [b!"/w/a"] ∧
    lastDone b!"/w/a" [.create b!"/w/a", .remove b!"/w/a"] = some false := by decide +kernel

end Verif.Props
