import Verif.Spec.Darwin
import Verif.Lemmas.Bits
import Verif.Lemmas.Event
/-! Lemmas about the Darwin back end. -/
namespace Verif.Lemmas.Darwin
open Verif Verif.Model Verif.Model.Darwin Verif.Spec Verif.Spec.Darwin Verif.Lemmas

theorem d_create (m : BitVec 32) : anyBit m effectCreate = m.getLsbD 8 := anyBit_pow m 8 (by omega)
theorem d_remove (m : BitVec 32) : anyBit m effectRemove = m.getLsbD 9 := anyBit_pow m 9 (by omega)
theorem d_meta (m : BitVec 32) : anyBit m ItemInodeMetaMod = m.getLsbD 10 := anyBit_pow m 10 (by omega)
theorem d_rename (m : BitVec 32) : anyBit m effectRename = m.getLsbD 11 := anyBit_pow m 11 (by omega)
theorem d_mod (m : BitVec 32) : anyBit m ItemModified = m.getLsbD 12 := anyBit_pow m 12 (by omega)
theorem d_finder (m : BitVec 32) : anyBit m ItemFinderInfoMod = m.getLsbD 13 := anyBit_pow m 13 (by omega)
theorem d_owner (m : BitVec 32) : anyBit m ItemChangeOwner = m.getLsbD 14 := anyBit_pow m 14 (by omega)
theorem d_xattr (m : BitVec 32) : anyBit m ItemXattrMod = m.getLsbD 15 := anyBit_pow m 15 (by omega)
theorem d_file (m : BitVec 32) : anyBit m pathFile = m.getLsbD 16 := anyBit_pow m 16 (by omega)
theorem d_dir (m : BitVec 32) : anyBit m pathDir = m.getLsbD 17 := anyBit_pow m 17 (by omega)
theorem d_sym (m : BitVec 32) : anyBit m pathSymLink = m.getLsbD 18 := anyBit_pow m 18 (by omega)
theorem d_hard1 (m : BitVec 32) : anyBit m ItemIsHardlink = m.getLsbD 20 := anyBit_pow m 20 (by omega)
theorem d_hard2 (m : BitVec 32) : anyBit m ItemIsLastHardlink = m.getLsbD 21 := anyBit_pow m 21 (by omega)

theorem d_modify (m : BitVec 32) : anyBit m effectModify =
    (m.getLsbD 12 || m.getLsbD 14 || m.getLsbD 15 || m.getLsbD 13) := by
  have : effectModify = ItemModified ||| ItemChangeOwner ||| ItemXattrMod ||| ItemFinderInfoMod := by decide
  rw [this, anyBit_or, anyBit_or, anyBit_or, d_mod, d_owner, d_xattr, d_finder]

theorem d_any (m : BitVec 32) : anyBit m effectAny =
    (m.getLsbD 8 || m.getLsbD 9 || (m.getLsbD 12 || m.getLsbD 14 || m.getLsbD 15 || m.getLsbD 13 || m.getLsbD 10) || m.getLsbD 11) := by
  simp only [effectAny, effectModifyAny, anyBit_or, d_create, d_remove, d_rename, d_mod, d_owner, d_xattr, d_finder, d_meta]

theorem d_hard (m : BitVec 32) : anyBit m pathHardLink = (m.getLsbD 20 || m.getLsbD 21) := by
  simp only [pathHardLink, anyBit_or, d_hard1, d_hard2]

theorem lifeOf_append (p : Str) (a b : List Ev) : lifeOf p (a ++ b) = lifeOf p a ++ lifeOf p b := by
  induction a with
  | nil => rfl
  | cons e l ih =>
    simp only [List.cons_append, lifeOf]
    split
    · rw [ih]; rfl
    · split
      · rw [ih]; rfl
      · exact ih

theorem renameEvents_append (a b : List Ev) : renameEvents (a ++ b) = renameEvents a ++ renameEvents b := by
  induction a with
  | nil => rfl
  | cons e l ih =>
    simp only [List.cons_append, renameEvents]
    split
    · rw [ih]; rfl
    · exact ih

/-- What is known of a path's history: it alternates, and ends with a creation exactly when the path is
remembered. -/
def Life (p : Str) (c : Ctx) : Prop :=
  (AlternatesFrom true (lifeOf p c.out)) ∧ ((lifeOf p c.out).length % 2 = 1 ↔ p ∈ c.seen)

theorem alternates_snoc (x : Bool) : ∀ (b : Bool) (l : List Bool), AlternatesFrom b l →
    (x = (if l.length % 2 = 0 then b else !b)) → AlternatesFrom b (l ++ [x]) := by
  intro b l
  induction l generalizing b with
  | nil => intro _ h; simp at h; simp [AlternatesFrom, h]
  | cons y l ih =>
    intro h hx
    refine ⟨h.1, ih (!b) h.2 ?_⟩
    simp only [List.length_cons] at hx
    rw [hx]
    by_cases hl : l.length % 2 = 0
    · rw [if_neg (by omega), if_pos hl]
    · rw [if_pos (by omega), if_neg hl]; simp

theorem life_create {p : Str} {c : Ctx} (h : Life p c) (path : Str) (fl : BitVec 32) (pt : PathType) :
    Life p (onCreate c path fl pt) := by
  unfold onCreate
  split
  · split
    · exact h
    · rename_i hs
      obtain ⟨h1, h2⟩ := h
      by_cases hp : path = p
      · subst hp
        have hn : path ∉ c.seen := by simpa using hs
        have he : (lifeOf path c.out).length % 2 = 0 := by
          have := mt h2.1 hn; omega
        have hl : lifeOf path (c.out ++ [{ path := path, effect := .create, ptype := pt }]) = lifeOf path c.out ++ [true] := by
          rw [lifeOf_append]; simp [lifeOf]
        simp only [Life, Ctx.send]
        rw [hl]
        refine ⟨alternates_snoc _ _ _ h1 (by rw [if_pos he]), ?_⟩
        simp; omega
      · have hl : lifeOf p (c.out ++ [{ path := path, effect := .create, ptype := pt }]) = lifeOf p c.out := by
          rw [lifeOf_append]; simp [lifeOf, hp]
        simp only [Life, Ctx.send]
        rw [hl]
        refine ⟨h1, ?_⟩
        rw [h2]
        simp [Ne.symm hp]
  · exact h

theorem life_remove {p : Str} {c : Ctx} (h : Life p c) (path : Str) (fl : BitVec 32) (pt : PathType) :
    Life p (onRemove c path fl pt) := by
  unfold onRemove
  split
  · split
    · rename_i hs
      obtain ⟨h1, h2⟩ := h
      by_cases hp : path = p
      · subst hp
        have hn : path ∈ c.seen := by simpa using hs
        have he := h2.2 hn
        have hl : lifeOf path (c.out ++ [{ path := path, effect := .destroy, ptype := pt }]) = lifeOf path c.out ++ [false] := by
          rw [lifeOf_append]; simp [lifeOf]
        simp only [Life, Ctx.send]
        rw [hl]
        refine ⟨alternates_snoc _ _ _ h1 (by rw [if_neg (by omega)]; rfl), ?_⟩
        simp; omega
      · have hl : lifeOf p (c.out ++ [{ path := path, effect := .destroy, ptype := pt }]) = lifeOf p c.out := by
          rw [lifeOf_append]; simp [lifeOf, hp]
        simp only [Life, Ctx.send]
        rw [hl]
        refine ⟨h1, ?_⟩
        rw [h2]
        simp [Ne.symm hp]
    · exact h
  · exact h

theorem life_modify {p : Str} {c : Ctx} (h : Life p c) (path : Str) (fl : BitVec 32) (pt : PathType) :
    Life p (onModify c path fl pt) := by
  unfold onModify
  split
  · have hl : lifeOf p (c.out ++ [{ path := path, effect := .modify, ptype := pt }]) = lifeOf p c.out := by
      rw [lifeOf_append]; simp [lifeOf]
    simp only [Life, Ctx.send]; rw [hl]; exact h
  · exact h

theorem life_rename {p : Str} {c : Ctx} (h : Life p c) (path : Str) (fl : BitVec 32) (pt : PathType) (m : Bool) :
    Life p (onRename c path fl pt m) := by
  unfold onRename
  split
  · simp only
    split
    · have hl : lifeOf p (c.out ++ [⟨c.last, .rename, pt, some ⟨path, .rename, pt⟩⟩]) = lifeOf p c.out := by
        rw [lifeOf_append]; simp [lifeOf]
      simp only [Life, Ctx.send]; rw [hl]; exact h
    · exact h
  · exact h

theorem life_one {p : Str} {c : Ctx} (h : Life p c) (n : Note) : Life p (recvOne c n) := by
  unfold recvOne
  simp only
  split
  · have hl : lifeOf p (c.out ++ [{ path := n.path, effect := .other, ptype := ptypeOf n.flags }]) = lifeOf p c.out := by
      rw [lifeOf_append]; simp [lifeOf]
    simp only [Life, Ctx.send]; rw [hl]; exact h
  · exact life_rename (life_modify (life_remove (life_create h _ _ _) _ _ _) _ _ _) _ _ _ _

theorem life_all {p : Str} (ns : List Note) {c : Ctx} (h : Life p c) : Life p (recvAll c ns) := by
  induction ns generalizing c with
  | nil => exact h
  | cons n ns ih => exact ih (life_one h n)

/-! ### Renames -/

theorem create_last (c : Ctx) (path : Str) (fl : BitVec 32) (pt : PathType) :
    (onCreate c path fl pt).last = c.last ∧ renameEvents (onCreate c path fl pt).out = renameEvents c.out := by
  unfold onCreate
  repeat' split
  all_goals simp [Ctx.send, renameEvents_append, renameEvents]

theorem remove_last (c : Ctx) (path : Str) (fl : BitVec 32) (pt : PathType) :
    (onRemove c path fl pt).last = c.last ∧ renameEvents (onRemove c path fl pt).out = renameEvents c.out := by
  unfold onRemove
  repeat' split
  all_goals simp [Ctx.send, renameEvents_append, renameEvents]

theorem modify_last (c : Ctx) (path : Str) (fl : BitVec 32) (pt : PathType) :
    (onModify c path fl pt).last = c.last ∧ renameEvents (onModify c path fl pt).out = renameEvents c.out := by
  unfold onModify
  repeat' split
  all_goals simp [Ctx.send, renameEvents_append, renameEvents]

/-- One notification, as far as renames are concerned. -/
theorem one_rename (c : Ctx) (n : Note) :
    (bit n 11 = false → (recvOne c n).last = c.last ∧ renameEvents (recvOne c n).out = renameEvents c.out) ∧
    (bit n 11 = true → (c.last ≠ [] ∧ squeeze c.last ≠ squeeze n.path ∧ n.missing = true →
        (recvOne c n).last = [] ∧ renameEvents (recvOne c n).out = renameEvents c.out ++ [(c.last, n.path)]) ∧
      (¬ (c.last ≠ [] ∧ squeeze c.last ≠ squeeze n.path ∧ n.missing = true) →
        (recvOne c n).last = n.path ∧ renameEvents (recvOne c n).out = renameEvents c.out)) := by
  have h3 : ∀ c : Ctx, ∀ pt, let c' := onModify (onRemove (onCreate c n.path n.flags pt) n.path n.flags pt) n.path n.flags pt
      c'.last = c.last ∧ renameEvents c'.out = renameEvents c.out := by
    intro c pt
    have a := create_last c n.path n.flags pt
    have b := remove_last (onCreate c n.path n.flags pt) n.path n.flags pt
    have d := modify_last (onRemove (onCreate c n.path n.flags pt) n.path n.flags pt) n.path n.flags pt
    exact ⟨d.1.trans (b.1.trans a.1), d.2.trans (b.2.trans a.2)⟩
  have h4 := h3 c (ptypeOf n.flags)
  simp only at h4
  refine ⟨fun hb => ?_, fun hb => ⟨fun hc => ?_, fun hc => ?_⟩⟩
  · unfold recvOne
    simp only
    split
    · simp [Ctx.send, renameEvents_append, renameEvents]
    · unfold onRename
      rw [d_rename]
      unfold bit at hb
      rw [hb]
      exact h4
  all_goals
    unfold bit at hb
    have hany : anyBit n.flags effectAny = true := by rw [d_any, hb]; simp
    unfold recvOne
    simp only [hany, Bool.not_true, Bool.false_eq_true, if_false]
    unfold onRename
    rw [d_rename, hb, if_pos rfl]
    simp only
    rw [h4.1]
  · have h5 : pathEq c.last n.path = false := by
      cases hx : pathEq c.last n.path with
      | false => rfl
      | true => exact absurd ((pathEq_iff _ _).1 hx) hc.2.1
    have h6 : c.last.isEmpty = false := by
      cases hl : c.last with
      | nil => exact absurd hl hc.1
      | cons _ _ => rfl
    simp only [h5, h6, hc.2.2, Bool.not_false, Bool.and_self, if_true]
    refine ⟨trivial, ?_⟩
    simp only [Ctx.send, renameEvents_append, h4.2]
    rfl
  · have h5 : (!c.last.isEmpty && !pathEq c.last n.path && n.missing) = false := by
      cases hx : (!c.last.isEmpty && !pathEq c.last n.path && n.missing) with
      | false => rfl
      | true =>
        simp only [Bool.and_eq_true, Bool.not_eq_true'] at hx
        exact absurd ⟨by intro h; rw [h] at hx; simp at hx,
          fun h => by rw [(pathEq_iff _ _).2 h] at hx; simp at hx, hx.2⟩ hc
    rw [h5]
    simp only [Bool.false_eq_true, if_false]
    exact ⟨trivial, h4.2⟩

/-- All notifications, as far as renames are concerned. The notification whose path is `last` is `a`, if
there is one. -/
theorem all_rename : ∀ (ns : List Note) (c : Ctx),
    ∃ o, renameEvents (recvAll c ns).out = renameEvents c.out ++ o ∧
      (c.last = [] → Pairing (renames ns) o) ∧ (∀ a : Note, a.path = c.last → Pairing (a :: renames ns) o) := by
  intro ns
  induction ns with
  | nil =>
    intro c
    refine ⟨[], by simp [recvAll], fun _ => .nil, fun a _ => .last a⟩
  | cons n ns ih =>
    intro c
    obtain ⟨o, h1, h2, h3⟩ := ih (recvOne c n)
    have hall : recvAll c (n :: ns) = recvAll (recvOne c n) ns := rfl
    rw [hall]
    obtain ⟨hn, hy⟩ := one_rename c n
    cases hb : bit n 11 with
    | false =>
      obtain ⟨h4, h5⟩ := hn hb
      have hr : renames (n :: ns) = renames ns := by simp [renames, hb]
      rw [hr]
      exact ⟨o, by rw [h1, h5], fun h => h2 (by rw [h4]; exact h), fun a ha => h3 a (by rw [h4]; exact ha)⟩
    | true =>
      have hr : renames (n :: ns) = n :: renames ns := by simp [renames, hb]
      rw [hr]
      obtain ⟨hc, hd⟩ := hy hb
      by_cases hx : c.last ≠ [] ∧ squeeze c.last ≠ squeeze n.path ∧ n.missing = true
      · obtain ⟨h4, h5⟩ := hc hx
        refine ⟨(c.last, n.path) :: o, by rw [h1, h5, List.append_assoc]; rfl, fun h => absurd h hx.1, ?_⟩
        intro a ha
        rw [← ha]
        exact .pair a n _ _ (by unfold Connects; rw [ha]; exact hx) (h2 h4)
      · obtain ⟨h4, h5⟩ := hd hx
        refine ⟨o, by rw [h1, h5], fun h => ?_, ?_⟩
        · exact h3 n (by rw [h4])
        · intro a ha
          exact .skip a n _ _ (by unfold Connects; rw [ha]; exact hx) (h3 n (by rw [h4]))

/-- Only one pairing is possible. -/
theorem pairing_unique : ∀ (l : List Note) (o1 : List (Str × Str)), Pairing l o1 → ∀ o2, Pairing l o2 → o1 = o2 := by
  intro l o1 h
  induction h with
  | nil => intro o2 h2; cases h2; rfl
  | last a => intro o2 h2; cases h2; rfl
  | skip a b l o hc h ih =>
    intro o2 h2
    cases h2 with
    | skip _ _ _ _ _ h2 => exact ih _ h2
    | pair _ _ _ _ hc2 _ => exact absurd hc2 hc
  | pair a b l o hc h ih =>
    intro o2 h2
    cases h2 with
    | skip _ _ _ _ hc2 _ => exact absurd hc hc2
    | pair _ _ _ _ _ h2 => rw [ih _ h2]

end Verif.Lemmas.Darwin
