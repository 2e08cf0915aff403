import Verif.Spec.Event
/-! Helper lemmas for event equality. -/

namespace Verif.Lemmas
open Verif Verif.Model Verif.Spec

theorem squeeze_cons_ne {c : UInt8} (h : c ≠ 47) (s : Str) : squeeze (c :: s) = c :: squeeze s := by
  cases s with
  | nil => simp [squeeze]
  | cons d cs => simp [squeeze, h]

theorem squeeze_slash_slash (s : Str) : squeeze (47 :: 47 :: s) = squeeze (47 :: s) := by
  simp [squeeze]

theorem squeeze_slash_ne {c : UInt8} (h : c ≠ 47) (s : Str) :
    squeeze (47 :: c :: s) = 47 :: squeeze (c :: s) := by
  simp [squeeze, h]

def joinElems : List Str → Str
  | [] => []
  | [x] => x
  | x :: y :: r => x ++ 47 :: joinElems (y :: r)

theorem joinElems_cons {x : Str} {l : List Str} (h : l ≠ []) :
    joinElems (x :: l) = x ++ 47 :: joinElems l := by
  cases l with
  | nil => exact absurd rfl h
  | cons y r => rfl

theorem splitElems_ne_nil (cur : Str) (pend : Bool) (s : Str) (h : cur ≠ []) :
    splitElems cur pend s ≠ [] := by
  induction s generalizing cur pend with
  | nil => cases pend <;> simp [splitElems, h]
  | cons c cs ih =>
    simp only [splitElems]
    split
    · exact ih _ _ h
    · split
      · simp
      · exact ih _ _ (by simp)

theorem join_splitElems (cur : Str) (s : Str) :
    (cur ≠ [] → joinElems (splitElems cur true s) = cur.reverse ++ squeeze (47 :: s)) ∧
    ((cur = [] → s.head? ≠ some 47) →
      joinElems (splitElems cur false s) = cur.reverse ++ squeeze s) := by
  induction s generalizing cur with
  | nil =>
    constructor
    · intro h; simp [splitElems, joinElems, squeeze]
    · intro _
      by_cases hc : cur = []
      · subst hc; simp [splitElems, joinElems, squeeze]
      · simp [splitElems, hc, joinElems, squeeze]
  | cons c cs ih =>
    constructor
    · intro h
      by_cases hc : c = 47
      · subst hc
        simp only [splitElems, slash, if_true]
        rw [(ih cur).1 h, squeeze_slash_slash]
      · simp only [splitElems, slash, hc, if_false, if_true]
        rw [joinElems_cons (splitElems_ne_nil _ _ _ (by simp)), (ih [c]).2 (by simp),
          squeeze_slash_ne hc, squeeze_cons_ne hc]
        simp
    · intro h
      by_cases hc : c = 47
      · subst hc
        have hcur : cur ≠ [] := by
          intro h0; exact absurd rfl (h h0)
        simp only [splitElems, slash, if_true]
        exact (ih cur).1 hcur
      · simp only [splitElems, slash, hc, if_false]
        rw [if_neg (by simp)]
        rw [(ih (c :: cur)).2 (by simp), squeeze_cons_ne hc]
        simp

theorem splitElems_squeeze (s : Str) : ∀ (cur : Str) (pend : Bool),
    splitElems cur pend (squeeze s) = splitElems cur pend s := by
  fun_induction squeeze s with
  | case1 => intros; rfl
  | case2 => intros; rfl
  | case3 c d cs h ih =>
    intro cur pend
    rw [ih]
    obtain ⟨rfl, rfl⟩ := h
    simp [splitElems, slash]
  | case4 c d cs h ih =>
    intro cur pend
    simp only [splitElems]
    simp only [ih]
    simp only [splitElems]

theorem dropWhile_slash_squeeze (s : Str) :
    (squeeze s).dropWhile (· == slash) = squeeze (s.dropWhile (· == slash)) := by
  fun_induction squeeze s with
  | case1 => rfl
  | case2 c =>
    by_cases h : c == slash <;> simp [List.dropWhile, h, squeeze]
  | case3 c d cs h ih =>
    rw [ih]
    obtain ⟨rfl, rfl⟩ := h
    simp [List.dropWhile, slash]
  | case4 c d cs h ih =>
    by_cases hc : c = slash
    · rw [List.dropWhile_cons_of_pos (by simp [hc]), List.dropWhile_cons_of_pos (by simp [hc]), ih]
    · rw [List.dropWhile_cons_of_neg (by simp [hc]), List.dropWhile_cons_of_neg (by simp [hc])]
      simp [squeeze, h]

theorem head_squeeze (s : Str) : (squeeze s).head? = s.head? := by
  fun_induction squeeze s with
  | case1 => rfl
  | case2 c => rfl
  | case3 c d cs h ih => rw [ih]; simp [h.1, h.2]
  | case4 c d cs h ih => rfl

theorem pathElems_squeeze (s : Str) : pathElems (squeeze s) = pathElems s := by
  unfold pathElems
  rw [dropWhile_slash_squeeze, splitElems_squeeze, head_squeeze]

theorem head_dropWhile_slash (s : Str) : (s.dropWhile (· == slash)).head? ≠ some 47 := by
  induction s with
  | nil => simp
  | cons c cs ih =>
    by_cases h : c = slash
    · rw [List.dropWhile_cons_of_pos (by simp [h])]; exact ih
    · rw [List.dropWhile_cons_of_neg (by simp [h])]; simpa [slash] using h

theorem squeeze_rooted (s : Str) (h : s.head? = some 47) :
    squeeze s = 47 :: squeeze (s.dropWhile (· == slash)) := by
  fun_induction squeeze s with
  | case1 => simp at h
  | case2 c => simp at h; subst h; simp [slash, squeeze]
  | case3 c d cs hh ih =>
    obtain ⟨rfl, rfl⟩ := hh
    rw [ih (by simp)]
    simp [slash]
  | case4 c d cs hh ih =>
    simp at h; subst h
    have hd : d ≠ 47 := by intro hd; exact hh ⟨rfl, hd⟩
    rw [List.dropWhile_cons_of_pos (by simp [slash]), List.dropWhile_cons_of_neg (by simpa [slash] using hd)]

theorem squeeze_eq_render (s : Str) :
    squeeze s = (if (pathElems s).1 then [47] else []) ++ joinElems (pathElems s).2 := by
  unfold pathElems
  rw [(join_splitElems [] _).2 (fun _ => head_dropWhile_slash s)]
  by_cases h : s.head? = some 47
  · rw [squeeze_rooted s h]
    simp [h, slash]
  · have hd : s.dropWhile (· == slash) = s := by
      cases s with
      | nil => rfl
      | cons c cs => 
        rw [List.dropWhile_cons_of_neg]; simpa [slash] using h
    simp [hd]
    simp [h, slash]

theorem pathEq_iff (a b : Str) : pathEq a b = true ↔ squeeze a = squeeze b := by
  unfold pathEq
  rw [beq_iff_eq]
  constructor
  · intro h; rw [squeeze_eq_render a, squeeze_eq_render b, h]
  · intro h; rw [← pathElems_squeeze a, ← pathElems_squeeze b, h]

theorem eq_iff_same : ∀ a b : Event, Event.eq a b = true ↔ SameEvent a b
  | .mk p e t tm none, .mk p' e' t' tm' none => by
    simp only [Event.eq, Bool.and_eq_true, beq_iff_eq, pathEq_iff]
    constructor
    · rintro ⟨⟨⟨h1, rfl⟩, rfl⟩, rfl⟩; exact .flat h1
    · intro h; cases h with | flat h => exact ⟨⟨⟨h, rfl⟩, rfl⟩, rfl⟩
  | .mk p e t tm (some a), .mk p' e' t' tm' (some a') => by
    simp only [Event.eq, Bool.and_eq_true, beq_iff_eq, pathEq_iff, eq_iff_same a a']
    constructor
    · rintro ⟨⟨⟨⟨h1, rfl⟩, rfl⟩, rfl⟩, h5⟩; exact .assoc h1 h5
    · intro h; cases h with | assoc h h' => exact ⟨⟨⟨⟨h, rfl⟩, rfl⟩, rfl⟩, h'⟩
  | .mk p e t tm (some a), .mk p' e' t' tm' none => by
    simp only [Event.eq]
    constructor
    · intro h; cases h
    · intro h; cases h
  | .mk p e t tm none, .mk p' e' t' tm' (some a') => by
    simp only [Event.eq]
    constructor
    · intro h; cases h
    · intro h; cases h

theorem same_refl : ∀ a : Event, SameEvent a a
  | .mk _ _ _ _ none => .flat rfl
  | .mk _ _ _ _ (some a) => .assoc rfl (same_refl a)

theorem same_symm {a b : Event} (h : SameEvent a b) : SameEvent b a := by
  induction h with
  | flat h => exact .flat h.symm
  | assoc h _ ih => exact .assoc h.symm ih

theorem same_trans {a b : Event} (h : SameEvent a b) : ∀ {c}, SameEvent b c → SameEvent a c := by
  induction h with
  | flat h => intro c hc; cases hc with | flat h' => exact .flat (h.trans h')
  | assoc h _ ih => intro c hc; cases hc with | assoc h' h'' => exact .assoc (h.trans h') (ih h'')

theorem copy_eq : ∀ a : Event, a.copy = a
  | .mk _ _ _ _ none => rfl
  | .mk _ _ _ _ (some a) => by simp [Event.copy, copy_eq a]

end Verif.Lemmas
