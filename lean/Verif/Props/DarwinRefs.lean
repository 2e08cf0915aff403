import Verif.Spec.DarwinRefs
/-!
# Objects of the system that a watch on Darwin makes (C159)
-/

namespace Verif.Props
open Verif.Model.DRefs Verif.Spec.DRefs

/-- C159, the full claim: whatever the system answers, nothing is retained or released that does not exist, and when all watches have gone no object is left. -/
def C159_full : Prop := ∀ as : List Ans, (∀ h ∈ program as, h.bad = false) ∧ leaked (program as) = 0

private theorem life_all (a : Ans) (hs : a.string = true) : (life a).bad = false ∧ (life a).stream = 0 ∧ (life a).sem = 1 ∧
    ((life a).string = if a.queue && a.array && a.stream then 2 else 0) ∧ ((life a).array = if a.queue && a.array && a.stream then 1 else 0) := by
  obtain ⟨q, s, r, t⟩ := a
  subst hs
  cases q <;> cases r <;> cases t <;> decide

private theorem mem_program {as : List Ans} {h : Heap} (hm : h ∈ program as) : ∃ a ∈ as, h = life a := by
  induction as with
  | nil => cases hm
  | cons a as ih =>
    cases hm with
    | head => exact ⟨a, .head _, rfl⟩
    | tail _ hm => obtain ⟨b, hb, e⟩ := ih hm; exact ⟨b, .tail _ hb, e⟩

/-- C159: if the paths can be made strings, nothing is retained or released that does not exist, and no stream is left, whatever else the system answers; a watch whose stream could not be opened
leaves only its semaphore. -/
theorem C159_safe_partial (as : List Ans) (hs : ∀ a ∈ as, a.string = true) :
    (∀ h ∈ program as, h.bad = false ∧ h.stream = 0) ∧ ∀ a ∈ as, ¬ Works a → (life a).string = 0 ∧ (life a).array = 0 ∧ objects (life a) = 1 := by
  refine ⟨?_, ?_⟩
  · intro h hm
    obtain ⟨a, ha, rfl⟩ := mem_program hm
    have := life_all a (hs a ha)
    exact ⟨this.1, this.2.1⟩
  · intro a ha hw
    obtain ⟨_, h2, h3, h4, h5⟩ := life_all a (hs a ha)
    have : (a.queue && a.array && a.stream) = false := by
      cases hb : (a.queue && a.array && a.stream) with
      | false => rfl
      | true => simp only [Bool.and_eq_true] at hb; exact absurd ⟨hb.1.1, hs a ha, hb.1.2, hb.2⟩ hw
    rw [this] at h4 h5
    simp only [Bool.false_eq_true, if_false] at h4 h5
    exact ⟨h4, h5, by simp [objects, h2, h3, h4, h5]⟩

/-- C159: each watch that worked leaves three objects for good: its semaphore, its string and its array. -/
theorem C159_leak_partial (as : List Ans) (h : ∀ a ∈ as, Works a) : leaked (program as) = 3 * as.length := by
  induction as with
  | nil => rfl
  | cons a as ih =>
    have hw := h a (.head _)
    obtain ⟨_, h2, h3, h4, h5⟩ := life_all a hw.2.1
    have hb : (a.queue && a.array && a.stream) = true := by simp [hw.1, hw.2.2.1, hw.2.2.2]
    rw [hb] at h4 h5
    have : objects (life a) = 3 := by simp [objects, h2, h3, h4, h5]
    have ih := ih fun b hb => h b (.tail _ hb)
    simp only [leaked, program, List.map_cons, List.sum_cons, List.length_cons] at ih ⊢
    omega

/-- C159: a path that cannot be made a string leads to undefined behaviour: the array retains null. -/
theorem C159_null_partial (a : Ans) (hs : a.string = false) (ha : a.array = true) : (life a).bad = true := by
  obtain ⟨q, s, r, t⟩ := a
  subst hs; subst ha
  cases q <;> cases t <;> decide

/-- C159 fails: a watch that works leaves objects. -/
theorem C159_refuted : ¬ C159_full := by
  intro h
  have := (h [⟨true, true, true, true⟩]).2
  revert this; decide

/-- Watches as `C159_safe_partial` (one that works and one whose stream cannot be made) and `C159_leak_partial` ask for. -/
example : (∀ a ∈ [(⟨true, true, true, true⟩ : Ans), ⟨true, true, true, false⟩], a.string = true) ∧ ¬ Works ⟨true, true, true, false⟩ ∧ Works ⟨true, true, true, true⟩ :=
  ⟨by decide, by simp [Works], rfl, rfl, rfl, rfl⟩

/-- The model does see an object that is given back once too often or used when it is gone, at each of the five places. -/
example : (retainString {}).bad = true ∧ (releaseString {}).bad = true ∧ (retainArray {}).bad = true ∧ (releaseArray {}).bad = true ∧
    (releaseStream {}).bad = true ∧ (releaseArray { array := 1 }).bad = true ∧ (releaseStream { stream := 1 }).bad = true ∧
    (releaseStream { stream := 1, array := 1 }).bad = true ∧ (releaseStream { stream := 1, array := 1, string := 1 }).bad = false := by decide

end Verif.Props
