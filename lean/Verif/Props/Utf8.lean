import Verif.Lemmas.Utf8
import Verif.Props.Bindings
/-!
# What Node.js watches when the path is too long (C72)
-/

namespace Verif.Props
open Verif Verif.Model Verif.Model.Bind Verif.Spec Verif.Spec.Bind Verif.Lemmas.Utf8

private theorem isCont_cont (c : UInt8) : isCont c = cont c := by
  simp only [isCont, cont, Bool.and_eq_decide, UInt8.le_iff_toNat_le, UInt8.lt_iff_toNat_lt, UInt8.reduceToNat, decide_eq_decide, decide_eq_true_eq]
  omega

private theorem cutChars_best (s : Str) (hu : utf8 s = true) (n : Nat) :
    utf8 (cutChars s n) = true ∧ ∀ q, q <+: s → utf8 q = true → q.length ≤ n → q <+: cutChars s n := by
  induction n with
  | zero =>
    refine ⟨by simp [cutChars, utf8], fun q _ _ h => ?_⟩
    rw [List.length_eq_zero_iff.mp (by omega : q.length = 0)]; exact List.nil_prefix
  | succ n ih =>
    rw [cutChars]
    split
    · exact ⟨hu, fun q h _ _ => h⟩
    · rename_i hl
      cases hc : s[n + 1]? with
      | none => rw [List.getElem?_eq_none_iff] at hc; omega
      | some c =>
        have ht := utf8_take hu (n + 1) (by omega)
        simp only [isCont_cont]
        split
        · rename_i hcc
          refine ⟨ih.1, fun q h1 h2 h3 => ih.2 q h1 h2 ?_⟩
          -- a beginning of that length would end inside a character
          by_cases hq : q.length = n + 1
          · exfalso
            have : q = s.take (n + 1) := by rw [← hq]; exact List.prefix_iff_eq_take.1 h1
            rw [this] at h2
            have := ht.1 h2 c hc
            rw [hcc] at this; cases this
          · omega
        · rename_i hcc
          refine ⟨ht.2 (fun d hd => ?_), fun q h1 _ h3 => ?_⟩
          · rw [hc] at hd; injection hd with hd; subst hd; simpa using hcc
          · rw [List.prefix_iff_eq_take.1 h1]; exact List.take_prefix_take_left (by omega)

private theorem cRead_same {s : Str} (h : NoNul s) : cRead s = s := by
  have := (C72_exact_partial s).1.2 h
  exact this

/-- C72 (partial: what is watched instead): of a text, Node.js watches the longest beginning that consists of whole characters and
has at most 4095 bytes (unless it contains a zero byte). -/
theorem C72_node_longest_partial (s : Str) (hu : utf8 s = true) (hn : NoNul s) :
    nodeOpenPath s <+: s ∧ utf8 (nodeOpenPath s) = true ∧ (nodeOpenPath s).length ≤ 4095 ∧
    ∀ q, q <+: s → utf8 q = true → q.length ≤ 4095 → q <+: nodeOpenPath s := by
  obtain ⟨h1, h2⟩ := cutChars_best s hu 4095
  have hp := (C72_exact_partial s).2.2.2.2.2.2.2
  have hsub : NoNul (cutChars s 4095) := fun h0 => by
    have : cutChars s 4095 <+: s := cutChars_prefix s 4095
    exact hn (this.subset h0)
  have he : nodeOpenPath s = cutChars s 4095 := by unfold nodeOpenPath; exact cRead_same hsub
  refine ⟨hp, he ▸ h1, ?_, he ▸ h2⟩
  rw [he]; exact cutChars_length s 4095

private def longPath (n : Nat) : Str := List.replicate n 97 ++ [0xC3, 0xBC]

private theorem longPath_facts (n : Nat) : utf8 (longPath n) = true ∧ NoNul (longPath n) ∧ (longPath n).length = n + 2 ∧ (longPath n).take n = List.replicate n 97 := by
  refine ⟨?_, ?_, by simp [longPath], by simp [longPath]⟩
  · induction n with
    | zero => decide +kernel
    | succ n ih => simp only [longPath, List.replicate_succ]; exact (utf8_app (.one (by decide)) _).trans ih
  · intro h; simp [longPath] at h

private theorem longPath_cut (n : Nat) : cutChars (longPath (n + 1)) (n + 2) = (longPath (n + 1)).take (n + 1) := by
  have hl := (longPath_facts (n + 1)).2.2.1
  rw [cutChars, if_neg (by omega)]
  rw [show (longPath (n + 1))[n + 1 + 1]? = some 0xBC from by simp [longPath]]
  simp only [show isCont 0xBC = true from by decide, if_true]
  rw [cutChars, if_neg (by omega)]
  rw [show (longPath (n + 1))[n + 1]? = some 0xC3 from by simp [longPath]]
  simp only [show isCont 0xC3 = false from by decide, if_false, Bool.false_eq_true]

/-- Met: a path of 4096 bytes whose last character is cut off as a whole. -/
example : ∃ s, utf8 s = true ∧ NoNul s ∧ s.length = 4096 ∧ nodeOpenPath s = s.take 4094 := by
  obtain ⟨h1, h2, h3, h4⟩ := longPath_facts (4093 + 1)
  refine ⟨longPath (4093 + 1), h1, h2, h3, ?_⟩
  unfold nodeOpenPath
  rw [show 4095 = 4093 + 2 from rfl, longPath_cut]
  exact cRead_same (fun h0 => h2 ((List.take_prefix _ _).subset h0))

end Verif.Props
