import Verif.Spec.Bindings
/-!
# UTF-8 text is a series of characters
-/

namespace Verif.Lemmas.Utf8
open Verif Verif.Model Verif.Spec.Bind

/-- A character: one row of the table. -/
inductive Ch : Str → Prop where
  | one {a} (h : a ≤ 0x7F) : Ch [a]
  | two {a b} (h : 0xC2 ≤ a ∧ a ≤ 0xDF) (hb : cont b = true) : Ch [a, b]
  | three {a b c} (h : 0xE0 ≤ a ∧ a ≤ 0xEF) (hb : cont b = true) (h1 : a = 0xE0 → 0xA0 ≤ b) (h2 : a = 0xED → b ≤ 0x9F) (hc : cont c = true) : Ch [a, b, c]
  | four {a b c d} (h : 0xF0 ≤ a ∧ a ≤ 0xF4) (hb : cont b = true) (h1 : a = 0xF0 → 0x90 ≤ b) (h2 : a = 0xF4 → b ≤ 0x8F) (hc : cont c = true)
      (hd : cont d = true) : Ch [a, b, c, d]

theorem utf8_app {ch : Str} (h : Ch ch) (r : Str) : utf8 (ch ++ r) = utf8 r := by
  cases h with
  | one h =>
    rcases r with _ | ⟨b, _ | ⟨c, _ | ⟨d, r⟩⟩⟩ <;> simp only [List.cons_append, List.nil_append] <;> rw [utf8]
    · simp [h, utf8]
    · rw [if_pos h]
    · rw [if_pos h]
    · rw [if_pos h]
  | two h hb =>
    rename_i a b
    rcases r with _ | ⟨c, _ | ⟨d, r⟩⟩ <;> simp only [List.cons_append, List.nil_append] <;> rw [utf8]
    · simp only [cont, Bool.and_eq_true, decide_eq_true_eq, UInt8.le_iff_toNat_le, ← UInt8.toNat_inj, UInt8.reduceToNat, utf8] at *
      grind
    · simp only [cont, Bool.and_eq_true, decide_eq_true_eq, UInt8.le_iff_toNat_le, ← UInt8.toNat_inj, UInt8.reduceToNat] at *
      grind
    · simp only [cont, Bool.and_eq_true, decide_eq_true_eq, UInt8.le_iff_toNat_le, ← UInt8.toNat_inj, UInt8.reduceToNat] at *
      grind
  | three h hb h1 h2 hc =>
    rcases r with _ | ⟨d, r⟩ <;> simp only [List.cons_append, List.nil_append] <;> rw [utf8]
    · simp only [cont, Bool.and_eq_true, decide_eq_true_eq, UInt8.le_iff_toNat_le, ← UInt8.toNat_inj, UInt8.reduceToNat, utf8] at *
      grind
    · simp only [cont, Bool.and_eq_true, decide_eq_true_eq, UInt8.le_iff_toNat_le, ← UInt8.toNat_inj, UInt8.reduceToNat] at *
      grind
  | four h hb h1 h2 hc hd =>
    simp only [List.cons_append, List.nil_append]
    rw [utf8]
    simp only [cont, Bool.and_eq_true, decide_eq_true_eq, UInt8.le_iff_toNat_le, ← UInt8.toNat_inj, UInt8.reduceToNat] at *
    grind

private theorem le_cont {b x y : UInt8} (h : (x ≤ b ∧ b ≤ y)) (hx : 0x80 ≤ x) (hy : y ≤ 0xBF) : cont b = true := by
  simp only [cont, Bool.and_eq_true, decide_eq_true_eq, UInt8.le_iff_toNat_le, UInt8.reduceToNat] at *
  omega

/-- Text begins with a character, unless it is empty. -/
theorem utf8_first {s : Str} (h : utf8 s = true) (hne : s ≠ []) : ∃ ch r, s = ch ++ r ∧ Ch ch := by
  rcases s with _ | ⟨a, _ | ⟨b, _ | ⟨c, _ | ⟨d, r⟩⟩⟩⟩
  · exact absurd rfl hne
  · rw [utf8] at h; exact ⟨[a], [], rfl, .one (by simpa using h)⟩
  · rw [utf8] at h
    by_cases ha : a ≤ 0x7F
    · exact ⟨[a], [b], rfl, .one ha⟩
    · rw [if_neg ha] at h; simp at h; exact ⟨[a, b], [], rfl, .two h.1 h.2⟩
  · rw [utf8] at h
    by_cases ha : a ≤ 0x7F
    · exact ⟨[a], [b, c], rfl, .one ha⟩
    rw [if_neg ha] at h
    by_cases h1 : 0xC2 ≤ a ∧ a ≤ 0xDF
    · rw [if_pos (by simpa using h1)] at h; simp at h; exact ⟨[a, b], [c], rfl, .two h1 h.1⟩
    rw [if_neg (by simpa using h1)] at h
    refine ⟨[a, b, c], [], rfl, ?_⟩
    by_cases h2 : a = 0xE0
    · subst h2; simp at h; exact .three (by decide) (le_cont h.1 (by decide) (by decide)) (fun _ => h.1.1) (fun e => absurd e (by decide)) h.2
    rw [if_neg h2] at h
    by_cases h3 : a = 0xED
    · subst h3; simp at h; exact .three (by decide) (le_cont h.1 (by decide) (by decide)) (fun e => absurd e (by decide)) (fun _ => h.1.2) h.2
    rw [if_neg h3] at h
    simp at h
    refine .three ⟨?_, h.1.1.2⟩ h.1.2 (fun e => absurd e h2) (fun e => absurd e h3) h.2
    have := h.1.1.1
    simp only [UInt8.le_iff_toNat_le, UInt8.reduceToNat] at *; omega
  · rw [utf8] at h
    by_cases ha : a ≤ 0x7F
    · exact ⟨[a], b :: c :: d :: r, rfl, .one ha⟩
    rw [if_neg ha] at h
    by_cases h1 : 0xC2 ≤ a ∧ a ≤ 0xDF
    · rw [if_pos (by simpa using h1)] at h; simp at h; exact ⟨[a, b], c :: d :: r, rfl, .two h1 h.1⟩
    rw [if_neg (by simpa using h1)] at h
    by_cases h2 : a = 0xE0
    · subst h2; simp at h; exact ⟨[0xE0, b, c], d :: r, rfl, .three (by decide) (le_cont h.1.1 (by decide) (by decide)) (fun _ => h.1.1.1) (fun e => absurd e (by decide)) h.1.2⟩
    rw [if_neg h2] at h
    by_cases h3 : a = 0xED
    · subst h3; simp at h; exact ⟨[0xED, b, c], d :: r, rfl, .three (by decide) (le_cont h.1.1 (by decide) (by decide)) (fun e => absurd e (by decide)) (fun _ => h.1.1.2) h.1.2⟩
    rw [if_neg h3] at h
    by_cases h4 : 0xE1 ≤ a ∧ a ≤ 0xEF
    · rw [if_pos (by simpa using h4)] at h; simp at h
      refine ⟨[a, b, c], d :: r, rfl, .three ⟨?_, h4.2⟩ h.1.1 (fun e => absurd e h2) (fun e => absurd e h3) h.1.2⟩
      have := h4.1
      simp only [UInt8.le_iff_toNat_le, UInt8.reduceToNat] at *; omega
    rw [if_neg (by simpa using h4)] at h
    refine ⟨[a, b, c, d], r, rfl, ?_⟩
    by_cases h5 : a = 0xF0
    · subst h5; simp at h; exact .four (by decide) (le_cont h.1.1.1 (by decide) (by decide)) (fun _ => h.1.1.1.1) (fun e => absurd e (by decide)) h.1.1.2 h.1.2
    rw [if_neg h5] at h
    by_cases h6 : 0xF1 ≤ a ∧ a ≤ 0xF3
    · rw [if_pos (by simpa using h6)] at h; simp at h
      refine .four ⟨?_, ?_⟩ h.1.1.1 (fun e => absurd e h5) (fun e => ?_) h.1.1.2 h.1.2
      · have := h6.1; simp only [UInt8.le_iff_toNat_le, UInt8.reduceToNat] at *; omega
      · have := h6.2; simp only [UInt8.le_iff_toNat_le, UInt8.reduceToNat] at *; omega
      · have := h6.2; subst e; exact absurd this (by decide)
    rw [if_neg (by simpa using h6)] at h
    by_cases h7 : a = 0xF4
    · subst h7; simp at h; exact .four (by decide) (le_cont h.1.1.1 (by decide) (by decide)) (fun e => absurd e (by decide)) (fun _ => h.1.1.1.2) h.1.1.2 h.1.2
    · rw [if_neg h7] at h; cases h

/-- A character is a byte that continues none, and then bytes that do. -/
theorem ch_shape {ch : Str} (h : Ch ch) : ∃ a t, ch = a :: t ∧ cont a = false ∧ ∀ c ∈ t, cont c = true := by
  cases h with
  | one h => exact ⟨_, _, rfl, by simp only [cont, Bool.and_eq_false_iff, decide_eq_false_iff_not, UInt8.le_iff_toNat_le, UInt8.reduceToNat] at *; omega, by simp⟩
  | two h hb => exact ⟨_, _, rfl, by simp only [cont, Bool.and_eq_false_iff, decide_eq_false_iff_not, UInt8.le_iff_toNat_le, UInt8.reduceToNat] at *; omega, by simp [hb]⟩
  | three h hb h1 h2 hc => exact ⟨_, _, rfl, by simp only [cont, Bool.and_eq_false_iff, decide_eq_false_iff_not, UInt8.le_iff_toNat_le, UInt8.reduceToNat] at *; omega, by simp [hb, hc]⟩
  | four h hb h1 h2 hc hd => exact ⟨_, _, rfl, by simp only [cont, Bool.and_eq_false_iff, decide_eq_false_iff_not, UInt8.le_iff_toNat_le, UInt8.reduceToNat] at *; omega, by simp [hb, hc, hd]⟩

/-- Where text may be cut: at its end, or before a byte that continues nothing. -/
theorem utf8_take {s : Str} (h : utf8 s = true) (k : Nat) (hk : k ≤ s.length) : utf8 (s.take k) = true ↔ ∀ c, s[k]? = some c → cont c = false := by
  have gen : ∀ (n : Nat) (s : Str) (k : Nat), s.length ≤ n → utf8 s = true → k ≤ s.length →
      (utf8 (s.take k) = true ↔ ∀ c, s[k]? = some c → cont c = false) := by
    intro n
    induction n with
    | zero =>
      intro s k hn h hk
      have : s = [] := List.length_eq_zero_iff.mp (by omega)
      subst this; simp [utf8]
    | succ n ih =>
      intro s k hn h hk
      by_cases hne : s = []
      · subst hne; simp [utf8]
      obtain ⟨ch, r, rfl, hch⟩ := utf8_first h hne
      obtain ⟨a, t, rfl, ha, ht⟩ := ch_shape hch
      have hr : utf8 r = true := by rw [← h]; exact (utf8_app hch r).symm
      by_cases hk0 : k = 0
      · subst hk0; simp [utf8, ha]
      by_cases hin : k < (a :: t).length
      · -- inside the character
        have hc : ((a :: t) ++ r)[k]? = some (t[k - 1]'(by simp at hin; omega)) := by
          rw [List.getElem?_append_left hin, List.getElem?_eq_getElem hin]
          congr 1
          obtain ⟨j, rfl⟩ : ∃ j, k = j + 1 := ⟨k - 1, by omega⟩
          simp
        rw [hc]
        have hcc := ht _ (List.getElem_mem (l := t) (n := k - 1) (by simp at hin; omega))
        constructor
        · intro hu
          exfalso
          have hlen : (((a :: t) ++ r).take k).length = k := by simp at hk ⊢; omega
          obtain ⟨ch', r', he, hch'⟩ := utf8_first hu (by intro e; rw [e] at hlen; simp at hlen; omega)
          have hp : ch' ++ (r' ++ ((a :: t) ++ r).drop k) = (a :: t) ++ r := by
            rw [← List.append_assoc, ← he, List.take_append_drop]
          have hl' : ch'.length < (a :: t).length := by
            have := congrArg List.length he; simp only [List.length_append] at this; omega
          -- the shorter beginning would leave a rest that begins inside a character
          have hu2 : utf8 (r' ++ ((a :: t) ++ r).drop k) = true := by rw [← utf8_app hch', hp]; exact h
          have hne2 : r' ++ ((a :: t) ++ r).drop k ≠ [] := by
            intro e; rw [e] at hp; have := congrArg List.length hp; simp at this hl'; omega
          obtain ⟨ch2, r2, he2, hch2⟩ := utf8_first hu2 hne2
          obtain ⟨a2, t2, rfl, ha2, _⟩ := ch_shape hch2
          rw [he2] at hp
          have hx : ((a :: t) ++ r)[ch'.length]? = some a2 := by rw [← hp]; simp
          obtain ⟨b', t', rfl, _, _⟩ := ch_shape hch'
          rw [List.getElem?_append_left hl'] at hx
          simp only [List.length_cons, List.getElem?_cons_succ] at hx
          have := ht a2 (List.mem_of_getElem? hx)
          rw [this] at ha2; cases ha2
        · intro hall; have := hall _ rfl; rw [hcc] at this; cases this
      · have hk2 : k - (a :: t).length ≤ r.length := by simp at hk hin ⊢; omega
        have := ih r (k - (a :: t).length) (by simp at hn; omega) hr hk2
        rw [List.take_append, List.take_of_length_le (by omega), utf8_app hch, List.getElem?_append_right (by omega)]
        exact this
  exact gen s.length s k (Nat.le_refl _) h hk

end Verif.Lemmas.Utf8
