import Verif.Model.Wide
import Verif.Spec.Wide
import Verif.Lemmas.Utf8
/-!
# Wide text of events (C135)
-/

namespace Verif.Props
open Verif Verif.Model Verif.Spec Verif.Spec.Json Verif.Spec.Wide Verif.Spec.Bind Verif.Lemmas.Utf8

private theorem ofNat8 {n : Nat} (c : UInt8) (h : n = c.toNat) : UInt8.ofNat n = c := by subst h; simp

/-- Reading a character gives one whose encoding is what was read. -/
private theorem readChar_sound {s r : Str} {n : Nat} (h : readChar s = some (n, r)) :
    IsChar n ∧ s = utf8Enc n ++ r ∧ r.length < s.length := by
  rcases s with _ | ⟨c1, s⟩
  · simp [readChar] at h
  unfold readChar at h
  simp only [UInt8.lt_iff_toNat_lt, UInt8.reduceToNat] at h
  have hb := c1.toNat_lt
  split at h
  · simp only [Option.some.injEq, Prod.mk.injEq] at h
    obtain ⟨rfl, rfl⟩ := h
    refine ⟨Or.inl (by omega), ?_, by simp⟩
    rw [utf8Enc, if_pos (by omega)]; simp
  split at h
  · cases h
  split at h
  · rcases s with _ | ⟨c2, s⟩
    · cases h
    simp only at h
    split at h
    · rename_i ht
      simp only [isTrail, Bool.and_eq_true, decide_eq_true_eq, UInt8.le_iff_toNat_le, UInt8.lt_iff_toNat_lt, UInt8.reduceToNat] at ht
      simp only [Option.some.injEq, Prod.mk.injEq] at h
      obtain ⟨rfl, rfl⟩ := h
      refine ⟨Or.inl (by omega), ?_, by simp; omega⟩
      rw [utf8Enc, if_neg (by omega), if_pos (by omega), ofNat8 c1 (by omega), ofNat8 c2 (by omega)]; rfl
    · cases h
  split at h
  · rcases s with _ | ⟨c2, _ | ⟨c3, s⟩⟩
    · cases h
    · cases h
    simp only at h
    split at h
    · rename_i ht
      simp only [isTrail, Bool.and_eq_true, Bool.not_eq_true', Bool.and_eq_false_iff, beq_eq_false_iff_ne, ne_eq, decide_eq_true_eq, decide_eq_false_iff_not,
        UInt8.le_iff_toNat_le, UInt8.lt_iff_toNat_lt, ← UInt8.toNat_inj, UInt8.reduceToNat, ge_iff_le] at ht
      simp only [Option.some.injEq, Prod.mk.injEq] at h
      obtain ⟨rfl, rfl⟩ := h
      refine ⟨?_, ?_, by simp; omega⟩
      · unfold IsChar; omega
      · rw [utf8Enc, if_neg (by omega), if_neg (by omega), if_pos (by omega), ofNat8 c1 (by omega), ofNat8 c2 (by omega), ofNat8 c3 (by omega)]; rfl
    · cases h
  split at h
  · rcases s with _ | ⟨c2, _ | ⟨c3, _ | ⟨c4, s⟩⟩⟩
    · cases h
    · cases h
    · cases h
    simp only at h
    split at h
    · rename_i ht
      simp only [isTrail, Bool.and_eq_true, Bool.not_eq_true', Bool.and_eq_false_iff, beq_eq_false_iff_ne, ne_eq, decide_eq_true_eq, decide_eq_false_iff_not,
        UInt8.le_iff_toNat_le, UInt8.lt_iff_toNat_lt, ← UInt8.toNat_inj, UInt8.reduceToNat, ge_iff_le] at ht
      simp only [Option.some.injEq, Prod.mk.injEq] at h
      obtain ⟨rfl, rfl⟩ := h
      refine ⟨?_, ?_, by simp; omega⟩
      · unfold IsChar; omega
      · rw [utf8Enc, if_neg (by omega), if_neg (by omega), if_neg (by omega), ofNat8 c1 (by omega), ofNat8 c2 (by omega), ofNat8 c3 (by omega),
          ofNat8 c4 (by omega)]; rfl
    · cases h
  · cases h

/-- A character of the table is read, and leaves what follows. -/
private theorem readChar_ch {ch : Str} (h : Ch ch) (r : Str) : ∃ n, readChar (ch ++ r) = some (n, r) := by
  cases h with
  | @one a h =>
    refine ⟨a.toNat, ?_⟩
    simp only [List.cons_append, List.nil_append, readChar]
    rw [if_pos (by simp only [UInt8.le_iff_toNat_le, UInt8.lt_iff_toNat_lt, UInt8.reduceToNat] at *; omega)]
  | @two a b h hb =>
    refine ⟨(a.toNat - 0xC0) * 64 + (b.toNat - 0x80), ?_⟩
    simp only [cont, Bool.and_eq_true, decide_eq_true_eq, UInt8.le_iff_toNat_le, UInt8.reduceToNat] at h hb
    simp only [List.cons_append, List.nil_append, readChar, isTrail, UInt8.le_iff_toNat_le, UInt8.lt_iff_toNat_lt, UInt8.reduceToNat]
    rw [if_neg (by omega), if_neg (by omega), if_pos (by omega), if_pos (by simp; omega)]
  | @three a b c h hb h1 h2 hc =>
    refine ⟨(a.toNat - 0xE0) * 4096 + (b.toNat - 0x80) * 64 + (c.toNat - 0x80), ?_⟩
    simp only [cont, Bool.and_eq_true, decide_eq_true_eq, UInt8.le_iff_toNat_le, ← UInt8.toNat_inj, UInt8.reduceToNat] at h hb h1 h2 hc
    simp only [List.cons_append, List.nil_append, readChar, isTrail, UInt8.le_iff_toNat_le, UInt8.lt_iff_toNat_lt, UInt8.reduceToNat]
    rw [if_neg (by omega), if_neg (by omega), if_neg (by omega), if_pos (by omega), if_pos]
    simp only [Bool.and_eq_true, Bool.not_eq_true', Bool.and_eq_false_iff, beq_eq_false_iff_ne, ne_eq, decide_eq_true_eq, decide_eq_false_iff_not,
      ← UInt8.toNat_inj, UInt8.reduceToNat, UInt8.le_iff_toNat_le, ge_iff_le]
    omega
  | @four a b c d h hb h1 h2 hc hd =>
    refine ⟨(a.toNat - 0xF0) * 262144 + (b.toNat - 0x80) * 4096 + (c.toNat - 0x80) * 64 + (d.toNat - 0x80), ?_⟩
    simp only [cont, Bool.and_eq_true, decide_eq_true_eq, UInt8.le_iff_toNat_le, ← UInt8.toNat_inj, UInt8.reduceToNat] at h hb h1 h2 hc hd
    simp only [List.cons_append, List.nil_append, readChar, isTrail, UInt8.le_iff_toNat_le, UInt8.lt_iff_toNat_lt, UInt8.reduceToNat]
    rw [if_neg (by omega), if_neg (by omega), if_neg (by omega), if_neg (by omega), if_pos (by omega), if_pos]
    simp only [Bool.and_eq_true, Bool.not_eq_true', Bool.and_eq_false_iff, beq_eq_false_iff_ne, ne_eq, decide_eq_true_eq, decide_eq_false_iff_not,
      ← UInt8.toNat_inj, UInt8.reduceToNat, UInt8.le_iff_toNat_le, ge_iff_le]
    omega

private theorem toNat8 {n : Nat} (h : n < 256) : (UInt8.ofNat n).toNat = n := by simp; omega

/-- The encoding of a character is in the table. -/
private theorem enc_ch {n : Nat} (h : IsChar n) : Ch (utf8Enc n) := by
  unfold IsChar at h
  unfold utf8Enc
  split
  · exact .one (by rw [UInt8.le_iff_toNat_le, toNat8 (by omega)]; simp; omega)
  split
  · refine .two ?_ ?_ <;>
      simp only [cont, Bool.and_eq_true, decide_eq_true_eq, UInt8.le_iff_toNat_le, UInt8.reduceToNat] <;>
      (repeat rw [toNat8 (by omega)]) <;> omega
  split
  · refine .three ?_ ?_ ?_ ?_ ?_ <;>
      simp only [cont, Bool.and_eq_true, decide_eq_true_eq, UInt8.le_iff_toNat_le, ← UInt8.toNat_inj, UInt8.reduceToNat] <;>
      (repeat rw [toNat8 (by omega)]) <;> omega
  · refine .four ?_ ?_ ?_ ?_ ?_ ?_ <;>
      simp only [cont, Bool.and_eq_true, decide_eq_true_eq, UInt8.le_iff_toNat_le, ← UInt8.toNat_inj, UInt8.reduceToNat] <;>
      (repeat rw [toNat8 (by omega)]) <;> omega

private theorem wideGo_sound (f : Nat) : ∀ (s : Str) (w : WStr), wideGo f s = some w → SameText w s ∧ utf8 s = true := by
  induction f with
  | zero =>
    intro s w h
    cases s with
    | nil => simp only [wideGo, Option.some.injEq] at h; subst h; exact ⟨⟨nofun, rfl⟩, by rw [utf8]⟩
    | cons c s => simp [wideGo] at h
  | succ f ih =>
    intro s w h
    cases s with
    | nil => simp only [wideGo, Option.some.injEq] at h; subst h; exact ⟨⟨nofun, rfl⟩, by rw [utf8]⟩
    | cons c s =>
      rw [wideGo] at h
      split at h
      · cases h
      · rename_i n r hr
        obtain ⟨h1, h2, -⟩ := readChar_sound hr
        cases hw : wideGo f r with
        | none => rw [hw] at h; cases h
        | some v =>
          rw [hw] at h
          simp only [Option.map_some, Option.some.injEq] at h
          subst h
          obtain ⟨⟨h3, h4⟩, h5⟩ := ih r v hw
          have hn : (UInt32.ofNat n).toNat = n := by
            unfold IsChar at h1; simp; omega
          refine ⟨⟨?_, ?_⟩, ?_⟩
          · intro d hd
            rcases List.mem_cons.1 hd with rfl | hd
            · rw [hn]; exact h1
            · exact h3 d hd
          · rw [List.flatMap_cons, h4, hn, h2]
          · rw [h2, utf8_app (enc_ch h1)]; exact h5
      · exact fun h => by cases h

private theorem wideGo_total (f : Nat) : ∀ (s : Str), utf8 s = true → s.length ≤ f → ∃ w, wideGo f s = some w := by
  induction f with
  | zero =>
    intro s _ h
    rw [List.length_eq_zero_iff.mp (by omega : s.length = 0)]; exact ⟨[], rfl⟩
  | succ f ih =>
    intro s hu hl
    cases s with
    | nil => exact ⟨[], rfl⟩
    | cons c s =>
      obtain ⟨ch, r, he, hc⟩ := utf8_first hu (by simp)
      obtain ⟨n, hr⟩ := readChar_ch hc r
      rw [← he] at hr
      have hlen := (readChar_sound hr).2.2
      have hur : utf8 r = true := by rw [he, utf8_app hc] at hu; exact hu
      obtain ⟨w, hw⟩ := ih r hur (by simp at hl hlen ⊢; omega)
      refine ⟨UInt32.ofNat n :: w, ?_⟩
      rw [wideGo, hr]
      · simp only [hw]; rfl
      · exact fun h => by cases h

private theorem wideOf_iff (s : Str) : (∃ w, wideOf s = some w) ↔ utf8 s = true :=
  ⟨fun ⟨w, h⟩ => (wideGo_sound _ s w h).2, fun h => wideGo_total _ s h (Nat.le_refl _)⟩

private theorem wideOf_same {s : Str} {w : WStr} (h : wideOf s = some w) : SameText w s := (wideGo_sound _ s w h).1

private theorem flat_widen (s : Str) (h : ∀ c ∈ s, c < 128) : SameText (widen s) s := by
  induction s with
  | nil => exact ⟨nofun, rfl⟩
  | cons c s ih =>
    obtain ⟨h1, h2⟩ := ih (fun d hd => h d (List.mem_cons_of_mem _ hd))
    have hc := h c (List.mem_cons_self ..)
    rw [UInt8.lt_iff_toNat_lt] at hc
    simp only [UInt8.reduceToNat] at hc
    have hn : (UInt32.ofNat c.toNat).toNat = c.toNat := by simp
    refine ⟨?_, ?_⟩
    · intro d hd
      simp only [widen, List.map_cons, List.mem_cons] at hd
      rcases hd with rfl | hd
      · rw [hn]; exact Or.inl (by omega)
      · exact h1 d hd
    · simp only [widen, List.map_cons, List.flatMap_cons, hn]
      rw [show utf8Enc c.toNat = [c] by rw [utf8Enc, if_pos (by omega)]; simp]
      have h2' : (List.map (fun b => UInt32.ofNat b.toNat) s).flatMap (fun c => utf8Enc c.toNat) = s := h2
      rw [h2']; rfl

private theorem same_app {w v : WStr} {s t : Str} (h1 : SameText w s) (h2 : SameText v t) : SameText (w ++ v) (s ++ t) :=
  ⟨fun c hc => (List.mem_append.1 hc).elim (h1.1 c) (h2.1 c), by rw [List.flatMap_append, h1.2, h2.2]⟩

private theorem ascii_chars (f : Nat) : ∀ n, ∀ c ∈ natChars f n, c < 128 := by
  induction f with
  | zero => intro n c hc; simp [natChars] at hc
  | succ f ih =>
    intro n c hc
    rw [natChars] at hc
    split at hc
    · rw [List.mem_singleton] at hc; subst hc
      rw [UInt8.lt_iff_toNat_lt, toNat8 (by omega)]; simp; omega
    · rcases List.mem_append.1 hc with hc | hc
      · exact ih _ c hc
      · rw [List.mem_singleton] at hc; subst hc
        rw [UInt8.lt_iff_toNat_lt, toNat8 (by omega)]; simp; omega

private theorem num_same (t : Int) : SameText (numToWStr t) (numToStr t) := by
  unfold numToWStr numToStr
  simp only
  split
  · exact ⟨nofun, rfl⟩
  · rename_i h
    refine flat_widen _ (fun c hc => ?_)
    rcases List.mem_append.1 hc with hc | hc
    · unfold toChars at hc
      split at hc
      · rcases List.mem_cons.1 hc with rfl | hc
        · decide
        · exact ascii_chars _ _ c hc
      · exact ascii_chars _ _ c hc
    · rw [(List.mem_replicate.1 hc).2]; decide

private theorem lit_effect (e : EffectType) : SameText (effectNameOfInt widen e.toNat) (effectNameOfInt id e.toNat) := by
  cases e <;> exact flat_widen _ (by decide)

private theorem lit_path (e : PathType) : SameText (pathNameOfInt widen e.toNat) (pathNameOfInt id e.toNat) := by
  cases e <;> exact flat_widen _ (by decide)

private theorem lit_same (s : Str) (h : s.all (· < 128) = true) : SameText (widen s) (id s) :=
  flat_widen s (fun c hc => by simpa using List.all_eq_true.1 h c hc)

/-- The text with the names as they are given. -/
private theorem eventText_same (pth : Str → WStr) (ev : Event) (h : SameText (pth ev.path) ev.path)
    (ha : ∀ a, ev.assoc = some a → SameText (pth a.path) a.path) : SameText (eventWStr pth ev) (eventStr ev) := by
  unfold eventWStr eventStr eventText
  have q : ∀ {w : WStr} {s : Str}, SameText w s → SameText (widen b!"\"" ++ w ++ widen b!"\"") (id b!"\"" ++ s ++ id b!"\"") :=
    fun h => same_app (same_app (lit_same _ (by decide)) h) (lit_same _ (by decide))
  refine same_app ?_ (lit_same _ (by decide))
  refine same_app ?_ ?_
  · refine same_app (same_app (same_app (same_app (same_app (same_app (same_app (same_app (same_app ?_ ?_) ?_) ?_) ?_) ?_) ?_) ?_) ?_) ?_
    · exact q (num_same _)
    · exact lit_same _ (by decide)
    · exact lit_same _ (by decide)
    · exact q (lit_effect _)
    · exact lit_same _ (by decide)
    · exact lit_same _ (by decide)
    · exact q h
    · exact lit_same _ (by decide)
    · exact lit_same _ (by decide)
    · exact q (lit_path _)
  · cases hh : ev.assoc with
    | none => exact ⟨nofun, rfl⟩
    | some a =>
      simp only
      refine same_app (same_app (same_app (same_app (same_app (same_app (same_app (same_app (same_app (same_app ?_ ?_) ?_) ?_) ?_) ?_) ?_) ?_) ?_) ?_) ?_
      · exact lit_same _ (by decide)
      · exact lit_same _ (by decide)
      · exact lit_same _ (by decide)
      · exact q (lit_effect _)
      · exact lit_same _ (by decide)
      · exact lit_same _ (by decide)
      · exact q (ha a hh)
      · exact lit_same _ (by decide)
      · exact lit_same _ (by decide)
      · exact q (lit_path _)
      · exact lit_same _ (by decide)

/-- C135 as one would like it: every event has a wide text, and it is the narrow text. -/
def C135_full : Prop := ∀ ev : Event, ∃ w, eventWide ev = some w ∧ SameText w (eventStr ev)

/-- C135: exactly the events whose names are UTF-8 have a wide text; asking for that of any other ends the program. -/
theorem C135_exact_partial (ev : Event) : (∃ w, eventWide ev = some w) ↔ NamesAreText ev := by
  unfold eventWide NamesAreText
  cases hh : ev.assoc with
  | none =>
    simp only [Option.all_none, Bool.and_true, Option.isSome_iff_exists, wideOf_iff]
    split
    · rename_i h; exact ⟨fun _ => ⟨h, nofun⟩, fun _ => ⟨_, rfl⟩⟩
    · rename_i h; exact ⟨fun ⟨w, hw⟩ => (by cases hw), fun h' => absurd h'.1 h⟩
  | some a =>
    simp only [Option.all_some, Bool.and_eq_true, Option.isSome_iff_exists, wideOf_iff]
    split
    · rename_i h; exact ⟨fun _ => ⟨h.1, fun b hb => by cases hb; exact h.2⟩, fun _ => ⟨_, rfl⟩⟩
    · rename_i h; exact ⟨fun ⟨w, hw⟩ => (by cases hw), fun h' => absurd ⟨h'.1, h'.2 a rfl⟩ h⟩

/-- C135 (partial: it says nothing of names that are not UTF-8): a wide text, where there is one, is the narrow text, character
by character. -/
theorem C135_same_text_partial (ev : Event) (w : List UInt32) (h : eventWide ev = some w) : SameText w (eventStr ev) := by
  unfold eventWide at h
  by_cases hc : ((wideOf ev.path).isSome && ev.assoc.all (fun a => (wideOf a.path).isSome)) = true
  · rw [if_pos hc] at h
    simp only [Option.some.injEq] at h
    subst h
    rw [Bool.and_eq_true] at hc
    have get : ∀ s : Str, (wideOf s).isSome = true → SameText ((wideOf s).getD []) s := by
      intro s hs
      obtain ⟨w, hw⟩ := Option.isSome_iff_exists.1 hs
      rw [hw]; exact wideOf_same hw
    refine eventText_same _ ev (get _ hc.1) (fun a ha => ?_)
    have h2 := hc.2
    rw [ha, Option.all_some] at h2
    exact get _ h2
  · rw [if_neg hc] at h; cases h

/-- A name that is not UTF-8 (Latin-1 "é"). -/
private def latin : Event := .mk [47, 0xE9] .create .file 1704067200000000000 none
/-- Two names with characters of two, three and four bytes. -/
private def wideEv : Event :=
  .mk b!"/a/é" .rename .file 1704067200000000000 (some (.mk b!"/a/€😀" .rename .file 1704067200000000001 none))

/-- C135 fails: a file whose name is not UTF-8 ends a program that writes its event to a wide stream. -/
theorem C135_refuted : ¬ C135_full := by
  intro h
  obtain ⟨w, hw, -⟩ := h latin
  have : eventWide latin = none := by decide +kernel
  rw [this] at hw; cases hw

example : NamesAreText wideEv := ⟨by decide +kernel, fun a ha => by cases ha; decide +kernel⟩
example : (eventWide wideEv).isSome = true ∧ wideOf b!"/é€😀" = some [47, 0xE9, 0x20AC, 0x1F600] := by decide +kernel

end Verif.Props
