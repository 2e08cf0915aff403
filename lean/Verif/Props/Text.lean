import Verif.Lemmas.Text
/-!
# Properties of the text of events (C02, C03, C04, C05)
-/

namespace Verif.Props
open Verif Verif.Model Verif.Spec Verif.Lemmas

/-! ## C02 -/

/-- C02, the full claim: the text of every 64-bit time is its decimal numeral. -/
def C02_full : Prop := ∀ n : Int, Is64 n → Decimal (numToStr n) n

/-- C02 is false of the code: the text of `5` is `5` followed by eighteen NUL bytes. -/
theorem C02_refuted : ¬ C02_full := by
  intro h
  have := decimal_no_nul (h 5 (by unfold Is64; omega))
  revert this; decide

/-- C02 (partial: exactly which times are printed right). The text is the decimal numeral exactly when
that numeral has nineteen characters. -/
theorem C02_text_is_decimal_iff_partial (n : Int) (h : Is64 n) :
    Decimal (numToStr n) n ↔ NineteenChars n := by
  constructor
  · intro hd
    have hl := toChars_length n h
    have hnul := decimal_no_nul hd
    have hne := decimal_ne_nil hd
    refine Classical.byContradiction fun hn => ?_
    unfold NineteenChars at hn
    unfold Is64 at h
    by_cases h20 : (toChars n).length > numBufLen
    · exact hne (by simp [numToStr, h20])
    · have h19 : (toChars n).length ≤ 19 := by unfold numBufLen at h20; omega
      have h18 : (toChars n).length ≤ 18 := hl.2.2 (by have := hl.1.1 h19; omega)
      apply hnul
      simp only [numToStr, h20, if_false]
      rw [List.mem_append]; right
      rw [List.mem_replicate]
      exact ⟨by unfold numBufLen; omega, rfl⟩
  · intro hn
    obtain ⟨h64, _, he⟩ := numToStr_nineteen hn
    rw [he]; exact toChars_decimal n h64

/-- C02 (partial): what the text is for every 64-bit value. Values down to `-10^18 + 1` give their
numeral padded with NUL bytes to nineteen characters; smaller ones give the empty text. -/
theorem C02_text_exact_partial (n : Int) (h : Is64 n) :
    (-1000000000000000000 < n → ∃ d, Decimal d n ∧ d.length ≤ 19 ∧
        numToStr n = d ++ List.replicate (19 - d.length) 0) ∧
    (n ≤ -1000000000000000000 → numToStr n = []) := by
  have hl := toChars_length n h
  constructor
  · intro hn
    have h19 := hl.1.2 hn
    refine ⟨toChars n, toChars_decimal n h, h19, ?_⟩
    have : ¬ (toChars n).length > numBufLen := by unfold numBufLen; omega
    simp only [numToStr, this, if_false]; rfl
  · intro hn
    have : (toChars n).length > numBufLen := by
      unfold numBufLen
      refine Classical.byContradiction fun hc => ?_
      have := hl.1.1 (by omega); omega
    simp only [numToStr, this, if_true]

-- a nanosecond clock reading of 2024 is printed right; small values are not
example : NineteenChars 1704067200000000000 := by unfold NineteenChars; omega
example : numToStr 1704067200000000000 = b!"1704067200000000000" := by decide
example : numToStr (-1) ≠ b!"-1" := by decide

/-! ## C03 -/

/-- The streamed text put between braces. -/
def inBraces (s : Str) : Str := b!"{" ++ s ++ b!"}"

/-- C03, first half of the full claim: the text decodes to the event's fields. -/
def C03_full : Prop := ∀ ev : Event, AllEvents (fun _ => True) Is64 ev →
  ∃ d, Decimal d ev.time ∧ Json.parse (inBraces (eventStr ev)) = some (.obj [(d, streamBody ev)])

/-- C03, second half: different events have different texts (up to what the text is meant to show:
the first level of association and no time for the associated event). -/
def C03_injective_full : Prop := ∀ a b : Event, eventStr a = eventStr b →
  a.time = b.time ∧ streamBody a = streamBody b

private theorem field_tail (fuel : Nat) (e : EffectType) (p : Str) (t : PathType) (rest : Str)
    (hp : PlainText p) :
    Json.members (fuel + 5) (34 :: (b!"effect_type" ++ 34 :: 58 :: 34 :: (effectName e ++ 34 :: 44 ::
      34 :: (b!"path_name" ++ 34 :: 58 :: 34 :: (p ++ 34 :: 44 ::
      34 :: (b!"path_type" ++ 34 :: 58 :: 34 :: (pathTypeName t ++ 34 :: 125 :: rest)))))))
    = some ([(b!"effect_type", .str (effectName e)), (b!"path_name", .str p),
       (b!"path_type", .str (pathTypeName t))], rest) := by
  refine members_more (fuel + 4) b!"effect_type" (by decide) _ _ _ _ _
    (value_str (fuel + 3) (effectName e) _ (effectName_plain e)) ?_
  refine members_more (fuel + 3) b!"path_name" (by decide) _ _ _ _ _
    (value_str (fuel + 2) p _ hp) ?_
  exact members_last (fuel + 2) b!"path_type" (by decide) _ _ _
    (value_str (fuel + 1) (pathTypeName t) _ (pathTypeName_plain t))

/-- C03 (partial: names without `"`, `\` and control characters, times of nineteen characters, as all
present-day nanosecond clock readings are). -/
theorem C03_stream_decodes_partial (ev : Event) (hp : PlainText ev.path)
    (ha : ∀ a, ev.assoc = some a → PlainText a.path) (ht : NineteenChars ev.time) :
    ∃ d, Decimal d ev.time ∧
      Json.parse (inBraces (eventStr ev)) = some (.obj [(d, streamBody ev)]) := by
  obtain ⟨h64, hlen, hnum⟩ := numToStr_nineteen ht
  have hd := toChars_decimal _ h64
  refine ⟨toChars ev.time, hd, ?_⟩
  have hfuel : ∃ f, (inBraces (eventStr ev)).length + 1 = f + 14 := by
    refine ⟨(inBraces (eventStr ev)).length - 13, ?_⟩
    have : 19 ≤ (inBraces (eventStr ev)).length := by
      simp only [inBraces, eventStr, eventText, hnum, List.length_append, hlen]; omega
    omega
  obtain ⟨f, hf⟩ := hfuel
  unfold Json.parse
  rw [hf]
  cases hassoc : ev.assoc with
  | none =>
    have htext : inBraces (eventStr ev) = 123 :: 34 :: (toChars ev.time ++ 34 :: 58 :: 123 ::
      34 :: (b!"effect_type" ++ 34 :: 58 :: 34 :: (effectName ev.effect ++ 34 :: 44 ::
      34 :: (b!"path_name" ++ 34 :: 58 :: 34 :: (ev.path ++ 34 :: 44 ::
      34 :: (b!"path_type" ++ 34 :: 58 :: 34 :: (pathTypeName ev.ptype ++ 34 :: 125 :: [125]))))))) := by
      simp [inBraces, eventStr, eventText, hnum, hassoc, effect_code, ptype_code]
    rw [htext, value_obj (f + 13) _ [] [(toChars ev.time, streamBody ev)]]
    refine members_last (f + 12) _ (decimal_plain hd) _ _ _ ?_
    refine (value_obj (f + 11) _ [125] _ (field_tail (f + 6) _ _ _ _ hp)).trans ?_
    simp [streamBody, hassoc, fields]
  | some a =>
    have htext : inBraces (eventStr ev) = 123 :: 34 :: (toChars ev.time ++ 34 :: 58 :: 123 ::
      34 :: (b!"effect_type" ++ 34 :: 58 :: 34 :: (effectName ev.effect ++ 34 :: 44 ::
      34 :: (b!"path_name" ++ 34 :: 58 :: 34 :: (ev.path ++ 34 :: 44 ::
      34 :: (b!"path_type" ++ 34 :: 58 :: 34 :: (pathTypeName ev.ptype ++ 34 :: 44 ::
      34 :: (b!"associated" ++ 34 :: 58 :: 123 ::
      34 :: (b!"effect_type" ++ 34 :: 58 :: 34 :: (effectName a.effect ++ 34 :: 44 ::
      34 :: (b!"path_name" ++ 34 :: 58 :: 34 :: (a.path ++ 34 :: 44 ::
      34 :: (b!"path_type" ++ 34 :: 58 :: 34 :: (pathTypeName a.ptype ++ 34 :: 125 :: [125, 125]
      )))))))))))))) := by
      simp [inBraces, eventStr, eventText, hnum, hassoc, effect_code, ptype_code]
    rw [htext, value_obj (f + 13) _ [] [(toChars ev.time, streamBody ev)]]
    refine members_last (f + 12) _ (decimal_plain hd) _ _ _ ?_
    refine (value_obj (f + 11) _ [125] (fields ev ++ [(b!"associated", .obj (fields a))]) ?_).trans ?_
    · refine members_more (f + 10) b!"effect_type" (by decide) _ _ _ _ _
        (value_str (f + 9) (effectName ev.effect) _ (effectName_plain _)) ?_
      refine members_more (f + 9) b!"path_name" (by decide) _ _ _ _ _
        (value_str (f + 8) ev.path _ hp) ?_
      refine members_more (f + 8) b!"path_type" (by decide) _ _ _ _ _
        (value_str (f + 7) (pathTypeName ev.ptype) _ (pathTypeName_plain _)) ?_
      refine members_last (f + 7) b!"associated" (by decide) _ _ _ ?_
      exact value_obj (f + 6) _ [125, 125] _ (field_tail (f + 1) _ _ _ _ (ha a hassoc))
    · simp [streamBody, hassoc]

example : PlainText b!"/home/me/notes 1.txt" ∧ NineteenChars 1704067200000000000 :=
  ⟨by decide, by unfold NineteenChars; omega⟩

/-- C03 (partial): on such events, equal texts mean equal times and equal shown fields. -/
theorem C03_injective_partial (a b : Event)
    (hpa : PlainText a.path) (haa : ∀ x, a.assoc = some x → PlainText x.path)
    (hpb : PlainText b.path) (hab : ∀ x, b.assoc = some x → PlainText x.path)
    (hta : NineteenChars a.time) (htb : NineteenChars b.time)
    (h : eventStr a = eventStr b) : a.time = b.time ∧ streamBody a = streamBody b := by
  obtain ⟨da, hda, pa⟩ := C03_stream_decodes_partial a hpa haa hta
  obtain ⟨db, hdb, pb⟩ := C03_stream_decodes_partial b hpb hab htb
  rw [h, pb] at pa
  simp only [Option.some.injEq, Json.obj.injEq, List.cons.injEq, Prod.mk.injEq, and_true] at pa
  obtain ⟨h1, h2⟩ := pa
  subst h1
  exact ⟨decimal_unique hda hdb, h2.symm⟩

/-- C03 is false of the code: a `"` in a file name breaks the text. -/
theorem C03_refuted_by_quote :
    Json.parse (inBraces (eventStr (.mk b!"/a\"b" .create .file 1704067200000000000 none))) = none ∧
    ¬ C03_full := by
  have hp : Json.parse (inBraces (eventStr (.mk b!"/a\"b" .create .file 1704067200000000000 none)))
      = none := by decide +kernel
  refine ⟨hp, fun h => ?_⟩
  obtain ⟨d, _, h2⟩ := h (.mk b!"/a\"b" .create .file 1704067200000000000 none)
    (by simp [AllEvents, Is64])
  rw [hp] at h2; exact absurd h2 (by simp)

/-- C03 is false of the code for small times too: the NUL padding is not allowed in JSON. -/
theorem C03_refuted_by_time :
    Json.parse (inBraces (eventStr (.mk b!"/a" .create .file 7 none))) = none := by decide +kernel

/-- The text between the old and the new path of a renamed file. -/
private def seam : Str := b!"\",\"path_type\":\"file\",\"associated\":{\"effect_type\":\"rename\",\"path_name\":\""

private def collideA : Event := .mk (b!"/a" ++ seam ++ b!"b") .rename .file 1704067200000000000
    (some (.mk b!"/c" .rename .file 1704067200000000000 none))
private def collideB : Event := .mk b!"/a" .rename .file 1704067200000000000
    (some (.mk (b!"b" ++ seam ++ b!"/c") .rename .file 1704067200000000000 none))

/-- C03: two different rename events (their old paths differ) can have the same text. -/
theorem C03_injective_refuted : ¬ C03_injective_full ∧
    ∃ a b : Event, eventStr a = eventStr b ∧ a.path ≠ b.path := by
  have he : eventStr collideA = eventStr collideB := by decide +kernel
  have hn : collideA.path ≠ collideB.path := by decide +kernel
  refine ⟨fun h => ?_, collideA, collideB, he, hn⟩
  have h2 := (h _ _ he).2
  have : collideA.path = collideB.path := by
    simp only [streamBody, fields, List.cons_append, List.nil_append, Json.obj.injEq,
      List.cons.injEq, Prod.mk.injEq, Json.str.injEq, true_and] at h2
    exact h2.2.1
  exact hn this

/-! ## C04 -/

/-- C04, the full claim. -/
def C04_full : Prop := ∀ ev : Event, AllEvents (fun _ => True) Is64 ev →
  Json.parse (cliJson ev) = some (cliDoc ev)

private theorem cli_value : ∀ (ev : Event), AllEvents PlainText NineteenChars ev → ∀ (fuel : Nat)
    (rest : Str), (cliJson ev).length ≤ fuel →
    Json.value (fuel + 1) (cliJson ev ++ rest) = some (cliDoc ev, rest) := by
  intro ev
  induction ev using eventInduction with
  | leaf p e t tm =>
    intro h fuel rest hlen
    obtain ⟨hp, ht⟩ := h
    obtain ⟨h64, hl, hnum⟩ := numToStr_nineteen ht
    have hd := toChars_decimal _ h64
    have htext : ∀ rest, cliJson (.mk p e t tm none) ++ rest = 123 :: 34 :: (b!"path_type" ++ 34 :: 58 ::
      34 :: (pathTypeName t ++ 34 :: 44 :: 34 :: (b!"path_name" ++ 34 :: 58 :: 34 :: (p ++ 34 :: 44 ::
      34 :: (b!"effect_type" ++ 34 :: 58 :: 34 :: (effectName e ++ 34 :: 44 ::
      34 :: (b!"effect_time" ++ 34 :: 58 :: (toChars tm ++ 44 ::
      34 :: (b!"associated" ++ 34 :: 58 :: (b!"null" ++ 125 :: rest)))))))))) := by
      intro rest; simp [cliJson, hnum, effect_str, ptype_str]
    obtain ⟨f, rfl⟩ : ∃ f, fuel = f + 8 := by
      refine ⟨fuel - 8, ?_⟩
      have : 19 ≤ (cliJson (.mk p e t tm none)).length := by
        simp only [cliJson, hnum, List.length_append, hl]; omega
      omega
    rw [htext]
    refine (value_obj (f + 8) _ rest _ ?_).trans (by rw [cliDoc])
    refine members_more (f + 7) b!"path_type" (by decide) _ _ _ _ _
      (value_str (f + 6) _ _ (pathTypeName_plain _)) ?_
    refine members_more (f + 6) b!"path_name" (by decide) _ _ _ _ _ (value_str (f + 5) p _ hp) ?_
    refine members_more (f + 5) b!"effect_type" (by decide) _ _ _ _ _
      (value_str (f + 4) _ _ (effectName_plain _)) ?_
    refine members_more (f + 4) b!"effect_time" (by decide) _ _ _ _ _
      (value_num (f + 3) _ tm _ hd (by intro c hc; simp at hc; subst hc; decide)) ?_
    exact members_last (f + 3) b!"associated" (by decide) _ _ _ rfl
  | node p e t tm a ih =>
    intro h fuel rest hlen
    obtain ⟨hp, ht, ha⟩ := h
    obtain ⟨h64, hl, hnum⟩ := numToStr_nineteen ht
    have hd := toChars_decimal _ h64
    have htext : ∀ rest, cliJson (.mk p e t tm (some a)) ++ rest = 123 :: 34 :: (b!"path_type" ++ 34 :: 58 ::
      34 :: (pathTypeName t ++ 34 :: 44 :: 34 :: (b!"path_name" ++ 34 :: 58 :: 34 :: (p ++ 34 :: 44 ::
      34 :: (b!"effect_type" ++ 34 :: 58 :: 34 :: (effectName e ++ 34 :: 44 ::
      34 :: (b!"effect_time" ++ 34 :: 58 :: (toChars tm ++ 44 ::
      34 :: (b!"associated" ++ 34 :: 58 :: (cliJson a ++ 125 :: rest)))))))))) := by
      intro rest; simp [cliJson, hnum, effect_str, ptype_str]
    have hlong : (cliJson a).length + 19 ≤ (cliJson (.mk p e t tm (some a))).length := by
      simp only [cliJson, hnum, List.length_append, hl]; omega
    obtain ⟨f, rfl⟩ : ∃ f, fuel = f + 8 := ⟨fuel - 8, by omega⟩
    rw [htext]
    refine (value_obj (f + 8) _ rest _ ?_).trans (by rw [cliDoc])
    refine members_more (f + 7) b!"path_type" (by decide) _ _ _ _ _
      (value_str (f + 6) _ _ (pathTypeName_plain _)) ?_
    refine members_more (f + 6) b!"path_name" (by decide) _ _ _ _ _ (value_str (f + 5) p _ hp) ?_
    refine members_more (f + 5) b!"effect_type" (by decide) _ _ _ _ _
      (value_str (f + 4) _ _ (effectName_plain _)) ?_
    refine members_more (f + 4) b!"effect_time" (by decide) _ _ _ _ _
      (value_num (f + 3) _ tm _ hd (by intro c hc; simp at hc; subst hc; decide)) ?_
    exact members_last (f + 3) b!"associated" (by decide) _ _ _ (ih ha (f + 2) _ (by omega))

/-- C04 (partial: every name in the chain free of `"`, `\` and control characters, every time of
nineteen characters): the printed line is one JSON document for the whole chain, at any depth. -/
theorem C04_line_decodes_partial (ev : Event) (h : AllEvents PlainText NineteenChars ev) :
    Json.parse (cliJson ev) = some (cliDoc ev) := by
  have := cli_value ev h (cliJson ev).length [] (Nat.le_refl _)
  rw [List.append_nil] at this
  simp [Json.parse, this]

example : AllEvents PlainText NineteenChars (.mk b!"/old" .rename .file 1704067200000000000
    (some (.mk b!"/new" .rename .file 1704067200000000001 none))) := by
  simp only [AllEvents]
  exact ⟨by decide, by unfold NineteenChars; omega, by decide, by unfold NineteenChars; omega⟩

/-- C04 is false of the code: a newline in a name, or a time that is not nineteen characters long. -/
theorem C04_refuted : ¬ C04_full ∧
    Json.parse (cliJson (.mk b!"/a\nb" .create .file 1704067200000000000 none)) = none ∧
    Json.parse (cliJson (.mk b!"/a" .create .file 7 none)) = none := by
  have h1 : Json.parse (cliJson (.mk b!"/a\nb" .create .file 1704067200000000000 none)) = none := by
    decide +kernel
  have h2 : Json.parse (cliJson (.mk b!"/a" .create .file 7 none)) = none := by decide +kernel
  refine ⟨fun h => ?_, h1, h2⟩
  have := h (.mk b!"/a" .create .file 7 none) (by simp [AllEvents, Is64])
  rw [h2] at this; exact absurd this (by simp)

/-! ## C05 -/

/-- C05: every enumerator has its documented name, in narrow and in wide text. -/
theorem C05_documented_names :
    (∀ e : EffectType, e.str = effectName e ∧ e.wstr = widen (effectName e)) ∧
    (∀ p : PathType, p.str = pathTypeName p ∧ p.wstr = widen (pathTypeName p)) := by
  constructor
  · intro e; cases e <;> exact ⟨rfl, rfl⟩
  · intro p; cases p <;> exact ⟨rfl, rfl⟩

/-- C05: two different values never share a name. -/
theorem C05_names_injective :
    (∀ e e' : EffectType, e.str = e'.str → e = e') ∧ (∀ p p' : PathType, p.str = p'.str → p = p') ∧
    (∀ e e' : EffectType, e.wstr = e'.wstr → e = e') ∧ (∀ p p' : PathType, p.wstr = p'.wstr → p = p') := by
  refine ⟨?_, ?_, ?_, ?_⟩ <;> (intro a b; cases a <;> cases b <;> decide)

/-- C05: an integer that is no enumerator is called `other`, narrow and wide. -/
theorem C05_other_for_unknown (code : Int) (h : code < 0 ∨ 5 < code) :
    effectNameOfInt id code = b!"other" ∧ pathNameOfInt id code = b!"other" ∧
    effectNameOfInt widen code = widen b!"other" ∧ pathNameOfInt widen code = widen b!"other" := by
  have h0 : code ≠ 0 := by omega
  have h1 : code ≠ 1 := by omega
  have h2 : code ≠ 2 := by omega
  have h3 : code ≠ 3 := by omega
  have h4 : code ≠ 4 := by omega
  simp [effectNameOfInt, pathNameOfInt, h0, h1, h2, h3, h4]

example : (6 : Int) < 0 ∨ 5 < (6 : Int) := by omega

/-- C05: the wide text of an event is its narrow text, widened character by character, whenever the
library widens its paths that way (ASCII paths). -/
theorem C05_wide_event_is_narrow (wide : Str → WStr) (ev : Event)
    (hp : wide ev.path = widen ev.path)
    (ha : ∀ a, ev.assoc = some a → wide a.path = widen a.path) :
    eventWStr wide ev = widen (eventStr ev) := by
  have hw : ∀ a b : Str, widen (a ++ b) = widen a ++ widen b := by intro a b; simp [widen]
  have he : ∀ c : Int, effectNameOfInt widen c = widen (effectNameOfInt id c) := by
    intro c; simp only [effectNameOfInt, id]; repeat' split
    all_goals rfl
  have hpn : ∀ c : Int, pathNameOfInt widen c = widen (pathNameOfInt id c) := by
    intro c; simp only [pathNameOfInt, id]; repeat' split
    all_goals rfl
  have hn : numToWStr ev.time = widen (numToStr ev.time) := by
    simp only [numToWStr, numToStr]; split <;> rfl
  cases hassoc : ev.assoc with
  | none =>
    simp only [eventWStr, eventStr, eventText, hassoc, hn, he, hpn, hp, hw, id, List.append_nil]
  | some a =>
    simp only [eventWStr, eventStr, eventText, hassoc, hn, he, hpn, hp, ha a hassoc, hw, id]

example : eventWStr widen (.mk b!"/a" .create .file 1704067200000000000 none)
    = widen (eventStr (.mk b!"/a" .create .file 1704067200000000000 none)) :=
  C05_wide_event_is_narrow widen _ rfl (by intro a h; cases h)

end Verif.Props
