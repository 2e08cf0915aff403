import Verif.Lemmas.Text2
import Verif.Props.Text
import Verif.Props.Bindings
/-!
# Exactly when the text of an event is read back as the event: C122, C123
-/

namespace Verif.Props
open Verif Verif.Model Verif.Spec Verif.Lemmas Verif.Model.Bind Verif.Spec.Bind

/-! ## C122 -/

private theorem not_digit (c : UInt8) (rest : Str) (h : Json.isDigit c = false) : ∀ d, (c :: rest).head? = some d → Json.isDigit d = false := by
  intro d hd; simp at hd; subst hd; exact h

/-- The time of a printed event is read back only if its numeral has nineteen characters. -/
private theorem time_inv {m : Nat} {tm n : Int} {rest r : Str} (h64 : Is64 tm) (h : Json.value m (numToStr tm ++ 44 :: rest) = some (.num n, 44 :: r)) :
    NineteenChars tm ∧ r = rest := by
  obtain ⟨h1, h2⟩ := C02_text_exact_partial tm h64
  cases m with
  | zero => simp [Json.value] at h
  | succ m =>
    by_cases hn : -1000000000000000000 < tm
    · obtain ⟨d, hd, hl, he⟩ := h1 hn
      by_cases h19 : d.length = 19
      · have hdec : Decimal (numToStr tm) tm := by rw [he, h19]; simpa using hd
        refine ⟨(C02_text_is_decimal_iff_partial tm h64).1 hdec, ?_⟩
        rw [value_num m _ tm _ hdec (not_digit _ _ (by decide))] at h
        simp at h; exact h.2.symm
      · exfalso
        obtain ⟨k, hk⟩ : ∃ k, 19 - d.length = k + 1 := ⟨19 - d.length - 1, by omega⟩
        rw [he, hk, List.replicate_succ, List.append_assoc, List.cons_append, value_num m _ tm _ hd (not_digit _ _ (by decide))] at h
        simp at h
    · rw [h2 (by omega)] at h
      have : Json.value (m + 1) (44 :: rest) = none := by rw [Json.value.eq_def]; rfl
      rw [List.nil_append, this] at h; cases h

private theorem cli_inv : ∀ (ev : Event), AllEvents (fun _ => True) Is64 ev → ∀ (m : Nat) (rest r : Str),
    Json.value m (cliJson ev ++ rest) = some (cliDoc ev, r) → AllEvents PlainText NineteenChars ev ∧ r = rest := by
  intro ev
  induction ev using eventInduction with
  | leaf p e t tm =>
    intro h m rest r hv
    have htext : cliJson (.mk p e t tm none) ++ rest = 123 :: 34 :: (b!"path_type" ++ 34 :: 58 ::
      34 :: (pathTypeName t ++ 34 :: 44 :: 34 :: (b!"path_name" ++ 34 :: 58 :: 34 :: (p ++ 34 :: 44 ::
      34 :: (b!"effect_type" ++ 34 :: 58 :: 34 :: (effectName e ++ 34 :: 44 ::
      34 :: (b!"effect_time" ++ 34 :: 58 :: (numToStr tm ++ 44 ::
      34 :: (b!"associated" ++ 34 :: 58 :: (b!"null" ++ 125 :: rest)))))))))) := by
      simp [cliJson, effect_str, ptype_str]
    rw [htext, cliDoc] at hv
    obtain ⟨_, hv⟩ := value_obj_inv hv
    obtain ⟨_, r1, a1, hv⟩ := members_more_inv (by decide) (by simp) hv
    obtain rfl := (List.cons.inj (value_plain_inv (pathTypeName_plain _) a1)).2
    obtain ⟨_, r2, a2, hv⟩ := members_more_inv (by decide) (by simp) hv
    obtain ⟨hp, h2⟩ := value_name_inv a2
    obtain rfl := (List.cons.inj h2).2
    obtain ⟨_, r3, a3, hv⟩ := members_more_inv (by decide) (by simp) hv
    obtain rfl := (List.cons.inj (value_plain_inv (effectName_plain _) a3)).2
    obtain ⟨_, r4, a4, hv⟩ := members_more_inv (by decide) (by simp) hv
    obtain ⟨ht, rfl⟩ := time_inv h.2 a4
    obtain ⟨_, m', a5⟩ := members_last_inv (by decide) hv
    refine ⟨⟨hp, ht⟩, ?_⟩
    cases m' with
    | zero => simp [Json.value] at a5
    | succ m' =>
      have : Json.value (m' + 1) (b!"null" ++ 125 :: rest) = some (.null, 125 :: rest) := rfl
      rw [this] at a5; simp at a5; exact a5.symm
  | node p e t tm a ih =>
    intro h m rest r hv
    have htext : cliJson (.mk p e t tm (some a)) ++ rest = 123 :: 34 :: (b!"path_type" ++ 34 :: 58 ::
      34 :: (pathTypeName t ++ 34 :: 44 :: 34 :: (b!"path_name" ++ 34 :: 58 :: 34 :: (p ++ 34 :: 44 ::
      34 :: (b!"effect_type" ++ 34 :: 58 :: 34 :: (effectName e ++ 34 :: 44 ::
      34 :: (b!"effect_time" ++ 34 :: 58 :: (numToStr tm ++ 44 ::
      34 :: (b!"associated" ++ 34 :: 58 :: (cliJson a ++ 125 :: rest)))))))))) := by
      simp [cliJson, effect_str, ptype_str]
    rw [htext, cliDoc] at hv
    obtain ⟨_, hv⟩ := value_obj_inv hv
    obtain ⟨_, r1, a1, hv⟩ := members_more_inv (by decide) (by simp) hv
    obtain rfl := (List.cons.inj (value_plain_inv (pathTypeName_plain _) a1)).2
    obtain ⟨_, r2, a2, hv⟩ := members_more_inv (by decide) (by simp) hv
    obtain ⟨hp, h2⟩ := value_name_inv a2
    obtain rfl := (List.cons.inj h2).2
    obtain ⟨_, r3, a3, hv⟩ := members_more_inv (by decide) (by simp) hv
    obtain rfl := (List.cons.inj (value_plain_inv (effectName_plain _) a3)).2
    obtain ⟨_, r4, a4, hv⟩ := members_more_inv (by decide) (by simp) hv
    obtain ⟨ht, rfl⟩ := time_inv h.2.1 a4
    obtain ⟨_, m', a5⟩ := members_last_inv (by decide) hv
    obtain ⟨ha, hr⟩ := ih h.2.2 _ _ _ a5
    exact ⟨⟨hp, ht, ha⟩, (List.cons.inj hr).2⟩

private theorem parse_inv {s : Str} {v : Json} (h : Json.parse s = some v) : ∃ m, Json.value m s = some (v, []) := by
  unfold Json.parse at h
  split at h
  · rename_i w hw; simp at h; exact ⟨_, by rw [hw, h]⟩
  · cases h

/-- C122: for every chain of events with 64-bit times, the line the command line program prints is read back (by a
full JSON string reader, escapes included) as that chain if and only if no name in it has a quotation mark, a
backslash or a control character and every time has a numeral of nineteen characters. -/
theorem C122_line_exact (ev : Event) (h64 : AllEvents (fun _ => True) Is64 ev) :
    Json.parse (cliJson ev) = some (cliDoc ev) ↔ AllEvents PlainText NineteenChars ev := by
  refine ⟨fun h => ?_, C04_line_decodes_partial ev⟩
  obtain ⟨m, hm⟩ := parse_inv h
  exact (cli_inv ev h64 m [] [] (by rw [List.append_nil]; exact hm)).1

private theorem time_key_inv {m : Nat} {tm : Int} {d text r : Str} {v : Json} (h64 : Is64 tm) (hd : Decimal d tm)
    (h : Json.members m (34 :: (numToStr tm ++ 34 :: 58 :: text)) = some ([(d, v)], r)) :
    NineteenChars tm ∧ ∃ m', Json.value m' text = some (v, 125 :: r) := by
  obtain ⟨h1, h2⟩ := C02_text_exact_partial tm h64
  by_cases hn : -1000000000000000000 < tm
  · obtain ⟨d', hd', hl, he⟩ := h1 hn
    by_cases h19 : d'.length = 19
    · have he' : numToStr tm = d' := by rw [he, h19]; simp
      refine ⟨(C02_text_is_decimal_iff_partial tm h64).1 (he' ▸ hd'), ?_⟩
      rw [he'] at h
      exact (members_last_inv (decimal_plain hd') h).2
    · exfalso
      obtain ⟨k, hk⟩ : ∃ k, 19 - d'.length = k + 1 := ⟨19 - d'.length - 1, by omega⟩
      rw [he, hk, List.replicate_succ, List.append_assoc, List.cons_append] at h
      cases m with
      | zero => simp [Json.members] at h
      | succ m => simp only [Json.members, strBody_nul _ _ (decimal_plain hd')] at h; cases h
  · exfalso
    rw [h2 (by omega)] at h
    obtain ⟨hk, _⟩ := members_last_inv (k := []) (fun c hc => by cases hc) h
    subst hk
    unfold Decimal at hd
    split at hd
    · obtain ⟨_, hd, _⟩ := hd; cases hd
    · exact hd.1 rfl

private theorem field_inv {m : Nat} {e : EffectType} {p : Str} {t : PathType} {text r : Str} {kv : List (Str × Json)}
    (h : Json.members m (34 :: (b!"effect_type" ++ 34 :: 58 :: 34 :: (effectName e ++ 34 :: 44 ::
      34 :: (b!"path_name" ++ 34 :: 58 :: 34 :: (p ++ 34 :: 44 ::
      34 :: (b!"path_type" ++ 34 :: 58 :: text))))))
    = some ((b!"effect_type", .str (effectName e)) :: (b!"path_name", .str p) :: (b!"path_type", .str (pathTypeName t)) :: kv, r)) :
    PlainText p ∧ ∃ m', Json.members m' (34 :: (b!"path_type" ++ 34 :: 58 :: text)) = some ((b!"path_type", .str (pathTypeName t)) :: kv, r) := by
  obtain ⟨_, r1, a1, h⟩ := members_more_inv (by decide) (by simp) h
  obtain rfl := (List.cons.inj (value_plain_inv (effectName_plain _) a1)).2
  obtain ⟨_, r2, a2, h⟩ := members_more_inv (by decide) (by simp) h
  obtain ⟨hp, h2⟩ := value_name_inv a2
  obtain rfl := (List.cons.inj h2).2
  exact ⟨hp, _, h⟩

/-- C122: the streamed text of an event, put between braces, is read back as the event if and only if its name and
the name associated with it have nothing to escape and its time has a numeral of nineteen characters. -/
theorem C122_stream_exact (ev : Event) (h64 : Is64 ev.time) :
    (∃ d, Decimal d ev.time ∧ Json.parse (inBraces (eventStr ev)) = some (.obj [(d, streamBody ev)])) ↔
    (PlainText ev.path ∧ (∀ a, ev.assoc = some a → PlainText a.path) ∧ NineteenChars ev.time) := by
  refine ⟨?_, fun ⟨h1, h2, h3⟩ => C03_stream_decodes_partial ev h1 h2 h3⟩
  rintro ⟨d, hd, h⟩
  obtain ⟨m, hm⟩ := parse_inv h
  cases hassoc : ev.assoc with
  | none =>
    have htext : inBraces (eventStr ev) = 123 :: 34 :: (numToStr ev.time ++ 34 :: 58 :: 123 ::
      34 :: (b!"effect_type" ++ 34 :: 58 :: 34 :: (effectName ev.effect ++ 34 :: 44 ::
      34 :: (b!"path_name" ++ 34 :: 58 :: 34 :: (ev.path ++ 34 :: 44 ::
      34 :: (b!"path_type" ++ 34 :: 58 :: 34 :: (pathTypeName ev.ptype ++ 34 :: 125 :: [125]))))))) := by
      simp [inBraces, eventStr, eventText, hassoc, effect_code, ptype_code]
    rw [htext] at hm
    obtain ⟨_, hm⟩ := value_obj_inv hm
    obtain ⟨ht, _, hm⟩ := time_key_inv h64 hd hm
    simp only [streamBody, hassoc, fields, List.append_nil] at hm
    obtain ⟨_, hm⟩ := value_obj_inv hm
    obtain ⟨hp, _⟩ := field_inv hm
    exact ⟨hp, fun a ha => (by cases ha), ht⟩
  | some a =>
    have htext : inBraces (eventStr ev) = 123 :: 34 :: (numToStr ev.time ++ 34 :: 58 :: 123 ::
      34 :: (b!"effect_type" ++ 34 :: 58 :: 34 :: (effectName ev.effect ++ 34 :: 44 ::
      34 :: (b!"path_name" ++ 34 :: 58 :: 34 :: (ev.path ++ 34 :: 44 ::
      34 :: (b!"path_type" ++ 34 :: 58 :: 34 :: (pathTypeName ev.ptype ++ 34 :: 44 ::
      34 :: (b!"associated" ++ 34 :: 58 :: 123 ::
      34 :: (b!"effect_type" ++ 34 :: 58 :: 34 :: (effectName a.effect ++ 34 :: 44 ::
      34 :: (b!"path_name" ++ 34 :: 58 :: 34 :: (a.path ++ 34 :: 44 ::
      34 :: (b!"path_type" ++ 34 :: 58 :: 34 :: (pathTypeName a.ptype ++ 34 :: 125 :: [125, 125]
      )))))))))))))) := by
      simp [inBraces, eventStr, eventText, hassoc, effect_code, ptype_code]
    rw [htext] at hm
    obtain ⟨_, hm⟩ := value_obj_inv hm
    obtain ⟨ht, _, hm⟩ := time_key_inv h64 hd hm
    simp only [streamBody, hassoc, fields, List.cons_append, List.nil_append] at hm
    obtain ⟨_, hm⟩ := value_obj_inv hm
    obtain ⟨hp, _, hm⟩ := field_inv hm
    obtain ⟨_, r1, a1, hm⟩ := members_more_inv (by decide) (by simp) hm
    obtain rfl := (List.cons.inj (value_plain_inv (pathTypeName_plain _) a1)).2
    obtain ⟨_, _, hm⟩ := members_last_inv (k := b!"associated") (by decide) hm
    obtain ⟨_, hm⟩ := value_obj_inv hm
    obtain ⟨ha, _⟩ := field_inv hm
    exact ⟨hp, fun b hb => (by cases hb; exact ha), ht⟩

-- an event of each kind
example : Is64 7 ∧ ¬ NineteenChars 7 := by unfold Is64 NineteenChars; omega
example : AllEvents (fun _ => True) Is64 (.mk b!"/a\\u0041" .rename .file 1704067200000000000 (some (.mk b!"/b" .rename .file 1704067200000000000 none))) ∧
    ¬ PlainText b!"/a\\u0041" ∧
    -- readable, but as another name
    Json.parse (cliJson (.mk b!"/a\\u0041" .create .file 1704067200000000000 none)) = some (cliDoc (.mk b!"/aA" .create .file 1704067200000000000 none)) := by
  refine ⟨by simp [AllEvents, Is64], by decide, by rfl⟩

/-! ## C123 -/

/-- C123: for every event Python delivers, `to_json` is JSON for it if and only if neither name has a quotation mark,
a backslash or a control character. -/
theorem C123_python_exact (c : CEvent) (ev : PyEvent) (h64 : Is64 c.time) (h : pyEvent utf8 c = some ev) :
    Json.parse (pyJson ev) = some (pyDoc ev) ↔ (PlainText ev.path ∧ ∀ a, ev.assoc = some a → PlainText a) := by
  refine ⟨fun hp => ?_, fun ⟨h1, h2⟩ => C74_json_partial c ev h64 h h1 h2⟩
  obtain ⟨ht, he, hpt, hne⟩ := py_types h
  have hd := toChars_decimal c.time h64
  obtain ⟨m, hm⟩ := parse_inv hp
  have num : ∀ {m : Nat} {x r : Str} {v : Json}, Json.value m (toChars c.time ++ 44 :: x) = some (v, 44 :: r) → r = x := by
    intro m x r v hv
    cases m with
    | zero => simp [Json.value] at hv
    | succ m =>
      rw [value_num m _ c.time _ hd (not_digit _ _ (by decide))] at hv
      simp at hv; exact hv.2.symm
  cases hassoc : ev.assoc with
  | none =>
    have htext : pyJson ev = 123 :: 34 :: (b!"effect_time" ++ 34 :: 58 :: (toChars c.time ++ 44 ::
        34 :: (b!"path_name" ++ 34 :: 58 :: 34 :: (ev.path ++ 34 :: 44 ::
        34 :: (b!"associated_path_name" ++ 34 :: 58 :: (b!"null" ++ 44 ::
        34 :: (b!"effect_type" ++ 34 :: 58 :: 34 :: (ev.effect ++ 34 :: 44 ::
        34 :: (b!"path_type" ++ 34 :: 58 :: 34 :: (ev.ptype ++ 34 :: 125 :: [])))))))))) := by
      simp [pyJson, hassoc, ht]
    rw [htext, pyDoc] at hm
    obtain ⟨_, hm⟩ := value_obj_inv hm
    obtain ⟨_, r1, a1, hm⟩ := members_more_inv (by decide) (by simp) hm
    obtain rfl := num a1
    obtain ⟨_, r2, a2, hm⟩ := members_more_inv (by decide) (by simp) hm
    exact ⟨(value_name_inv a2).1, fun a ha => (by cases ha)⟩
  | some a =>
    have hane : a ≠ [] := fun e => hne (by rw [hassoc, e])
    have htext : pyJson ev = 123 :: 34 :: (b!"effect_time" ++ 34 :: 58 :: (toChars c.time ++ 44 ::
        34 :: (b!"path_name" ++ 34 :: 58 :: 34 :: (ev.path ++ 34 :: 44 ::
        34 :: (b!"associated_path_name" ++ 34 :: 58 :: 34 :: (a ++ 34 :: 44 ::
        34 :: (b!"effect_type" ++ 34 :: 58 :: 34 :: (ev.effect ++ 34 :: 44 ::
        34 :: (b!"path_type" ++ 34 :: 58 :: 34 :: (ev.ptype ++ 34 :: 125 :: [])))))))))) := by
      simp [pyJson, hassoc, ht, hane]
    rw [htext, pyDoc, hassoc] at hm
    obtain ⟨_, hm⟩ := value_obj_inv hm
    obtain ⟨_, r1, a1, hm⟩ := members_more_inv (by decide) (by simp) hm
    obtain rfl := num a1
    obtain ⟨_, r2, a2, hm⟩ := members_more_inv (by decide) (by simp) hm
    obtain ⟨hp, h2⟩ := value_name_inv a2
    obtain rfl := (List.cons.inj h2).2
    obtain ⟨_, r3, a3, hm⟩ := members_more_inv (by decide) (by simp) hm
    exact ⟨hp, fun b hb => (by cases hb; exact (value_name_inv a3).1)⟩

-- an event whose associated name has a quotation mark
example : pyEvent utf8 ⟨5, b!"/a", some b!"/b\"", 0, 1⟩ = some ⟨5, b!"/a", some b!"/b\"", b!"rename", b!"file"⟩ ∧ ¬ PlainText b!"/b\"" := by
  decide +kernel

end Verif.Props
