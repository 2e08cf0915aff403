import Verif.Props.Windows
/-!
# What a batch is reported as on Windows, in every case: C124
-/

namespace Verif.Props
open Verif Verif.Model Verif.Model.Windows Verif.Spec.Windows Verif.Lemmas.Windows

private theorem plain_or (r : Rec) : Plain r ∨ IsOld r ∨ IsNew r := by
  unfold Plain IsOld IsNew; omega

/-- What the loop does is what the specification says. -/
theorem reportsAll_handle (isDir : WStr → Option Bool) (base : WStr) {rs : List Rec} {o : List WEv}
    (h : ReportsAll isDir base rs o) : handleAll isDir base {} rs = o := by
  induction h with
  | nil => rfl
  | plain r rs o hp _ ih =>
    simp only [handleAll, plain_step isDir base {} r hp, ih]
    rfl
  | oldNew a b ps rs o ha hb hps _ ih =>
    unfold IsOld at ha
    unfold IsNew at hb
    rw [List.cons_append, handleAll]
    simp only [onRecord, if_pos ha]
    rw [plain_all _ _ _ _ _ hps, handleAll]
    have : ¬ b.action = 4 := by omega
    simp only [onRecord, if_neg this, if_pos hb, ih, renameEvent_eq]
    rfl
  | newOld a b ps rs o ha hb hps _ ih =>
    unfold IsOld at ha
    unfold IsNew at hb
    have : ¬ b.action = 4 := by omega
    rw [List.cons_append, handleAll]
    simp only [onRecord, if_neg this, if_pos hb]
    rw [plain_all _ _ _ _ _ hps, handleAll]
    simp only [onRecord, if_pos ha, ih, renameEvent_eq]
    rfl
  | overtaken a b ps rs o hs hps _ ih =>
    rw [List.cons_append, handleAll]
    rcases hs with ⟨ha, hb⟩ | ⟨ha, hb⟩
    · unfold IsOld at ha hb
      simp only [onRecord, if_pos ha]
      rw [plain_all _ _ _ _ _ hps, ← ih, handleAll, handleAll]
      simp only [onRecord, if_pos hb]
      rfl
    · unfold IsNew at ha hb
      have h1 : ¬ a.action = 4 := by omega
      have h2 : ¬ b.action = 4 := by omega
      simp only [onRecord, if_neg h1, if_pos ha]
      rw [plain_all _ _ _ _ _ hps, ← ih, handleAll, handleAll]
      simp only [onRecord, if_neg h2, if_pos hb]
      rfl
  | left a ps ha hps =>
    rw [handleAll]
    have hp := plain_all isDir base (onRecord isDir base {} a.action a.name).1 ps [] hps
    rw [List.append_nil] at hp
    rw [hp]
    rcases plain_or a with h | h | h
    · exact absurd h ha
    · unfold IsOld at h; simp [onRecord, h, handleAll]
    · unfold IsNew at h; simp [onRecord, h, handleAll]

/-- The plain records before the next half. -/
theorem next_half : ∀ rs : List Rec, (∀ p ∈ rs, Plain p) ∨ ∃ ps b rest, rs = ps ++ b :: rest ∧ (∀ p ∈ ps, Plain p) ∧ ¬ Plain b := by
  intro rs
  induction rs with
  | nil => left; intro p hp; cases hp
  | cons r rs ih =>
    by_cases hr : Plain r
    · rcases ih with h | ⟨ps, b, rest, rfl, h1, h2⟩
      · left; intro p hp
        rcases List.mem_cons.1 hp with rfl | hp
        · exact hr
        · exact h p hp
      · right; refine ⟨r :: ps, b, rest, rfl, ?_, h2⟩
        intro p hp
        rcases List.mem_cons.1 hp with rfl | hp
        · exact hr
        · exact h1 p hp
    · right; exact ⟨[], r, rs, rfl, (fun p hp => by cases hp), hr⟩

/-- The specification leaves no batch out. -/
theorem reportsAll_total (isDir : WStr → Option Bool) (base : WStr) : ∀ (n : Nat) (rs : List Rec), rs.length ≤ n → ∃ o, ReportsAll isDir base rs o := by
  intro n
  induction n with
  | zero => intro rs h; have : rs = [] := List.eq_nil_of_length_eq_zero (by omega); subst this; exact ⟨[], .nil⟩
  | succ n ih =>
    intro rs h
    cases rs with
    | nil => exact ⟨[], .nil⟩
    | cons a rs =>
      simp only [List.length_cons] at h
      by_cases ha : Plain a
      · obtain ⟨o, ho⟩ := ih rs (by omega); exact ⟨_, .plain a rs o ha ho⟩
      · rcases next_half rs with hp | ⟨ps, b, rest, rfl, hps, hb⟩
        · exact ⟨_, .left a rs ha hp⟩
        · simp only [List.length_append, List.length_cons] at h
          rcases plain_or a with h1 | h1 | h1
          · exact absurd h1 ha
          · rcases plain_or b with h2 | h2 | h2
            · exact absurd h2 hb
            · obtain ⟨o, ho⟩ := ih (b :: rest) (by simp only [List.length_cons]; omega)
              exact ⟨_, .overtaken a b ps rest o (.inl ⟨h1, h2⟩) hps ho⟩
            · obtain ⟨o, ho⟩ := ih rest (by omega)
              exact ⟨_, .oldNew a b ps rest o h1 h2 hps ho⟩
          · rcases plain_or b with h2 | h2 | h2
            · exact absurd h2 hb
            · obtain ⟨o, ho⟩ := ih rest (by omega)
              exact ⟨_, .newOld b a ps rest o h2 h1 hps ho⟩
            · obtain ⟨o, ho⟩ := ih (b :: rest) (by simp only [List.length_cons]; omega)
              exact ⟨_, .overtaken a b ps rest o (.inr ⟨h1, h2⟩) hps ho⟩

/-- C124: for every batch the system writes of at least 16 bytes, whatever renames are in it, whatever stands in the
buffer behind it: the events handed over are exactly those the specification lists. -/
theorem C124_batch_exact (isDir : WStr → Option Bool) (base : WStr) (rs : List Rec) (evs : List WEv)
    (hf : ∀ r ∈ rs, r.Fits) (h16 : 16 ≤ (encode rs).length) : Delivers isDir base rs evs ↔ ReportsAll isDir base rs evs := by
  have hd : Delivers isDir base rs (handleAll isDir base {} rs) := batch (by rintro rfl; simp [encode] at h16) hf h16
  constructor
  · intro h
    obtain ⟨o, ho⟩ := reportsAll_total isDir base rs.length rs (Nat.le_refl _)
    rw [delivers_unique h hd, reportsAll_handle isDir base ho]
    exact ho
  · intro h
    rw [← reportsAll_handle isDir base h]; exact hd

theorem encode_short (rs : List Rec) (hne : rs ≠ []) : (encode rs).length < 16 ↔ ∃ r, rs = [r] ∧ r.name.length ≤ 1 := by
  match rs, hne with
  | [r], _ =>
    simp only [encode, List.length_append, le32_length, le16_length]
    constructor
    · intro h; exact ⟨r, rfl, by omega⟩
    · rintro ⟨r', h, hl⟩; injection h with h; subst h; omega
  | r :: r' :: rs, _ =>
    constructor
    · intro h
      simp only [encode, List.length_append, le32_length, le16_length] at h
      have := stride_ge r
      unfold Rec.size at this
      have h2 : 12 ≤ (encode (r' :: rs)).length := by
        cases rs <;> simp only [encode, List.length_append, le32_length] <;> omega
      omega
    · rintro ⟨x, h, _⟩; cases h

/-- C124: the other batches are those of one record with a name of at most one character; they are not reported at
all, whatever the record is. -/
theorem C124_short_batches (isDir : WStr → Option Bool) (base : WStr) (rs : List Rec) (hne : rs ≠ []) :
    ((encode rs).length < 16 ↔ ∃ r, rs = [r] ∧ r.name.length ≤ 1) ∧
    ((∃ r, rs = [r] ∧ r.name.length ≤ 1) → ∀ evs, Delivers isDir base rs evs ↔ evs = []) := by
  refine ⟨encode_short rs hne, fun h evs => ?_⟩
  have hs := (encode_short rs hne).2 h
  have hd : Delivers isDir base rs [] := by
    intro rest fuel hfuel
    cases fuel with
    | zero => cases rs with
      | nil => exact absurd rfl hne
      | cons _ _ => simp at hfuel
    | succ fuel => simp [sendBatch, sendLoop, Nat.not_le.2 hs]
  exact ⟨fun h => delivers_unique h hd, fun h => h ▸ hd⟩

/-- C124: the specification gives each batch one report. -/
theorem C124_one_report (isDir : WStr → Option Bool) (base : WStr) (rs : List Rec) :
    ∃ o, ReportsAll isDir base rs o ∧ ∀ o', ReportsAll isDir base rs o' → o' = o := by
  obtain ⟨o, ho⟩ := reportsAll_total isDir base rs.length rs (Nat.le_refl _)
  exact ⟨o, ho, fun o' h => by rw [← reportsAll_handle isDir base h, reportsAll_handle isDir base ho]⟩

-- a batch with a half that is overtaken, a pair, and a half left over
private def wloose : List Rec := [⟨4, [97]⟩, ⟨1, [98]⟩, ⟨4, [99]⟩, ⟨5, [100]⟩, ⟨5, [101]⟩, ⟨2, [102]⟩]
example : (∀ r ∈ wloose, r.Fits) ∧ 16 ≤ (encode wloose).length ∧
    ReportsAll (fun _ => some false) [67] wloose
      [⟨[67, 92, 98], .create, .file, none⟩, ⟨[67, 92, 99], .rename, .file, some ([67, 92, 100], .file)⟩, ⟨[67, 92, 102], .destroy, .file, none⟩] := by
  refine ⟨?_, by decide, ?_⟩
  · intro r hr
    simp only [wloose, List.mem_cons, List.not_mem_nil, or_false] at hr
    rcases hr with rfl | rfl | rfl | rfl | rfl | rfl <;> constructor <;> decide
  · exact .overtaken ⟨4, [97]⟩ ⟨4, [99]⟩ [⟨1, [98]⟩] _ _ (.inl ⟨rfl, rfl⟩) (by decide)
      (.oldNew ⟨4, [99]⟩ ⟨5, [100]⟩ [] _ _ rfl rfl (by decide) (.left ⟨5, [101]⟩ [⟨2, [102]⟩] (by decide) (by decide)))

end Verif.Props
