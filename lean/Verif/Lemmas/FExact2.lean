import Verif.Lemmas.FExact
/-! When reading a batch is undefined. -/
namespace Verif.Lemmas.Fa
open Verif Verif.Model Verif.Model.Fa Verif.Spec

variable {σ : Type} {r r2 : FRec} {rs rest : List FRec} {full : Bool}

theorem answers_ask (S : Fa.Sys σ) (h : Fa.Answers S rs) (hr : r ∈ rs) (w : σ) : ∃ p w', Fa.ask S r w = (.at p, w') := by
  obtain ⟨h1, h2⟩ := h r hr w
  unfold Fa.ask
  simp only [show ¬ ((S.openByHandle w r.handle).1.1 ≤ 0) from by omega, if_false]
  cases hx : S.readlink (S.openByHandle w r.handle).2 (S.openByHandle w r.handle).1.1 with
  | mk a w2 =>
    cases a with
    | none => rw [hx] at h2; exact absurd rfl h2
    | some d => exact ⟨_, _, rfl⟩

theorem answers_ask2 (S : Fa.Sys σ) (h : Fa.Answers S rs) (hr : r ∈ rs) (hr2 : r2 ∈ rs) (w : σ) : ∃ p q w', Fa.ask2 S r r2 w = (.at p q, w') := by
  unfold Fa.ask2
  split
  · obtain ⟨q, w1, h1⟩ := answers_ask S h hr2 w
    obtain ⟨p, w2, h2⟩ := answers_ask S h hr w1
    rw [h1]; simp only [h2]
    exact ⟨_, _, _, rfl⟩
  · obtain ⟨q, w1, h1⟩ := answers_ask S h hr w
    obtain ⟨p, w2, h2⟩ := answers_ask S h hr2 w1
    rw [h1]; simp only [h2]
    exact ⟨_, _, _, rfl⟩

theorem answers_mono (S : Fa.Sys σ) (h : Fa.Answers S rs) (hs : ∀ x ∈ rest, x ∈ rs) : Fa.Answers S rest := fun x hx => h x (hs x hx)

/-- With room behind the batch, or records that are not seen, everything is defined. -/
theorem told_defined (S : Fa.Sys σ) : ∀ (n : Nat) (rs : List FRec), rs.length ≤ n → Fa.Answers S rs → ∀ (len : Int) (w : σ),
    full = false ∨ len < (fbatch rs).length → Fa.told S full rs len w ≠ none := by
  intro n
  induction n with
  | zero =>
    intro rs hn _ len w _
    rw [List.length_eq_zero_iff.1 (by omega : rs.length = 0)]
    simp [Fa.told]
  | succ n ih =>
    intro rs hn ha len w hd
    cases rs with
    | nil => simp [Fa.told]
    | cons r rest =>
      simp only [List.length_cons] at hn
      rw [Fa.told]
      by_cases h1 : len < r.bytes.length
      · simp [h1]
      rw [if_neg h1]
      by_cases h2 : r.overflow = true
      · simp [h2]
      simp only [h2, Bool.false_eq_true, if_false]
      have hsum : (fbatch (r :: rest)).length = r.bytes.length + (fbatch rest).length := by rw [fbatch_cons, List.length_append]
      have har := answers_mono S ha (rest := rest) (by simp +contextual)
      obtain ⟨p, w', hp⟩ := answers_ask S ha (r := r) (by simp) w
      have single : ∀ w'', (Fa.told S full rest (len - r.bytes.length) w'') ≠ none :=
        fun w'' => ih rest (by omega) har _ _ (hd.imp id fun h => by omega)
      cases rest with
      | nil =>
        simp only [hp]
        simp only [ne_eq, Option.map_eq_none_iff]
        exact single _
      | cons r2 rest2 =>
        have hsum2 : (fbatch (r2 :: rest2)).length = r2.bytes.length + (fbatch rest2).length := by rw [fbatch_cons, List.length_append]
        simp only
        by_cases h3 : len < (r.bytes.length : Int) + r2.bytes.length
        · simp only [h3, if_true, hp, ne_eq, Option.map_eq_none_iff]
          exact single _
        simp only [h3, if_false]
        by_cases h4 : r.fromTo r2 = true
        · simp only [h4, if_true]
          obtain ⟨p, q, w', hpq⟩ := answers_ask2 S ha (r := r) (r2 := r2) (by simp) (by simp) w
          have h5 : ¬ (full && rest2.isEmpty) = true := by
            intro h5
            simp only [Bool.and_eq_true, List.isEmpty_iff] at h5
            obtain ⟨h5, rfl⟩ := h5
            rcases hd with hd | hd
            · rw [h5] at hd; cases hd
            · have h0 : (fbatch ([] : List FRec)).length = 0 := rfl
              omega
          simp only [h5, hpq, ne_eq, Option.map_eq_none_iff]
          simp only [List.length_cons] at hn
          simpa using ih rest2 (by omega) (answers_mono S har (by simp +contextual)) _ _ (hd.imp id fun h => by omega)
        · simp only [Bool.not_eq_true] at h4
          simp only [h4, Bool.false_eq_true, if_false]
          by_cases h5 : r.toFrom r2 = true
          · obtain ⟨p, q, w', hpq⟩ := answers_ask2 S ha (r := r2) (r2 := r) (by simp) (by simp) w
            simp only [h5, if_true, hpq, ne_eq, Option.map_eq_none_iff]
            exact ih _ (by omega) har _ _ (hd.imp id fun h => by omega)
          · simp only [Bool.not_eq_true] at h5
            simp only [h5, Bool.false_eq_true, if_false, hp, ne_eq, Option.map_eq_none_iff]
            exact single _

theorem ends_nil : ¬ EndsInRename ([] : List FRec) := by
  rintro ⟨l, a, b, h, _⟩
  cases l <;> cases h

theorem ends_iff (r r2 : FRec) (rest : List FRec) : EndsInRename (r :: r2 :: rest) ↔ (rest = [] ∧ r.fromTo r2 = true) ∨ EndsInRename (r2 :: rest) := by
  constructor
  · rintro ⟨l, a, b, h, h1⟩
    cases l with
    | nil =>
      injection h with h2 h3
      injection h3 with h3 h4
      subst h2; subst h3
      exact .inl ⟨h4, h1⟩
    | cons x l =>
      injection h with h2 h3
      exact .inr ⟨l, a, b, h3, h1⟩
  · rintro (⟨rfl, h⟩ | h)
    · exact ⟨[], r, r2, rfl, h⟩
    · exact ends_cons h

theorem ends_one (r : FRec) : ¬ EndsInRename [r] := by
  rintro ⟨l, a, b, h, _⟩
  have := congrArg List.length h
  simp at this

theorem crossed_nil : NoneCrossed [] := by
  intro l x y m h
  cases l <;> cases h

theorem crossed_one (r : FRec) : NoneCrossed [r] := by
  intro l x y m h
  have := congrArg List.length h
  simp at this
  omega

/-- A record read alone. -/
theorem crossed_single (h1 : r.fromTo r2 = false) (h2 : r.toFrom r2 = false) : NoneCrossed (r :: r2 :: rest) ↔ NoneCrossed (r2 :: rest) := by
  constructor
  · intro h l x y m he hx
    obtain ⟨l', z, h3, h4⟩ := h (r :: l) x y m (by rw [he]; rfl) hx
    cases l' with
    | nil =>
      injection h3 with h3 h5
      subst h3; subst h5
      injection he with he _
      subst he
      rw [h1] at h4; cases h4
    | cons c l' =>
      injection h3 with h3 h5
      exact ⟨l', z, h5, h4⟩
  · intro h l x y m he hx
    cases l with
    | nil =>
      injection he with h3 h4
      injection h4 with h4 h5
      subst h3; subst h4
      rw [h2] at hx; cases hx
    | cons c l =>
      injection he with h3 h4
      obtain ⟨l', z, h5, h6⟩ := h l x y m h4 hx
      exact ⟨c :: l', z, by rw [h5]; rfl, h6⟩

/-- Two records read as one rename. -/
theorem crossed_pair (h1 : r.fromTo r2 = true) (hp : r.Plain) (hp2 : r2.Plain) : NoneCrossed (r :: r2 :: rest) ↔ NoneCrossed rest := by
  have hb : r.movedFrom = true ∧ r2.movedTo = true := by
    simp only [FRec.fromTo, Bool.and_eq_true] at h1; exact ⟨h1.1.2, h1.2⟩
  have n1 : ∀ y, r.toFrom y = false := by
    intro y
    cases hx : r.toFrom y with
    | false => rfl
    | true =>
      simp only [FRec.toFrom, Bool.and_eq_true] at hx
      exact absurd ⟨hb.1, hx.1.2⟩ hp
  have n2 : ∀ y, r2.fromTo y = false := by
    intro y
    cases hx : r2.fromTo y with
    | false => rfl
    | true =>
      simp only [FRec.fromTo, Bool.and_eq_true] at hx
      exact absurd ⟨hx.1.2, hb.2⟩ hp2
  constructor
  · intro h l x y m he hx
    obtain ⟨l', z, h3, h4⟩ := h (r :: r2 :: l) x y m (by rw [he]; rfl) hx
    match l', h3 with
    | [], h3 => injection h3 with _ h3; cases h3
    | [c], h3 =>
      injection h3 with _ h3
      injection h3 with h3 h5
      subst h3
      rw [n2] at h4; cases h4
    | c :: c' :: l', h3 =>
      injection h3 with _ h3
      injection h3 with _ h3
      exact ⟨l', z, h3, h4⟩
  · intro h l x y m he hx
    match l, he with
    | [], he =>
      injection he with h3 h4
      subst h3
      rw [n1] at hx; cases hx
    | [c], he =>
      injection he with h3 h4
      injection h4 with h4 h5
      subst h3; subst h4
      exact ⟨[], r, rfl, h1⟩
    | c :: c' :: l, he =>
      injection he with h3 h4
      injection h4 with h4 h5
      obtain ⟨l', z, h6, h7⟩ := h l x y m h5 hx
      exact ⟨c :: c' :: l', z, by rw [h6]; rfl, h7⟩

theorem crossed_swap (h2 : r.toFrom r2 = true) : ¬ NoneCrossed (r :: r2 :: rest) := by
  intro h
  obtain ⟨l', z, h3, _⟩ := h [] r r2 rest rfl h2
  cases l' <;> cases h3

/-- With a full buffer. -/
theorem told_full (S : Fa.Sys σ) : ∀ (n : Nat) (rs : List FRec), rs.length ≤ n → Fa.Answers S rs → (∀ r ∈ rs, r.overflow = false) →
    (∀ r ∈ rs, r.Plain) → ∀ (w : σ),
    (Fa.told S true rs (fbatch rs).length w = none ↔ EndsInRename rs ∧ NoneCrossed rs) := by
  intro n
  induction n with
  | zero =>
    intro rs hn _ _ _ w
    rw [List.length_eq_zero_iff.1 (by omega : rs.length = 0)]
    simp [Fa.told, ends_nil]
  | succ n ih =>
    intro rs hn ha ho hpl w
    cases rs with
    | nil => simp [Fa.told, ends_nil]
    | cons r rest =>
      simp only [List.length_cons] at hn
      have hsum : (fbatch (r :: rest)).length = r.bytes.length + (fbatch rest).length := by rw [fbatch_cons, List.length_append]
      rw [Fa.told, if_neg (by omega)]
      simp only [ho r (by simp), Bool.false_eq_true, if_false]
      have har := answers_mono S ha (rest := rest) (by simp +contextual)
      have hor : ∀ x ∈ rest, x.overflow = false := fun x hx => ho x (by simp [hx])
      have hpr : ∀ x ∈ rest, x.Plain := fun x hx => hpl x (by simp [hx])
      obtain ⟨p, w', hp⟩ := answers_ask S ha (r := r) (by simp) w
      rw [show ((fbatch (r :: rest)).length : Int) - r.bytes.length = (fbatch rest).length from by omega]
      cases rest with
      | nil =>
        simp only [hp, Option.map_eq_none_iff]
        simp [Fa.told, ends_one]
      | cons r2 rest2 =>
        have hsum2 : (fbatch (r2 :: rest2)).length = r2.bytes.length + (fbatch rest2).length := by rw [fbatch_cons, List.length_append]
        simp only [List.length_cons] at hn
        simp only [show ¬ (((fbatch (r :: r2 :: rest2)).length : Int) < (r.bytes.length : Int) + r2.bytes.length) from by omega, if_false]
        by_cases h4 : r.fromTo r2 = true
        · simp only [h4, if_true, Bool.true_and]
          obtain ⟨p, q, w', hpq⟩ := answers_ask2 S ha (r := r) (r2 := r2) (by simp) (by simp) w
          rw [crossed_pair h4 (hpl r (by simp)) (hpr r2 (by simp)), ends_iff]
          by_cases h5 : rest2 = []
          · subst h5
            simp [h4, crossed_nil]
          · have h6 : EndsInRename (r2 :: rest2) ↔ EndsInRename rest2 := by
              cases rest2 with
              | nil => exact absurd rfl h5
              | cons r3 rest3 =>
                rw [ends_iff]
                have : r2.fromTo r3 = false := by
                  cases hx : r2.fromTo r3 with
                  | false => rfl
                  | true =>
                    simp only [FRec.fromTo, Bool.and_eq_true] at hx h4
                    exact absurd ⟨hx.1.2, h4.2⟩ (hpr r2 (by simp))
                simp [this]
            rw [h6]
            simp only [List.isEmpty_iff, h5, if_false, false_and, false_or, hpq, Option.map_eq_none_iff]
            rw [show (fbatch (r2 :: rest2)).length - (r2.bytes.length : Int) = (fbatch rest2).length from by omega]
            exact ih rest2 (by omega) (answers_mono S har (by simp +contextual)) (fun x hx => hor x (by simp [hx])) (fun x hx => hpr x (by simp [hx])) w'
        · simp only [Bool.not_eq_true] at h4
          simp only [h4, Bool.false_eq_true, if_false]
          by_cases h5 : r.toFrom r2 = true
          · obtain ⟨p, q, w', hpq⟩ := answers_ask2 S ha (r := r2) (r2 := r) (by simp) (by simp) w
            simp only [h5, if_true, hpq, Option.map_eq_none_iff]
            have := told_defined (full := true) S (n + 1) (r2 :: rest2) (by simp; omega) har ((fbatch (r2 :: rest2)).length - r2.bytes.length) w'
              (.inr (by have := rec_ge r2; omega))
            constructor
            · intro h; exact absurd h this
            · intro h; exact absurd h.2 (crossed_swap h5)
          · simp only [Bool.not_eq_true] at h5
            simp only [h5, Bool.false_eq_true, if_false, hp, Option.map_eq_none_iff]
            rw [crossed_single h4 h5, ends_iff]
            simp only [h4, Bool.false_eq_true, and_false, false_or]
            exact ih (r2 :: rest2) (by simp; omega) har hor hpr _

end Verif.Lemmas.Fa
