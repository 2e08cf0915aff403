import Verif.Model.Text
import Verif.Spec.Text
/-! Helper lemmas for the text properties. -/

namespace Verif.Lemmas
open Verif Verif.Model Verif.Spec

abbrev dval (s : Str) : Nat := s.foldl (fun acc c => acc * 10 + (c.toNat - 48)) 0

theorem digit_toNat {d : Nat} (h : d < 10) : (UInt8.ofNat (48 + d)).toNat = 48 + d := by
  simp; omega

theorem digit_range {d : Nat} (h : d < 10) : 48 ≤ UInt8.ofNat (48 + d) ∧ UInt8.ofNat (48 + d) ≤ 57 := by
  simp only [UInt8.le_iff_toNat_le, digit_toNat h]
  constructor
  · show 48 ≤ _; omega
  · show _ ≤ 57; omega

theorem digit_zero {d : Nat} (h : d < 10) (h0 : UInt8.ofNat (48 + d) = 48) : d = 0 := by
  have := congrArg UInt8.toNat h0
  rw [digit_toNat h] at this
  have h2 : (48 : UInt8).toNat = 48 := rfl
  omega

theorem natChars_spec (fuel n : Nat) (h : n < 10 ^ (fuel + 1)) :
    NatDecimal (natChars (fuel + 1) n) n := by
  induction fuel generalizing n with
  | zero =>
    have h10 : n < 10 := by simpa using h
    simp only [natChars, h10, if_true]
    refine ⟨by simp, ?_, by simp, ?_⟩
    · intro c hc; simp only [List.mem_singleton] at hc; subst hc; exact digit_range h10
    · simp only [List.foldl, digit_toNat h10]; omega
  | succ fuel ih =>
    rw [natChars]
    split
    · rename_i h10
      refine ⟨by simp, ?_, by simp, ?_⟩
      · intro c hc; simp only [List.mem_singleton] at hc; subst hc; exact digit_range h10
      · simp only [List.foldl, digit_toNat h10]; omega
    · rename_i h10
      have hlt : n / 10 < 10 ^ (fuel + 1) := by
        rw [Nat.div_lt_iff_lt_mul (by omega)]; rw [Nat.pow_succ] at h; exact h
      obtain ⟨h1, h2, h3, h4⟩ := ih (n / 10) hlt
      refine ⟨by simp, ?_, ?_, ?_⟩
      · intro c hc
        rw [List.mem_append] at hc
        rcases hc with hc | hc
        · exact h2 c hc
        · simp only [List.mem_singleton] at hc; subst hc; exact digit_range (by omega)
      · intro hh
        replace hh : (natChars (fuel + 1) (n / 10)).head? = some 48 := by
          cases hx : natChars (fuel + 1) (n / 10) with
          | nil => exact absurd hx h1
          | cons c cs => rw [hx] at hh; simpa using hh
        exfalso
        have hl := h3 hh
        -- the shorter numeral would be the single digit 0
        cases hx : natChars (fuel + 1) (n / 10) with
        | nil => exact h1 hx
        | cons c cs =>
          rw [hx] at hl hh h4
          simp only [List.length_cons] at hl
          have : cs = [] := List.length_eq_zero_iff.1 (by omega)
          subst this
          simp only [List.head?_cons, Option.some.injEq] at hh
          subst hh
          simp only [List.foldl] at h4
          have h48 : (48 : UInt8).toNat = 48 := rfl
          omega
      · rw [List.foldl_append, h4]
        simp only [List.foldl, digit_toNat (show n % 10 < 10 by omega)]
        omega

theorem natChars_length (fuel n k : Nat) (h : n < 10 ^ (fuel + 1)) :
    (natChars (fuel + 1) n).length ≤ k + 1 ↔ n < 10 ^ (k + 1) := by
  induction fuel generalizing n k with
  | zero =>
    have h10 : n < 10 := by simpa using h
    simp only [natChars, h10, if_true, List.length_singleton]
    have : 10 ^ 1 ≤ 10 ^ (k + 1) := Nat.pow_le_pow_right (by omega) (by omega)
    constructor
    · intro _; omega
    · intro _; omega
  | succ fuel ih =>
    rw [natChars]
    split
    · rename_i h10
      have : 10 ^ 1 ≤ 10 ^ (k + 1) := Nat.pow_le_pow_right (by omega) (by omega)
      simp only [List.length_singleton]
      constructor
      · intro _; omega
      · intro _; omega
    · rename_i h10
      have hlt : n / 10 < 10 ^ (fuel + 1) := by
        rw [Nat.div_lt_iff_lt_mul (by omega)]; rw [Nat.pow_succ] at h; exact h
      rw [List.length_append, List.length_singleton]
      cases k with
      | zero =>
        have hne := (natChars_spec fuel (n / 10) hlt).1
        have : 0 < (natChars (fuel + 1) (n / 10)).length := List.length_pos_iff.2 hne
        constructor
        · intro _; omega
        · intro hh; simp at hh; omega
      | succ k =>
        have := ih (n / 10) k hlt
        rw [Nat.div_lt_iff_lt_mul (by omega), ← Nat.pow_succ] at this
        rw [← this]
        omega

theorem toChars_decimal (n : Int) (h : Is64 n) : Decimal (toChars n) n := by
  unfold Is64 at h
  have hb : n.natAbs < 10 ^ (19 + 1) := by
    have : (10 : Nat) ^ (19 + 1) = 100000000000000000000 := by decide
    omega
  unfold Decimal toChars
  split
  · exact ⟨_, rfl, natChars_spec 19 _ hb⟩
  · exact natChars_spec 19 _ hb

theorem toChars_length (n : Int) (h : Is64 n) :
    ((toChars n).length ≤ 19 ↔ -1000000000000000000 < n) ∧
    ((toChars n).length ≤ 18 ↔ (-100000000000000000 < n ∧ n < 1000000000000000000)) := by
  unfold Is64 at h
  have hb : n.natAbs < 10 ^ (19 + 1) := by
    have : (10 : Nat) ^ (19 + 1) = 100000000000000000000 := by decide
    omega
  have e17 : (10 : Nat) ^ (16 + 1) = 100000000000000000 := by decide
  have e18 : (10 : Nat) ^ (17 + 1) = 1000000000000000000 := by decide
  have e19 : (10 : Nat) ^ (18 + 1) = 10000000000000000000 := by decide
  have h18 := natChars_length 19 n.natAbs 17 hb
  have h17 := natChars_length 19 n.natAbs 16 hb
  have h19 := natChars_length 19 n.natAbs 18 hb
  rw [e18] at h18; rw [e17] at h17; rw [e19] at h19
  simp only [Nat.reduceAdd] at h18 h17 h19
  unfold toChars
  split
  · simp only [List.length_cons]
    constructor
    · constructor
      · intro hh; have := h18.1 (by omega); omega
      · intro hh; have := h18.2 (by omega); omega
    · constructor
      · intro hh; have := h17.1 (by omega); omega
      · intro hh; have := h17.2 (by omega); omega
  · constructor
    · constructor
      · intro hh; omega
      · intro hh; exact h19.2 (by omega)
    · constructor
      · intro hh; have := h18.1 (by omega); omega
      · intro hh; exact h18.2 (by omega)

theorem decimal_ne_nil {s : Str} {n : Int} (h : Decimal s n) : s ≠ [] := by
  unfold Decimal at h
  split at h
  · obtain ⟨t, rfl, _⟩ := h; simp
  · exact h.1

theorem decimal_no_nul {s : Str} {n : Int} (h : Decimal s n) : (0 : UInt8) ∉ s := by
  unfold Decimal at h
  intro h0
  split at h
  · obtain ⟨t, rfl, ht⟩ := h
    simp only [List.mem_cons] at h0
    rcases h0 with h0 | h0
    · exact absurd h0 (by decide)
    · exact absurd (ht.2.1 0 h0).1 (by decide)
  · exact absurd (h.2.1 0 h0).1 (by decide)

theorem decimal_plain {s : Str} {n : Int} (h : Decimal s n) : PlainText s := by
  unfold Decimal at h
  have key : ∀ c : UInt8, 48 ≤ c ∧ c ≤ 57 → 32 ≤ c ∧ c ≠ 34 ∧ c ≠ 92 := by
    intro c hc
    simp only [UInt8.le_iff_toNat_le, ne_eq, ← UInt8.toNat_inj] at *
    have h1 : (48 : UInt8).toNat = 48 := rfl
    have h2 : (57 : UInt8).toNat = 57 := rfl
    have h3 : (32 : UInt8).toNat = 32 := rfl
    have h4 : (34 : UInt8).toNat = 34 := rfl
    have h5 : (92 : UInt8).toNat = 92 := rfl
    omega
  intro c hc
  split at h
  · obtain ⟨t, rfl, ht⟩ := h
    rw [List.mem_cons] at hc
    rcases hc with rfl | hc
    · decide
    · exact key c (ht.2.1 c hc)
  · exact key c (h.2.1 c hc)

theorem numToStr_nineteen {t : Int} (h : NineteenChars t) :
    Is64 t ∧ (toChars t).length = 19 ∧ numToStr t = toChars t := by
  have h64 : Is64 t := by unfold NineteenChars at h; unfold Is64; omega
  have hl := toChars_length t h64
  have hlen : (toChars t).length = 19 := by
    unfold NineteenChars at h
    have h1 := hl.1.2 (by omega)
    have h2 : ¬ (toChars t).length ≤ 18 := fun hh => by have := hl.2.1 hh; omega
    omega
  refine ⟨h64, hlen, ?_⟩
  simp [numToStr, numBufLen, hlen]

/-! ### JSON reading lemmas -/

theorem strBody_plain (s rest : Str) (h : PlainText s) :
    Json.strBody (s ++ 34 :: rest) = some (s, rest) := by
  induction s with
  | nil => simp [Json.strBody]
  | cons c cs ih =>
    obtain ⟨h1, h2, h3⟩ := h c (by simp)
    have hcs : PlainText cs := fun d hd => h d (by simp [hd])
    rw [List.cons_append, Json.strBody.eq_def]
    split <;> simp_all

theorem natLit_decimal (s : Str) (n : Nat) (rest : Str) (h : NatDecimal s n)
    (hr : ∀ c, rest.head? = some c → Json.isDigit c = false) :
    Json.natLit (s ++ rest) = some (n, rest) := by
  obtain ⟨h1, h2, h3, h4⟩ := h
  have hd : ∀ c ∈ s, Json.isDigit c = true := by
    intro c hc
    have := h2 c hc
    simp [Json.isDigit, this.1, this.2]
  have ht : (s ++ rest).takeWhile Json.isDigit = s := by
    rw [List.takeWhile_append_of_pos hd]
    cases rest with
    | nil => simp
    | cons c cs => simp [List.takeWhile, hr c rfl]
  have hdr : (s ++ rest).dropWhile Json.isDigit = rest := by
    rw [List.dropWhile_append_of_pos hd]
    cases rest with
    | nil => simp
    | cons c cs => simp [List.dropWhile, hr c rfl]
  unfold Json.natLit
  simp only [ht, hdr]
  have he : s.isEmpty = false := by simpa using h1
  simp only [he]
  have hh : (s.head? == some 48 && s.length != 1) = false := by
    by_cases hx : s.head? = some 48
    · simp [hx, h3 hx]
    · simp [hx]
  rw [hh]
  simp [Json.digitsVal, h4]

theorem decimal_head {s : Str} {n : Int} (h : Decimal s n) :
    ∃ c t, s = c :: t ∧ (c = 45 ∨ (48 ≤ c ∧ c ≤ 57)) := by
  unfold Decimal at h
  split at h
  · obtain ⟨t, rfl, ht⟩ := h; exact ⟨45, t, rfl, .inl rfl⟩
  · cases s with
    | nil => exact absurd rfl h.1
    | cons c t => exact ⟨c, t, rfl, .inr (h.2.1 c (by simp))⟩

theorem intLit_decimal (s : Str) (n : Int) (rest : Str) (h : Decimal s n)
    (hr : ∀ c, rest.head? = some c → Json.isDigit c = false) :
    Json.intLit (s ++ rest) = some (n, rest) := by
  unfold Decimal at h
  split at h
  · rename_i hn
    obtain ⟨t, rfl, ht⟩ := h
    simp only [List.cons_append, Json.intLit, natLit_decimal t _ rest ht hr]
    simp; omega
  · rename_i hn
    obtain ⟨h1, h2, h3, h4⟩ := h
    have hne : ∀ t, s ++ rest ≠ 45 :: t := by
      intro t ht
      cases s with
      | nil => exact h1 rfl
      | cons c cs =>
        simp only [List.cons_append, List.cons.injEq] at ht
        have := (h2 c (by simp)).1
        rw [ht.1] at this
        exact absurd this (by decide)
    unfold Json.intLit
    split
    · rename_i t ht; exact absurd ht (hne t)
    · rw [natLit_decimal s _ rest ⟨h1, h2, h3, h4⟩ hr]
      simp; omega

theorem value_str (fuel : Nat) (s rest : Str) (h : PlainText s) :
    Json.value (fuel + 1) (34 :: s ++ 34 :: rest) = some (.str s, rest) := by
  simp only [List.cons_append, Json.value, strBody_plain s rest h]
  rfl

theorem value_num (fuel : Nat) (s : Str) (n : Int) (rest : Str) (h : Decimal s n)
    (hr : ∀ c, rest.head? = some c → Json.isDigit c = false) :
    Json.value (fuel + 1) (s ++ rest) = some (.num n, rest) := by
  obtain ⟨c, t, hs, hc⟩ := decimal_head h
  have hi := intLit_decimal s n rest h hr
  subst hs
  rw [List.cons_append] at *
  have hne : c ≠ 110 ∧ c ≠ 34 ∧ c ≠ 123 := by
    rcases hc with rfl | ⟨ha, hb⟩
    · decide
    · refine ⟨?_, ?_, ?_⟩ <;> (rintro rfl; revert ha hb; decide)
  rw [Json.value.eq_def]
  split
  · contradiction
  · rename_i _ heq; simp only [List.cons.injEq] at heq; exact absurd heq.1 hne.1
  · rename_i _ heq; simp only [List.cons.injEq] at heq; exact absurd heq.1 hne.2.1
  · rename_i _ heq; simp only [List.cons.injEq] at heq; exact absurd heq.1 hne.2.2
  · rename_i _ heq; simp only [List.cons.injEq] at heq; exact absurd heq.1 hne.2.2
  · simp [hi]

/-- One member followed by another. -/
theorem members_more (fuel : Nat) (k : Str) (hk : PlainText k) (v : Json) (ms : List (Str × Json))
    (text rest rest' : Str)
    (hv : Json.value fuel text = some (v, 44 :: rest))
    (hm : Json.members fuel rest = some (ms, rest')) :
    Json.members (fuel + 1) (34 :: k ++ 34 :: 58 :: text) = some ((k, v) :: ms, rest') := by
  simp only [List.cons_append, Json.members, strBody_plain k (58 :: text) hk, hv, hm]
  rfl

/-- The last member. -/
theorem members_last (fuel : Nat) (k : Str) (hk : PlainText k) (v : Json)
    (text rest : Str)
    (hv : Json.value fuel text = some (v, 125 :: rest)) :
    Json.members (fuel + 1) (34 :: k ++ 34 :: 58 :: text) = some ([(k, v)], rest) := by
  simp only [List.cons_append, Json.members, strBody_plain k (58 :: text) hk, hv]

/-- An object whose first member starts with a quote. -/
theorem value_obj (fuel : Nat) (text rest : Str) (ms : List (Str × Json))
    (hm : Json.members fuel (34 :: text) = some (ms, rest)) :
    Json.value (fuel + 1) (123 :: 34 :: text) = some (.obj ms, rest) := by
  rw [Json.value.eq_def]
  simp [hm]

theorem effect_str (e : EffectType) : e.str = effectName e := by cases e <;> rfl
theorem ptype_str (p : PathType) : p.str = pathTypeName p := by cases p <;> rfl
theorem effect_code (e : EffectType) : effectNameOfInt id (e.toNat : Int) = effectName e := by
  cases e <;> rfl
theorem ptype_code (p : PathType) : pathNameOfInt id (p.toNat : Int) = pathTypeName p := by
  cases p <;> rfl
theorem effectName_plain (e : EffectType) : PlainText (effectName e) := by cases e <;> decide
theorem pathTypeName_plain (p : PathType) : PlainText (pathTypeName p) := by cases p <;> decide

theorem decimal_unique {s : Str} {m n : Int} (hm : Decimal s m) (hn : Decimal s n) : m = n := by
  have hno : ∀ t k, ¬ NatDecimal (45 :: t) k := by
    intro t k hk
    exact absurd (hk.2.1 45 (by simp)).1 (by decide)
  unfold Decimal at hm hn
  split at hm <;> split at hn
  · obtain ⟨t, rfl, ht⟩ := hm
    obtain ⟨t', h', ht'⟩ := hn
    simp only [List.cons.injEq, true_and] at h'
    subst h'
    have := ht.2.2.2.symm.trans ht'.2.2.2
    omega
  · obtain ⟨t, rfl, ht⟩ := hm; exact absurd hn (hno _ _)
  · obtain ⟨t, rfl, ht⟩ := hn; exact absurd hm (hno _ _)
  · have := hm.2.2.2.symm.trans hn.2.2.2
    omega

/-- Induction over chains of associated events. -/
theorem eventInduction {motive : Event → Prop}
    (leaf : ∀ p e t tm, motive (.mk p e t tm none))
    (node : ∀ p e t tm a, motive a → motive (.mk p e t tm (some a))) : ∀ ev, motive ev
  | .mk p e t tm none => leaf p e t tm
  | .mk p e t tm (some a) => node p e t tm a (eventInduction leaf node a)

end Verif.Lemmas
