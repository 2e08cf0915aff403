import Verif.Model.Bindings
import Verif.Spec.Bindings
import Verif.Lemmas.Text
/-! Helper lemmas for the bindings. -/

namespace Verif.Lemmas.Bind
open Verif Verif.Model Verif.Model.Bind Verif.Spec Verif.Spec.Bind

theorem cRead_eq {s : Str} (h : NoNul s) : cRead s = s := by
  unfold cRead
  induction s with
  | nil => rfl
  | cons c cs ih =>
    have hc : c ≠ 0 := by intro e; exact h (by simp [e])
    have hcs : NoNul cs := fun m => h (by simp [m])
    rw [List.takeWhile_cons_of_pos (by simpa using hc), ih hcs]

theorem cRead_noNul (s : Str) : NoNul (cRead s) := by
  unfold cRead NoNul
  intro h
  induction s with
  | nil => simp at h
  | cons c cs ih =>
    by_cases hc : c = 0
    · subst hc; simp at h
    · rw [List.takeWhile_cons_of_pos (by simpa using hc)] at h
      rcases List.mem_cons.mp h with e | e
      · exact hc e.symm
      · exact ih e

theorem cRead_iff (s : Str) : cRead s = s ↔ NoNul s :=
  ⟨fun h => h ▸ cRead_noNul s, cRead_eq⟩

theorem cRead_prefix (s : Str) : cRead s <+: s := List.takeWhile_prefix _

/-! ### Doubles -/

theorem log2_bounds {n : Nat} (h : n ≠ 0) : 2 ^ n.log2 ≤ n ∧ n < 2 ^ (n.log2 + 1) :=
  ⟨Nat.log2_self_le h, Nat.lt_log2_self⟩

/-- The number of bits cut off. -/
def cutBits (n : Nat) : Nat := n.log2 + 1 - 53

theorem cut_hi (n : Nat) : n < 2 ^ (53 + cutBits n) := by
  by_cases h : n = 0
  · subst h; exact Nat.two_pow_pos _
  · have := (log2_bounds h).2
    refine Nat.lt_of_lt_of_le this (Nat.pow_le_pow_right (by omega) ?_)
    unfold cutBits; omega

theorem cut_lo {n : Nat} (h : 0 < cutBits n) : 2 ^ (52 + cutBits n) ≤ n := by
  have h0 : n ≠ 0 := by rintro rfl; simp [cutBits] at h
  refine Nat.le_trans (Nat.pow_le_pow_right (by omega) ?_) (log2_bounds h0).1
  unfold cutBits at h ⊢; omega

theorem cut_zero {n : Nat} (h : n < 2 ^ 53) : cutBits n = 0 := by
  rcases Nat.eq_zero_or_pos (cutBits n) with e | e
  · exact e
  · have := cut_lo e
    have h2 : (2 : Nat) ^ 53 ≤ 2 ^ (52 + cutBits n) := Nat.pow_le_pow_right (by omega) (by omega)
    omega

theorem nd_cases (n : Nat) :
    (natToDouble n = n / 2 ^ cutBits n * 2 ^ cutBits n ∧ 2 * (n % 2 ^ cutBits n) ≤ 2 ^ cutBits n) ∨
    (natToDouble n = (n / 2 ^ cutBits n + 1) * 2 ^ cutBits n ∧ 2 ^ cutBits n ≤ 2 * (n % 2 ^ cutBits n)) := by
  have e : natToDouble n = 2 ^ cutBits n * (if 2 * (n % 2 ^ cutBits n) < 2 ^ cutBits n then n / 2 ^ cutBits n
      else if 2 ^ cutBits n < 2 * (n % 2 ^ cutBits n) then n / 2 ^ cutBits n + 1
      else if n / 2 ^ cutBits n % 2 = 0 then n / 2 ^ cutBits n else n / 2 ^ cutBits n + 1) := rfl
  rw [e, Nat.mul_comm]
  split
  · exact .inl ⟨rfl, by omega⟩
  · split
    · exact .inr ⟨rfl, by omega⟩
    · split
      · exact .inl ⟨rfl, by omega⟩
      · exact .inr ⟨rfl, by omega⟩

theorem q_lt (n : Nat) : n / 2 ^ cutBits n < 2 ^ 53 := by
  rw [Nat.div_lt_iff_lt_mul (Nat.two_pow_pos _), ← Nat.pow_add]; exact cut_hi n

theorem nd_form (n : Nat) : ∃ c, c ≤ 2 ^ 53 ∧ natToDouble n = c * 2 ^ cutBits n := by
  have := q_lt n
  rcases nd_cases n with ⟨h, _⟩ | ⟨h, _⟩
  · exact ⟨_, by omega, h⟩
  · exact ⟨_, by omega, h⟩

/-- Between two neighbouring multiples there is no double. -/
theorem no_double_between (n c e : Nat) (hc : c ≤ 2 ^ 53) :
    c * 2 ^ e ≤ n / 2 ^ cutBits n * 2 ^ cutBits n ∨ (n / 2 ^ cutBits n + 1) * 2 ^ cutBits n ≤ c * 2 ^ e := by
  generalize hk : cutBits n = k
  by_cases he : k ≤ e
  · obtain ⟨j, rfl⟩ : ∃ j, e = j + k := ⟨e - k, by omega⟩
    rw [Nat.pow_add, ← Nat.mul_assoc]
    by_cases hq : c * 2 ^ j ≤ n / 2 ^ k
    · exact .inl (Nat.mul_le_mul_right _ hq)
    · exact .inr (Nat.mul_le_mul_right _ (by omega))
  · left
    have hlo := cut_lo (n := n) (by omega)
    rw [hk] at hlo
    have h1 : 2 ^ 52 ≤ n / 2 ^ k := by
      rw [Nat.le_div_iff_mul_le (Nat.two_pow_pos _), ← Nat.pow_add]; exact hlo
    calc c * 2 ^ e ≤ 2 ^ 53 * 2 ^ (k - 1) := Nat.mul_le_mul hc (Nat.pow_le_pow_right (by omega) (by omega))
      _ = 2 ^ 52 * 2 ^ k := by
        rw [← Nat.pow_add, ← Nat.pow_add]; congr 1; omega
      _ ≤ _ := Nat.mul_le_mul_right _ h1

theorem nd_error (n : Nat) :
    2 * ((natToDouble n : Int) - n) ≤ 2 ^ cutBits n ∧ 2 * ((n : Int) - natToDouble n) ≤ 2 ^ cutBits n := by
  have hd := Nat.div_add_mod n (2 ^ cutBits n)
  have hm := Nat.mod_lt n (Nat.two_pow_pos (cutBits n))
  rw [Nat.mul_comm] at hd
  have hpos := Nat.two_pow_pos (cutBits n)
  rcases nd_cases n with ⟨h, hr⟩ | ⟨h, hr⟩
  · rw [h]; generalize hx : n / 2 ^ cutBits n * 2 ^ cutBits n = x at *
    have : ((2 : Int) ^ cutBits n) = ((2 ^ cutBits n : Nat) : Int) := by push_cast; rfl
    rw [this]; omega
  · rw [h, Nat.add_mul, Nat.one_mul]; generalize hx : n / 2 ^ cutBits n * 2 ^ cutBits n = x at *
    have : ((2 : Int) ^ cutBits n) = ((2 ^ cutBits n : Nat) : Int) := by push_cast; rfl
    rw [this]; omega

/-- Nothing representable is nearer. -/
theorem nd_nearest (n c e : Nat) (hc : c ≤ 2 ^ 53) :
    ((n : Int) - natToDouble n).natAbs ≤ ((n : Int) - (c * 2 ^ e : Nat)).natAbs := by
  have hd := Nat.div_add_mod n (2 ^ cutBits n)
  have hm := Nat.mod_lt n (Nat.two_pow_pos (cutBits n))
  rw [Nat.mul_comm] at hd
  have hb := no_double_between n c e hc
  generalize c * 2 ^ e = d at *
  rw [Nat.add_mul, Nat.one_mul] at hb
  rcases nd_cases n with ⟨h, hr⟩ | ⟨h, hr⟩
  · rw [h]; generalize n / 2 ^ cutBits n * 2 ^ cutBits n = x at *
    omega
  · rw [h, Nat.add_mul, Nat.one_mul]; generalize n / 2 ^ cutBits n * 2 ^ cutBits n = x at *
    omega

theorem toDouble_isDouble (n : Int) : IsDouble (toDouble n) := by
  obtain ⟨c, hc, h⟩ := nd_form n.natAbs
  refine ⟨c, cutBits n.natAbs, hc, ?_⟩
  rw [← h]
  unfold toDouble
  split <;> omega

theorem toDouble_nearest (n d : Int) (hd : IsDouble d) : (n - toDouble n).natAbs ≤ (n - d).natAbs := by
  obtain ⟨c, e, hc, h⟩ := hd
  have h1 := nd_nearest n.natAbs c e hc
  rw [← h] at h1
  have h0 := nd_nearest n.natAbs 0 0 (by omega)
  unfold toDouble
  split
  · omega
  · omega

theorem toDouble_exact (n : Int) (h : IsDouble n) : toDouble n = n := by
  have := toDouble_nearest n n h
  omega

theorem toDouble_mono (m n : Int) (h : m ≤ n) : toDouble m ≤ toDouble n := by
  have h1 := toDouble_nearest m _ (toDouble_isDouble n)
  have h2 := toDouble_nearest n _ (toDouble_isDouble m)
  rcases Int.lt_or_eq_of_le h with hlt | rfl
  · omega
  · omega

theorem cutBits_le {n k : Nat} (h : n < 2 ^ (53 + k)) : cutBits n ≤ k := by
  rcases Nat.eq_zero_or_pos (cutBits n) with e | e
  · omega
  · have := cut_lo e
    have h3 : 2 ^ (52 + cutBits n) < 2 ^ (53 + k) := Nat.lt_of_le_of_lt this h
    have := (Nat.pow_lt_pow_iff_right (a := 2) (by omega)).mp h3
    omega

theorem toDouble_error (n : Int) (k : Nat) (h : n.natAbs < 2 ^ (53 + k)) :
    2 * (n - toDouble n).natAbs ≤ 2 ^ k := by
  have he := nd_error n.natAbs
  have hk : 2 ^ cutBits n.natAbs ≤ 2 ^ k := Nat.pow_le_pow_right (by omega) (cutBits_le h)
  have hz : ((2 : Int) ^ cutBits n.natAbs) = ((2 ^ cutBits n.natAbs : Nat) : Int) := by push_cast; rfl
  rw [hz] at he
  unfold toDouble
  split <;> omega

end Verif.Lemmas.Bind
