import Verif.Base
/-! Facts about masks. -/
namespace Verif.Lemmas
open Verif

theorem anyBit_or {n} (m a b : BitVec n) : anyBit m (a ||| b) = (anyBit m a || anyBit m b) := by
  unfold anyBit
  rw [Bool.eq_iff_iff]
  simp only [bne_iff_ne, ne_eq, Bool.or_eq_true]
  constructor
  · intro h
    by_cases h1 : m &&& a = 0#n
    · by_cases h2 : m &&& b = 0#n
      · exfalso; apply h
        rw [BitVec.and_or_distrib_left]
        simp [h1, h2]
      · exact .inr h2
    · exact .inl h1
  · rintro (h | h) h'
    · apply h
      rw [BitVec.eq_of_getLsbD_eq_iff] at *
      intro i hi
      have := h' i hi
      simp at this ⊢
      exact fun hm => (this hm).1
    · apply h
      rw [BitVec.eq_of_getLsbD_eq_iff] at *
      intro i hi
      have := h' i hi
      simp at this ⊢
      exact fun hm => (this hm).2

theorem anyBit_pow {n} (m : BitVec n) (i : Nat) (hi : i < n) : anyBit m (BitVec.twoPow n i) = m.getLsbD i := by
  unfold anyBit
  rw [BitVec.and_twoPow]
  cases h : m.getLsbD i
  · simp
  · have : BitVec.twoPow n i ≠ 0#n := by
      intro h
      have := congrArg (fun x => x.getLsbD i) h
      simp [hi] at this
    simp [this]

end Verif.Lemmas
