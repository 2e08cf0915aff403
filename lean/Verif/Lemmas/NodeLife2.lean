import Verif.Lemmas.NodeLife
import Verif.Lemmas.Lifecycle3
/-!
# `close()` in Node.js ends
-/

namespace Verif.Lemmas.NodeLife
open Verif Verif.Model Verif.Model.Life Verif.Model.Handle Verif.Model.NodeLife Verif.Spec Verif.Spec.Hd Verif.Spec.Node
open Verif.Lemmas.Life Verif.Lemmas.Handle

/-- Steps the calling thread can still make in `wtr_watcher_close`. -/
def oCost : OPc → Nat
  | .idle | .gone => 0
  | .dtorFd => 1
  | .dtorFuture => 2
  | .dtorClosing c => 2 + closeCost c
  | .closing c => 8 + closeCost c

theorem oCost_ostep {s s' : St} (hs : oStep s = some s') : oCost s'.o + 1 ≤ oCost s.o ∧ (s'.o = .idle → oCost s.o ≥ 9) := by
  simp only [oStep] at hs
  split at hs
  · rename_i c hc
    cases h : closeStep s c with
    | none => rw [h] at hs; simp at hs
    | some p =>
      rw [h] at hs
      obtain ⟨s1, r⟩ := p
      have hpos : 1 ≤ closeCost c := by cases c <;> simp [closeCost]
      cases r with
      | inl c' => simp at hs; subst hs; have := closeStep_cost h; simp [oCost, hc]; omega
      | inr b => simp at hs; subst hs; simp [oCost, hc]; omega
  · rename_i c hc
    cases h : closeStep s c with
    | none => rw [h] at hs; simp at hs
    | some p =>
      rw [h] at hs
      obtain ⟨s1, r⟩ := p
      have hpos : 1 ≤ closeCost c := by cases c <;> simp [closeCost]
      cases r with
      | inl c' => simp at hs; subst hs; have := closeStep_cost h; simp [oCost, hc]; omega
      | inr b => simp at hs; subst hs; simp [oCost, hc]; omega
  · rename_i hc
    split at hs
    · split at hs
      · simp at hs
      · simp at hs; subst hs; simp [oCost, hc]
    · simp at hs; subst hs; simp [oCost, hc]
  · rename_i hc; simp at hs; subst hs; simp [oCost, hc]
  · simp at hs

/-- What a quiet step inside the library costs, for both threads together. -/
theorem quiet_hstep {cfg : Cfg} {h h' : H} {a : Act} (hv : HInv cfg h) (hq : Quiet a) (hs : hstep cfg h (.life a) = .ok (some h')) :
    1 + (cost h'.life.w + oCost h'.life.o) ≤ cost h.life.w + oCost h.life.o + openCost a := by
  simp only [hstep] at hs
  split at hs
  · rename_i hin
    cases hl : step cfg h.life a with
    | none => rw [hl] at hs; simp at hs
    | some l =>
      rw [hl] at hs; simp at hs; subst hs
      rw [settle_w]
      simp only
      have hc := quiet_cost hq hl
      -- what `settle` adds
      have hset : oCost (settle cfg { h with life := l }).life.o ≤ oCost l.o + (if l.o = .idle then (if h.inC = true then 7 else 0) else 0) := by
        simp only [settle]
        split
        · exact Nat.le_add_right _ _
        · rename_i hC
          simp at hC
          split
          · rename_i ho
            split
            · split
              · rename_i hd
                simp only [step, ho] at hd
                simp at hd
                subst hd
                simp [oCost, closeCost, ho]
              · simp
            · simp
          · simp
          · simp
      by_cases hw : isWorker a = true
      · rw [hw] at hc
        have ho := (worker_owner hw hl).1
        have : oCost (settle cfg { h with life := l }).life.o ≤ oCost h.life.o := by
          rcases Bool.eq_false_or_eq_true h.inC with hC | hC
          rotate_left
          · rw [settle_same (h := { h with life := l }) hC]; simp only [ho]; exact Nat.le_refl _
          · have hni : l.o ≠ .idle := by
              rw [ho]
              intro hid
              obtain ⟨_, _, h3⟩ := hv.inn hC
              rcases h3 with ⟨c, h3, _⟩ | ⟨h3, _⟩
              · rw [hid] at h3; cases h3
              · rw [hid] at h3; cases h3
            simp [hni] at hset
            rw [← ho]; exact hset
        simp at hc; omega
      · have hw' : isWorker a = false := by simpa using hw
        rw [hw'] at hc
        cases a <;> simp [isWorker] at hw' <;> simp [inner] at hin
        have hoo := oCost_ostep (by simpa [step] using hl)
        simp [openCost] at hc ⊢
        by_cases hi : l.o = .idle
        · have := hoo.2 hi
          simp [hi] at hset
          have : oCost l.o = 0 := by rw [hi]; rfl
          split at hset <;> simp [hi, oCost] at hset this hoo ⊢ <;> omega
        · simp [hi] at hset; omega
  · simp at hs

/-- A call of `wtr_watcher_close` is never stuck, unless the watcher's thread is in its own `close()`. -/
theorem hclose_progress {cfg : Cfg} {h : H} (hv : HInv cfg h) (hC : h.inC = true) (hp : ∀ c k, h.life.w ≠ .selfClose c k) :
    ∃ a h', Quiet a ∧ inner a = true ∧ openCost a = 0 ∧ hstep cfg h (.life a) = .ok (some h') := by
  have own : (oStep h.life).isSome = true → ∃ a h', Quiet a ∧ inner a = true ∧ openCost a = 0 ∧ hstep cfg h (.life a) = .ok (some h') := by
    intro ho
    obtain ⟨l, hl⟩ := Option.isSome_iff_exists.1 ho
    exact ⟨.o, _, trivial, rfl, rfl, by simp [hstep, inner, step, hl]; rfl⟩
  have wrk : h.life.w ≠ .finished → ReleaseReturned h.life →
      ∃ a h', Quiet a ∧ inner a = true ∧ openCost a = 0 ∧ hstep cfg h (.life a) = .ok (some h') := by
    intro hw hr
    obtain ⟨a, l, h1, h2, h3, h4⟩ := worker_progress_any hv.reach (fun hfd => returned_released hfd hv.reach hr) hw hp
    have hin : inner a = true := by cases a <;> simp [isWorker] at h1 <;> rfl
    exact ⟨a, _, h2, hin, h3, by simp [hstep, hin, h4]; rfl⟩
  have hf := fut_reachable hv.reach
  have fin : h.life.fut = none → h.life.w ≠ .finished := fun g => hf.f1.1 g
  have cls : ∀ c, c ≠ .get → ∃ s r, closeStep h.life c = some (s, r) := by
    intro c hc
    cases c <;> simp only [closeStep]
    · split <;> exact ⟨_, _, rfl⟩
    · exact ⟨_, _, rfl⟩
    · exact ⟨_, _, rfl⟩
    · split
      · exact ⟨_, _, rfl⟩
      · split <;> exact ⟨_, _, rfl⟩
    · exact absurd rfl hc
  obtain ⟨_, _, h3⟩ := hv.inn hC
  cases ho : h.life.o with
  | idle =>
    rcases h3 with ⟨c, h3, _⟩ | ⟨h3, _⟩
    · rw [ho] at h3; cases h3
    · rw [ho] at h3; cases h3
  | gone =>
    rcases h3 with ⟨c, h3, _⟩ | ⟨_, h3, _⟩
    · rw [ho] at h3; cases h3
    · exact absurd ho h3
  | dtorFd => exact own (by simp [oStep, ho])
  | dtorFuture =>
    cases hfut : h.life.fut with
    | some b => exact own (by simp only [oStep, ho, hfut]; split <;> rfl)
    | none => exact wrk (fin hfut) (by simp [ReleaseReturned, ho])
  | closing c =>
    by_cases hc : c = .get
    · subst hc
      cases hfut : h.life.fut with
      | some b => exact own (by simp [oStep, ho, closeStep, hfut])
      | none => exact wrk (fin hfut) (by simp [ReleaseReturned, ho])
    · obtain ⟨s, r, hr⟩ := cls c hc
      exact own (by cases r <;> simp [oStep, ho, hr])
  | dtorClosing c =>
    by_cases hc : c = .get
    · subst hc
      cases hfut : h.life.fut with
      | some b => exact own (by simp [oStep, ho, closeStep, hfut])
      | none => exact wrk (fin hfut) (by simp [ReleaseReturned, ho])
    · obtain ⟨s, r, hr⟩ := cls c hc
      exact own (by cases r <;> simp [oStep, ho, hr])

end Verif.Lemmas.NodeLife
