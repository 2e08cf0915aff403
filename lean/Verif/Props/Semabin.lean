import Verif.Spec.Semabin
/-!
# Properties of the stop signal (C07, C08)
-/

namespace Verif.Props
open Verif Verif.Model Verif.Spec

private theorem early {σ : Type} (rel st : σ → SemState × σ) (init : σ)
    (h : st init = (.pending, init)) : NeverEarly rel st init := by
  intro before after hb
  induction before with
  | nil => simp
  | cons op before ih =>
    cases op with
    | release => simp at hb
    | query =>
      simp only [List.cons_append, answers, h, List.length_cons, List.take_succ_cons, List.mem_cons]
      rintro x (rfl | hx)
      · rfl
      · exact ih (by simpa using hb) x hx

/-- C07: on every platform (on Linux also when the descriptor could not be made), the stop signal is
never reported before it was given. -/
theorem C07_never_early :
    (∀ ok, NeverEarly SB.release SB.state { fdOk := ok }) ∧
    NeverEarly DarwinSem.release DarwinSem.state {} ∧
    NeverEarly FlagSem.release FlagSem.state {} :=
  ⟨fun _ => early _ _ _ rfl, early _ _ _ rfl, early _ _ _ rfl⟩

/-- Given or not: how often the worker of a Darwin watch can pass `dispatch_semaphore_wait` on the stop signal after a history of calls. -/
private theorem darwin_signals : ∀ (h : List SigOp) (s : DarwinSem), s.is ≠ .error →
    (after DarwinSem.release DarwinSem.state s h).signals = s.signals + (if SigOp.release ∈ h ∧ s.is = .pending then 1 else 0) := by
  intro h
  induction h with
  | nil => intro s _; simp [after]
  | cons op h ih =>
    intro s hs
    cases op with
    | query => simp only [after, DarwinSem.state]; rw [ih s hs]; simp
    | release =>
      simp only [after, DarwinSem.release]
      split
      · rename_i hp; rw [ih _ (by simp)]; simp [hp]
      · rename_i hp; rw [ih s hs]; simp [hp]

/-- C07: on Darwin the worker waiting for the stop signal is woken exactly if it was given, and once, however often it was
given. -/
theorem C07_darwin_wakes_once (h : List SigOp) :
    (after DarwinSem.release DarwinSem.state {} h).signals = if SigOp.release ∈ h then 1 else 0 := by
  rw [darwin_signals h {} (by simp)]; simp

example : (after DarwinSem.release DarwinSem.state {} [.query, .release, .release, .query]).signals = 1 := by decide

-- three queries and then a release
example : answers SB.release SB.state {} [.query, .query, .query, .release]
    = [(.query, .pending), (.query, .pending), (.query, .pending), (.release, .released)] := by decide

/-- C08 is false on Linux: the first query after a release takes the token out of the eventfd, the
second one answers pending again. -/
theorem C08_linux_refuted : ¬ StaysReleased SB.release SB.state {} := by
  intro h
  have := h [] [.query, .query] ⟨(.release, .released), by decide, rfl⟩ (.query, .pending) (by decide) rfl
  cases this

private theorem stays {σ : Type} (rel st : σ → SemState × σ) (inv good : σ → Prop)
    (hrel : ∀ s, inv s → good (rel s).2) (hgi : ∀ s, good s → inv s)
    (hst : ∀ s, inv s → inv (st s).2)
    (hgs : ∀ s, good s → (st s).1 = .released ∧ good (st s).2) (init : σ) (hinit : inv init) :
    StaysReleased rel st init := by
  have all : ∀ (h : List SigOp) (s : σ), good s → ∀ x ∈ answers rel st s h, x.1 = .query → x.2 = .released := by
    intro h
    induction h with
    | nil => intro s _ x hx; cases hx
    | cons op h ih =>
      intro s hs x hx
      cases op with
      | release =>
        simp only [answers, List.mem_cons] at hx
        rcases hx with rfl | hx
        · intro hq; cases hq
        · exact ih _ (hrel s (hgi s hs)) x hx
      | query =>
        simp only [answers, List.mem_cons] at hx
        rcases hx with rfl | hx
        · intro _; exact (hgs s hs).1
        · exact ih _ (hgs s hs).2 x hx
  intro before after _
  induction before generalizing init with
  | nil =>
    intro x hx
    simp only [List.nil_append, List.length_nil, List.drop_zero, answers, List.mem_cons] at hx
    rcases hx with rfl | hx
    · intro hq; cases hq
    · exact all after _ (hrel init hinit) x hx
  | cons op before ih =>
    cases op with
    | release =>
      have := ih (rel init).2 (hgi _ (hrel init hinit))
      intro x hx
      simp only [List.cons_append, answers, List.length_cons, List.drop_succ_cons] at hx
      exact this (by assumption) x hx
    | query =>
      have := ih (st init).2 (hst _ hinit)
      intro x hx
      simp only [List.cons_append, answers, List.length_cons, List.drop_succ_cons] at hx
      exact this (by assumption) x hx

/-- C08 (partial: Darwin and the portable signal; the Linux signal is refuted above). -/
theorem C08_stays_released_partial :
    StaysReleased DarwinSem.release DarwinSem.state {} ∧
    StaysReleased FlagSem.release FlagSem.state {} := by
  constructor
  · refine stays _ _ (fun s => s.is ≠ .error) (fun s => s.is = .released) ?_ ?_ ?_ ?_ _ (by decide)
    · intro s hs; simp only [DarwinSem.release]; split
      · rfl
      · cases h : s.is <;> simp_all
    · intro s hs; simp [hs]
    · intro s hs; exact hs
    · intro s hs; exact ⟨hs, hs⟩
  · exact stays _ _ (fun _ => True) (fun s => s.is = .released) (fun _ _ => rfl) (fun _ _ => trivial)
      (fun _ _ => trivial) (fun s hs => ⟨hs, hs⟩) _ trivial

/-- C08 (partial, Linux): after a successful release of a signal on which nobody had seen the release
yet, the next query answers released, and until then any number of further releases changes nothing. -/
theorem C08_linux_next_query_partial (s : SB) (hok : s.fdOk = true) (hs : s.is ≠ .released) (n : Nat) :
    s.release.1 = .released ∧
    (Nat.repeat (fun t : SB => t.release.2) n s.release.2) = s.release.2 ∧
    s.release.2.state.1 = .released := by
  have hr : s.release = (.released, { s with is := .released, count := s.count + 1 }) := by
    simp [SB.release, SB.writeEv, hs, hok]
  refine ⟨by rw [hr], ?_, ?_⟩
  · induction n with
    | zero => rfl
    | succ n ih => simp only [Nat.repeat, ih]; rw [hr]; simp [SB.release]
  · rw [hr]; simp [SB.state, SB.readEv, hok]

example : ({} : SB).fdOk = true ∧ ({} : SB).is ≠ .released := ⟨rfl, by decide⟩

end Verif.Props
