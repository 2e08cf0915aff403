import Verif.Spec.Lifecycle
/-! Invariants of the lifecycle model. -/

namespace Verif.Lemmas.Life
open Verif Verif.Model Verif.Model.Life Verif.Spec

theorem callbacks_append (a b : List Obs) : callbacks (a ++ b) = callbacks a ++ callbacks b := by
  induction a with
  | nil => rfl
  | cons o l ih => cases o <;> simp [callbacks, ih]

theorem run_append (cfg : Cfg) (as bs : List Act) (s : St) :
    run cfg s (as ++ bs) = (run cfg s as).bind (fun s' => run cfg s' bs) := by
  induction as generalizing s with
  | nil => rfl
  | cons a as ih =>
    simp only [List.cons_append, run]
    cases step cfg s a with
    | none => rfl
    | some s' => exact ih s'

theorem run_induct {cfg : Cfg} {P : St → Prop}
    (hstep : ∀ s a s', P s → step cfg s a = some s' → P s') :
    ∀ (acts : List Act) (s s' : St), P s → run cfg s acts = some s' → P s' := by
  intro acts
  induction acts with
  | nil => intro s s' h hr; simp only [run, Option.some.injEq] at hr; exact hr ▸ h
  | cons a as ih =>
    intro s s' h hr
    simp only [run] at hr
    cases hs : step cfg s a with
    | none => simp [hs] at hr
    | some s1 => rw [hs] at hr; exact ih s1 s' (hstep s a s1 h hs) hr

theorem reachable_induct {cfg : Cfg} {P : St → Prop} (h0 : P (init cfg))
    (hstep : ∀ s a s', P s → step cfg s a = some s' → P s') (s : St) (h : Reachable cfg s) : P s := by
  obtain ⟨acts, ha⟩ := h
  exact run_induct hstep acts _ _ h0 ha

theorem reachable_run {cfg : Cfg} {s s' : St} {acts : List Act} (h : Reachable cfg s)
    (hr : run cfg s acts = some s') : Reachable cfg s' := by
  obtain ⟨as, ha⟩ := h
  refine ⟨as ++ acts, ?_⟩
  rw [run_append, ha]; exact hr

theorem reachable_step {cfg : Cfg} {s s' : St} {a : Act} (h : Reachable cfg s)
    (hr : step cfg s a = some s') : Reachable cfg s' :=
  reachable_run (acts := [a]) h (by simp [run, hr])

/-- Running events: live and then what the back end delivers. -/
def Running (cfg : Cfg) (l : List Ev) : Prop :=
  cfg.dirOk = true ∧ ∃ mids, l = liveEv cfg.path true :: mids ∧ ∀ m ∈ mids, isMid m = true

def Failed (cfg : Cfg) (l : List Ev) : Prop :=
  cfg.dirOk = true ∧ ∃ mids r, l = liveEv cfg.path true :: (mids ++ [sendMsg r cfg.path]) ∧
    r.isError = true ∧ ∀ m ∈ mids, isMid m = true

def Fin (cfg : Cfg) (b : Bool) (l : List Ev) : Prop :=
  (b = true ∧ ∃ l', Running cfg l' ∧ l = l' ++ [dieEv cfg.path true]) ∨
  (b = false ∧ ∃ l', (l' = [liveEv cfg.path false] ∨ Failed cfg l') ∧ l = l' ++ [dieEv cfg.path false])

/-- What the callback has seen when the worker is at `w`. -/
def Shape (cfg : Cfg) : WPc → List Ev → Prop
  | .start, l => l = []
  | .stLoad, l | .stRead, l | .stStore _, l => l = [] ∧ cfg.dirOk = true
  | .live pre, l => l = [] ∧ (pre = true → cfg.dirOk = true)
  | .aOpen _, l | .aWait _, l => Running cfg l
  | .aEvs _ evs _ items, l => Running cfg l ∧ (∀ m ∈ evs, isMid m = true) ∧ itemsOk items = true
  | .aItems _ _ items, l => Running cfg l ∧ itemsOk items = true
  | .aDone _ r, l => Running cfg l ∧ (r = .complete ∨ r.isError = true)
  | .die true true, l => Running cfg l
  | .die true false, l => Failed cfg l
  | .die false post, l => post = false ∧ l = [liveEv cfg.path false]
  | .setFut b, l => Fin cfg b l
  | .finished, l => ∃ b, Fin cfg b l
  | .inCb n, l | .selfClose _ n, l => Shape cfg n l

theorem closeStep_frame {s s' : St} {c : ClosePc} {r} (h : closeStep s c = some (s', r)) :
    s'.log = s.log ∧ s'.w = s.w ∧ s'.o = s.o ∧ s'.fut = s.fut ∧ s'.fdOpen = s.fdOpen ∧
    s'.sb.fdOk = s.sb.fdOk ∧ s.sb.count ≤ s'.sb.count ∧
    (s'.valid = s.valid ∨ (c = .get ∧ s'.valid = false ∧ s.fut.isSome)) := by
  cases c <;> simp only [closeStep] at h
  · split at h <;> simp at h <;> (obtain ⟨rfl, _⟩ := h; simp)
  · simp at h; obtain ⟨rfl, _⟩ := h; simp only [SB.writeEv]; split <;> simp
  · simp at h; obtain ⟨rfl, _⟩ := h; simp
  · split at h
    · simp at h; obtain ⟨rfl, _⟩ := h; simp
    · split at h <;> simp at h <;> (obtain ⟨rfl, _⟩ := h; simp)
  · split at h
    · simp at h
    · rename_i b hb; simp at h; obtain ⟨rfl, _⟩ := h; simp [hb]

theorem keeps_or (r : Result) (h : r.keepsRunning = false) : r = .complete ∨ r.isError = true := by
  cases r <;> simp_all [Result.keepsRunning, Result.isError, Result.code]

theorem shape_step {cfg : Cfg} {s s' : St} {a : Act}
    (h : Shape cfg s.w (callbacks s.log)) (hs : step cfg s a = some s') :
    Shape cfg s'.w (callbacks s'.log) := by
  cases a with
  | w =>
    simp only [step, wStep] at hs
    split at hs
    · rename_i hw; simp at hs; subst hs; rw [hw] at h; simp only [Shape] at h ⊢
      split <;> simp_all [Shape]
    · rename_i hw; simp at hs; subst hs; rw [hw] at h; simp only [Shape] at h ⊢
      split <;> simp_all [Shape]
    · rename_i hw; simp at hs; subst hs; rw [hw] at h; simp_all [Shape]
    · rename_i hw; simp at hs; subst hs; rw [hw] at h; simp_all [Shape]
    · rename_i pre hw; simp at hs; subst hs; rw [hw] at h; simp only [Shape] at h
      cases pre <;> simp_all [Shape, callCb, callbacks_append, callbacks, Running]
    · rename_i hw; simp at hs; subst hs; rw [hw] at h; simp_all [Shape]
    · rename_i sec e es r items hw; simp at hs; subst hs; rw [hw] at h
      simp only [Shape, callCb, callbacks_append, callbacks] at h ⊢
      obtain ⟨⟨hd, mids, hl, hm⟩, he, hi⟩ := h
      refine ⟨⟨hd, mids ++ [e], by simp [hl], ?_⟩, fun m hmem => he m (by simp [hmem]), hi⟩
      intro m hmem
      rw [List.mem_append, List.mem_singleton] at hmem
      rcases hmem with h1 | rfl
      · exact hm m h1
      · exact he m (by simp)
    · rename_i sec ok hw; simp at hs; subst hs; rw [hw] at h
      simp only [Shape] at h
      by_cases hk : ok.keepsRunning = true
      · simp [hk, Shape, h.1]
      · simp only [Bool.not_eq_true] at hk
        simp [hk, Shape, h.1, keeps_or ok hk]
    · rename_i hw; simp at hs; subst hs; rw [hw] at h; simp_all [Shape, itemsOk]
    · rename_i hw; simp at hs; subst hs; rw [hw] at h; simp_all [Shape, itemsOk]
    · rename_i hw; simp at hs; subst hs; rw [hw] at h; simp_all [Shape, itemsOk]
    · rename_i sec r hw; rw [hw] at h
      simp only [Shape] at h
      split at hs
      · simp at hs; subst hs; simpa [Shape] using h.1
      · split at hs
        · rename_i hr; simp at hs; subst hs
          simp only [callCb, callbacks_append, callbacks, Shape]
          obtain ⟨⟨hd, mids, hl, hm⟩, _⟩ := h
          exact ⟨hd, mids, r, by simp [hl], hr, hm⟩
        · simp at hs; subst hs; simpa [Shape] using h.1
    · rename_i pre post hw; simp at hs; subst hs; rw [hw] at h
      simp only [callCb, callbacks_append, callbacks, Shape]
      cases pre <;> cases post <;> simp only [Shape] at h
      · exact .inr ⟨rfl, _, .inl h.2, rfl⟩
      · exact absurd h.1 (by simp)
      · exact .inr ⟨rfl, _, .inr h, rfl⟩
      · exact .inl ⟨rfl, _, h, rfl⟩
    · rename_i hw; simp at hs; subst hs; rw [hw] at h; simp only [Shape] at h ⊢; exact ⟨_, h⟩
    · rename_i c next hw
      rw [hw] at h; simp only [Shape] at h
      split at hs
      · simp at hs
      · rename_i hc; simp at hs; subst hs; have := closeStep_frame hc; simp_all [Shape]
      · rename_i hc; simp at hs; subst hs; have := closeStep_frame hc; simp_all [Shape]
    · simp at hs
  | wOpen evs r =>
    simp only [step] at hs
    split at hs <;> try simp at hs
    rename_i sec hw
    rw [hw] at h; simp only [Shape] at h
    obtain ⟨⟨h1, _⟩, rfl⟩ := hs
    simp only [Shape]
    exact ⟨h, h1.1, rfl⟩
  | wWake items =>
    simp only [step] at hs
    split at hs <;> try simp at hs
    rename_i sec hw
    rw [hw] at h; simp only [Shape] at h
    obtain ⟨⟨h1, _⟩, rfl⟩ := hs
    exact ⟨h, h1⟩
  | wWakeErr =>
    simp only [step] at hs
    split at hs <;> try simp at hs
    rename_i sec hw
    rw [hw] at h; simp only [Shape] at h
    subst hs; exact ⟨h, rfl⟩
  | cbReturn =>
    simp only [step] at hs
    split at hs <;> try simp at hs
    rename_i n hw
    rw [hw] at h; simp only [Shape] at h
    subst hs; exact h
  | cbClose =>
    simp only [step] at hs
    split at hs <;> try simp at hs
    rename_i n hw
    rw [hw] at h; simp only [Shape] at h
    subst hs; exact h
  | o =>
    simp only [step, oStep] at hs
    split at hs
    · split at hs
      · simp at hs
      · rename_i hc; simp at hs; subst hs; have := closeStep_frame hc; simp_all
      · rename_i hc; simp at hs; subst hs; have := closeStep_frame hc
        simp_all [callbacks_append, callbacks]
    · split at hs
      · simp at hs
      · rename_i hc; simp at hs; subst hs; have := closeStep_frame hc; simp_all
      · rename_i hc; simp at hs; subst hs; have := closeStep_frame hc; simp_all
    · split at hs
      · split at hs <;> simp at hs; subst hs; exact h
      · simp at hs; subst hs; exact h
    · simp at hs; subst hs; simpa [callbacks_append, callbacks] using h
    · simp at hs
  | oClose =>
    simp only [step] at hs
    split at hs <;> simp at hs
    subst hs; simpa [callbacks_append, callbacks] using h
  | oDtor =>
    simp only [step] at hs
    split at hs <;> simp at hs
    subst hs; simpa [callbacks_append, callbacks] using h

theorem shape_reachable {cfg : Cfg} {s : St} (h : Reachable cfg s) :
    Shape cfg s.w (callbacks s.log) :=
  reachable_induct (P := fun s => Shape cfg s.w (callbacks s.log)) rfl (fun _ _ _ => shape_step) s h

end Verif.Lemmas.Life
