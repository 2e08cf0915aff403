import Verif.Lemmas.Lifecycle
import Verif.Lemmas.Lifecycle3
import Verif.Lemmas.Adapter2
import Verif.Spec.Lifecycle
/-! Watches that are bound to end with an error (C132, C148). -/
namespace Verif.Lemmas.Life
open Verif Verif.Model Verif.Model.Life Verif.Spec

/-- Where a watch that will end with the error `r` is, and what the callback has got. -/
inductive Doom (path : Str) (sec : Bool) (r : Result) (base evs : List Ev) : WPc → List Ev → Prop where
  | telling {told rest} (h : told ++ rest = evs) : Doom path sec r base evs (.aEvs sec rest r []) (base ++ told)
  | items : Doom path sec r base evs (.aItems sec r []) (base ++ evs)
  | done : Doom path sec r base evs (.aDone sec r) (base ++ evs)
  | die : Doom path sec r base evs (.die true false) (base ++ evs ++ [sendMsg r path])
  | setFut : Doom path sec r base evs (.setFut false) (base ++ evs ++ [sendMsg r path] ++ [dieMsg path false])
  | fin : Doom path sec r base evs .finished (base ++ evs ++ [sendMsg r path] ++ [dieMsg path false])
  | inCb {n l} (h : Doom path sec r base evs n l) (hn : n ≠ .finished) : Doom path sec r base evs (.inCb n) l
  | self {c n l} (h : Doom path sec r base evs n l) (hn : n ≠ .finished) : Doom path sec r base evs (.selfClose c n) l

theorem doomed_step {cfg : Cfg} {sec : Bool} {r : Result} {base evs : List Ev} (hr : r.isError = true) (hsec : sec = true ∨ r ≠ .eFanotify) {s s' : St} {a : Act}
    (h : Doom cfg.path sec r base evs s.w (callbacks s.log) ∧ (s.w = .finished → s.fut = some false)) (hs : step cfg s a = some s') :
    Doom cfg.path sec r base evs s'.w (callbacks s'.log) ∧ (s'.w = .finished → s'.fut = some false) := by
  have same : ∀ {x : St}, x.w = s.w → callbacks x.log = callbacks s.log → x.fut = s.fut →
      Doom cfg.path sec r base evs x.w (callbacks x.log) ∧ (x.w = .finished → x.fut = some false) := by
    intro x h1 h2 h3; rw [h1, h2, h3]; exact h
  obtain ⟨hd, hf⟩ := h
  have hstop : r.keepsRunning = false := error_stops hr
  cases a with
  | w =>
    simp only [step] at hs
    generalize hw : s.w = w at hd
    generalize hl : callbacks s.log = l at hd
    have cb : ∀ (e : Ev) (n : WPc), callbacks (callCb s e n).log = l ++ [e] := by
      intro e n; rw [← hl]; simp [callCb, callbacks_append, callbacks]
    cases hd with
    | telling ht =>
      rename_i told rest
      cases rest with
      | nil =>
        simp only [wStep, hw, Option.some.injEq] at hs
        subst hs
        simp only [List.append_nil] at ht
        subst ht
        exact ⟨by rw [hl]; exact .items, by simp⟩
      | cons e es =>
        simp only [wStep, hw, Option.some.injEq] at hs
        subst hs
        refine ⟨?_, by simp [callCb]⟩
        rw [cb, List.append_assoc]
        exact .inCb (.telling (by rw [List.append_assoc]; exact ht)) (by simp)
    | items =>
      simp only [wStep, hw, hstop, Bool.false_eq_true, if_false, Option.some.injEq] at hs
      subst hs
      exact ⟨by rw [hl]; exact .done, by simp⟩
    | done =>
      have hno : (!sec && decide (r = .eFanotify)) = false := by
        rcases hsec with h | h <;> simp [h]
      simp only [wStep, hw, hno, Bool.false_eq_true, if_false, hr, if_true, Option.some.injEq] at hs
      subst hs
      exact ⟨by rw [cb]; exact .inCb .die (by simp), by simp [callCb]⟩
    | die =>
      simp only [wStep, hw, Option.some.injEq] at hs
      subst hs
      exact ⟨by rw [cb]; exact .inCb .setFut (by simp), by simp [callCb]⟩
    | setFut =>
      simp only [wStep, hw, Option.some.injEq] at hs
      subst hs
      exact ⟨by rw [hl]; exact .fin, fun _ => rfl⟩
    | fin => simp only [wStep, hw] at hs; cases hs
    | inCb h hn => simp only [wStep, hw] at hs; cases hs
    | self h hn =>
      simp only [wStep, hw] at hs
      split at hs
      · cases hs
      · rename_i hc
        simp only [Option.some.injEq] at hs; subst hs
        exact ⟨by rw [(closeStep_frame hc).1, hl]; exact .self h hn, by simp⟩
      · rename_i hc
        simp only [Option.some.injEq] at hs; subst hs
        exact ⟨by rw [(closeStep_frame hc).1, hl]; exact .inCb h hn, by simp⟩
  | cbReturn =>
    simp only [step] at hs
    split at hs
    · rename_i n hw
      simp only [Option.some.injEq] at hs; subst hs
      rw [hw] at hd
      cases hd with
      | inCb h hn =>
        exact ⟨h, fun h' => absurd h' hn⟩
    · cases hs
  | cbClose =>
    simp only [step] at hs
    split at hs
    · rename_i n hw
      simp only [Option.some.injEq] at hs; subst hs
      rw [hw] at hd
      cases hd with
      | inCb h hn => exact ⟨.self h hn, by simp⟩
    · cases hs
  | wOpen e q =>
    simp only [step] at hs
    split at hs
    · rename_i hw; rw [hw] at hd; cases hd
    · cases hs
  | wWake i =>
    simp only [step] at hs
    split at hs
    · rename_i hw; rw [hw] at hd; cases hd
    · cases hs
  | wWakeErr =>
    simp only [step] at hs
    split at hs
    · rename_i hw; rw [hw] at hd; cases hd
    · cases hs
  | oClose =>
    simp only [step] at hs
    split at hs
    · simp only [Option.some.injEq] at hs; subst hs; exact same rfl (by simp [callbacks_append, callbacks]) rfl
    · cases hs
  | oDtor =>
    simp only [step] at hs
    split at hs
    · simp only [Option.some.injEq] at hs; subst hs; exact same rfl (by simp [callbacks_append, callbacks]) rfl
    · cases hs
  | o =>
    simp only [step, oStep] at hs
    split at hs
    · split at hs
      · cases hs
      · rename_i hc; simp only [Option.some.injEq] at hs; subst hs
        have := closeStep_frame hc
        exact same this.2.1 (by simp only; rw [this.1]) this.2.2.2.1
      · rename_i hc; simp only [Option.some.injEq] at hs; subst hs
        have := closeStep_frame hc
        exact same this.2.1 (by simp only; rw [this.1]; simp [callbacks_append, callbacks]) this.2.2.2.1
    · split at hs
      · cases hs
      · rename_i hc; simp only [Option.some.injEq] at hs; subst hs
        have := closeStep_frame hc
        exact same this.2.1 (by simp only; rw [this.1]) this.2.2.2.1
      · rename_i hc; simp only [Option.some.injEq] at hs; subst hs
        have := closeStep_frame hc
        exact same this.2.1 (by simp only; rw [this.1]) this.2.2.2.1
    · split at hs
      · split at hs
        · cases hs
        · simp only [Option.some.injEq] at hs; subst hs; exact same rfl rfl rfl
      · simp only [Option.some.injEq] at hs; subst hs; exact same rfl rfl rfl
    · simp only [Option.some.injEq] at hs; subst hs; exact same rfl (by simp [callbacks_append, callbacks]) rfl
    · cases hs

theorem doomed_shape {path : Str} {sec : Bool} {r : Result} {base evs : List Ev} {w : WPc} {l : List Ev} (h : Doom path sec r base evs w l) :
    (∀ second, w ≠ .aWait second) ∧
    l <+: base ++ evs ++ [sendMsg r path, dieMsg path false] ∧
    (w = .finished → l = base ++ evs ++ [sendMsg r path, dieMsg path false]) := by
  induction h with
  | telling h => exact ⟨by simp, ⟨_, by rw [← h]; simp [List.append_assoc]; rfl⟩, by simp⟩
  | items => exact ⟨by simp, ⟨_, rfl⟩, by simp⟩
  | done => exact ⟨by simp, ⟨_, rfl⟩, by simp⟩
  | die => exact ⟨by simp, ⟨[dieMsg path false], by simp⟩, by simp⟩
  | setFut => exact ⟨by simp, ⟨[], by simp⟩, by simp⟩
  | fin => exact ⟨by simp, ⟨[], by simp⟩, by simp⟩
  | inCb _ _ ih => exact ⟨by simp, ih.2.1, by simp⟩
  | self _ _ ih => exact ⟨by simp, ih.2.1, by simp⟩

end Verif.Lemmas.Life
