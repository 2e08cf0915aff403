import Verif.Lemmas.Adapter
import Verif.Lemmas.Lifecycle
/-! Refinement and accounting for the whole Linux watch. -/
namespace Verif.Lemmas.Ad
open Verif Verif.Model Verif.Model.Ad Verif.Model.Life Verif.Spec Verif.Lemmas.Life

/-- The back end in memory is the one the worker believes to be using. -/
def kindOk {σ} (sec : Bool) : Back σ → Prop
  | .none _ => False
  | .fa _ => sec = false
  | .inn _ => sec = true

theorem kindOk_ne {σ} {sec : Bool} {b : Back σ} (h : kindOk sec b) : ∀ w, b ≠ .none w := by
  intro w hw; subst hw; exact h

theorem out_setWorld {σ} (b : Back σ) (w : σ) : (b.setWorld w).out = b.out := by cases b <;> rfl
theorem kind_setWorld {σ} (b : Back σ) (sec : Bool) (w : σ) : kindOk sec (b.setWorld w) ↔ kindOk sec b := by
  cases b <;> rfl

/-- How the callbacks of a finished watch look, given what its back end handed over. -/
def Finished (cfg : Cfg) (l out : List Ev) : Prop :=
  (out = [] ∧ l = [liveEv cfg.path false, dieEv cfg.path false]) ∨
  l = liveEv cfg.path true :: (out ++ [dieEv cfg.path true]) ∨
  ∃ r : Result, r.isError = true ∧ l = liveEv cfg.path true :: (out ++ [sendMsg r cfg.path, dieEv cfg.path false])

/-- What the callback has seen and what the back end has handed over, by the worker's position. -/
def Acc {σ} (cfg : Cfg) : WPc → List Ev → Back σ → Prop
  | .start, l, b | .stLoad, l, b | .stRead, l, b | .stStore _, l, b | .live _, l, b => l = [] ∧ b.out = []
  | .aOpen _, l, b => l = [liveEv cfg.path true] ∧ b.out = []
  | .aEvs sec evs r items, l, b =>
    l ++ (evs ++ itemEvs items) = liveEv cfg.path true :: b.out ∧ kindOk sec b ∧ itemsOk items = true ∧
      (sec = false → r = .eFanotify → b.out = [] ∧ evs = [])
  | .aItems sec r items, l, b =>
    l ++ itemEvs items = liveEv cfg.path true :: b.out ∧ kindOk sec b ∧ itemsOk items = true ∧
      (sec = false → r = .eFanotify → b.out = [])
  | .aWait sec, l, b => l = liveEv cfg.path true :: b.out ∧ kindOk sec b
  | .aDone sec r, l, b =>
    l = liveEv cfg.path true :: b.out ∧ kindOk sec b ∧ (sec = false → r = .eFanotify → b.out = [])
  | .die true true, l, b => l = liveEv cfg.path true :: b.out
  | .die true false, l, b => ∃ r : Result, r.isError = true ∧ l = liveEv cfg.path true :: (b.out ++ [sendMsg r cfg.path])
  | .die false post, l, b => post = false ∧ l = [liveEv cfg.path false] ∧ b.out = []
  | .setFut _, l, b | .finished, l, b => Finished cfg l b.out
  | .inCb n, l, b | .selfClose _ n, l, b => Acc cfg n l b

theorem acc_world {σ} (cfg : Cfg) (w : WPc) (l : List Ev) (b : Back σ) (v : σ) (h : Acc cfg w l b) :
    Acc cfg w l (b.setWorld v) := by
  induction w with
  | die pre post => cases pre <;> cases post <;> simpa only [Acc, out_setWorld] using h
  | inCb n ih => exact ih h
  | selfClose c n ih => exact ih h
  | _ => simpa only [Acc, out_setWorld, kind_setWorld] using h

theorem recvNot (r : Result) (h : isRecvResult r = true) : r ≠ .eFanotify := by
  intro hr; subst hr; cases h

theorem acc_life {σ} {cfg : Cfg} {s s' : Life.St} {a : Act} {b : Back σ}
    (hp : plainAct a = true)
    (h : Acc cfg s.w (callbacks s.log) b) (hs : step cfg s a = some s') :
    Acc cfg s'.w (callbacks s'.log) b := by
  cases a with
  | w =>
    simp only [step, wStep] at hs
    split at hs
    · rename_i hw; simp at hs; subst hs; rw [hw] at h; simp only [Acc] at h ⊢
      split <;> simp_all [Acc]
    · rename_i hw; simp at hs; subst hs; rw [hw] at h; simp only [Acc] at h ⊢
      split <;> simp_all [Acc]
    · rename_i hw; simp at hs; subst hs; rw [hw] at h; simp_all [Acc]
    · rename_i hw; simp at hs; subst hs; rw [hw] at h; simp_all [Acc]
    · rename_i pre hw; simp at hs; subst hs; rw [hw] at h; simp only [Acc] at h
      cases pre <;> simp_all [Acc, callCb, callbacks_append, callbacks]
    · rename_i sec r items hw; simp at hs; subst hs; rw [hw] at h
      simp only [Acc, List.nil_append] at h ⊢
      exact ⟨h.1, h.2.1, h.2.2.1, fun a b => (h.2.2.2 a b).1⟩
    · rename_i sec e es r items hw; simp at hs; subst hs; rw [hw] at h
      simp only [Acc, callCb, callbacks_append, callbacks] at h ⊢
      refine ⟨by simpa using h.1, h.2.1, h.2.2.1, ?_⟩
      intro a b; cases (h.2.2.2 a b).2
    · rename_i sec ok hw; simp at hs; subst hs; rw [hw] at h
      simp only [Acc, itemEvs, List.flatMap_nil, List.append_nil] at h
      by_cases hk : ok.keepsRunning = true
      · simp only [hk, if_true, Acc]; exact ⟨h.1, h.2.1⟩
      · simp only [hk, Bool.false_eq_true, if_false, Acc]; exact ⟨h.1, h.2.1, h.2.2.2⟩
    · rename_i hw; simp at hs; subst hs; rw [hw] at h
      simp only [Acc, itemEvs, List.flatMap_cons, evsOf, List.nil_append, itemsOk] at h ⊢
      exact ⟨h.1, h.2.1, h.2.2.1, fun _ h => by cases h⟩
    · rename_i hw; simp at hs; subst hs; rw [hw] at h
      simp only [Acc, itemEvs, List.flatMap_cons, evsOf, itemsOk, Bool.and_eq_true] at h ⊢
      refine ⟨h.1, h.2.1, h.2.2.1.2, fun _ h' => absurd h' (recvNot _ h.2.2.1.1.2)⟩
    · rename_i hw; simp at hs; subst hs; rw [hw] at h
      simp only [Acc, itemEvs, List.flatMap_cons, evsOf, List.nil_append, itemsOk] at h ⊢
      exact ⟨h.1, h.2.1, h.2.2.1, fun _ h => by cases h⟩
    · rename_i sec r hw; rw [hw] at h
      simp only [Acc] at h
      split at hs
      · rename_i hc
        simp only [Bool.and_eq_true, Bool.not_eq_true', decide_eq_true_eq] at hc
        simp at hs; subst hs
        have := h.2.2 hc.1 hc.2
        simp only [Acc]
        exact ⟨by rw [h.1, this], this⟩
      · split at hs
        · rename_i hr; simp at hs; subst hs
          simp only [callCb, callbacks_append, callbacks, Acc]
          exact ⟨r, hr, by simp [h.1]⟩
        · simp at hs; subst hs; simpa [Acc] using h.1
    · rename_i pre post hw; simp at hs; subst hs; rw [hw] at h
      simp only [callCb, callbacks_append, callbacks, Acc, Finished]
      cases pre <;> cases post <;> simp only [Acc] at h
      · exact .inl ⟨h.2.2, by rw [h.2.1]; rfl⟩
      · exact absurd h.1 (by simp)
      · obtain ⟨r, hr, hl⟩ := h
        exact .inr (.inr ⟨r, hr, by simp [hl]⟩)
      · exact .inr (.inl (by simp [h]))
    · rename_i hw; simp at hs; subst hs; rw [hw] at h; simp only [Acc] at h ⊢; exact h
    · rename_i c next hw
      rw [hw] at h; simp only [Acc] at h
      split at hs
      · simp at hs
      · rename_i hc; simp at hs; subst hs; have := closeStep_frame hc; simp_all [Acc]
      · rename_i hc; simp at hs; subst hs; have := closeStep_frame hc; simp_all [Acc]
    · simp at hs
  | wOpen evs r => cases hp
  | wWake items => cases hp
  | wWakeErr =>
    simp only [step] at hs
    split at hs <;> try simp at hs
    rename_i sec hw
    rw [hw] at h; simp only [Acc] at h
    subst hs
    simp only [Acc, itemEvs, List.flatMap_nil, List.append_nil]
    exact ⟨h.1, h.2, rfl, fun _ h => by cases h⟩
  | cbReturn =>
    simp only [step] at hs
    split at hs <;> try simp at hs
    rename_i n hw
    rw [hw] at h; simp only [Acc] at h
    subst hs; exact h
  | cbClose =>
    simp only [step] at hs
    split at hs <;> try simp at hs
    rename_i n hw
    rw [hw] at h; simp only [Acc] at h
    subst hs; exact h
  | o =>
    simp only [step, oStep] at hs
    split at hs
    · split at hs
      · simp at hs
      · rename_i hc; simp at hs; subst hs; have := closeStep_frame hc; simp_all
      · rename_i hc; simp at hs; subst hs; have := closeStep_frame hc
        simp_all [callbacks_append, callbacks]
    · split at hs
      · simp at hs
      · rename_i hc; simp at hs; subst hs; have := closeStep_frame hc; simp_all
      · rename_i hc; simp at hs; subst hs; have := closeStep_frame hc; simp_all
    · split at hs
      · split at hs <;> simp at hs; subst hs; exact h
      · simp at hs; subst hs; exact h
    · simp at hs; subst hs; simpa [callbacks_append, callbacks] using h
    · simp at hs
  | oClose =>
    simp only [step] at hs
    split at hs <;> simp at hs
    subst hs; simpa [callbacks_append, callbacks] using h
  | oDtor =>
    simp only [step] at hs
    split at hs <;> simp at hs
    subst hs; simpa [callbacks_append, callbacks] using h

/-- One step of the whole watch: accounted for, and a step of the lifecycle model. -/
theorem cstep_ok {σ} {cfg : Cfg} {E : Env σ} {c c' : CS σ} {a : CAct σ}
    (h : Acc cfg c.life.w (callbacks c.life.log) c.back) (hs : cstep cfg E c a = .ok (some c')) :
    Acc cfg c'.life.w (callbacks c'.life.log) c'.back ∧
    (c'.life = c.life ∨ ∃ la, step cfg c.life la = some c'.life) := by
  cases a with
  | life a =>
    simp only [cstep] at hs
    split at hs
    · rename_i hp
      cases hl : step cfg c.life a with
      | none => rw [hl] at hs; cases hs
      | some l =>
        rw [hl] at hs
        cases hs
        exact ⟨acc_life hp h hl, .inr ⟨a, hl⟩⟩
    · cases hs
  | world w =>
    cases hs
    exact ⟨acc_world _ _ _ _ _ h, .inl rfl⟩
  | openBack a =>
    simp only [cstep] at hs
    split at hs
    · cases hs
    · split at hs
      · rename_i hw
        cases hl : step cfg c.life (.wOpen ((openFa E.fa a c.back.world).1.out.map (·.1)) (openFa E.fa a c.back.world).2) with
        | none => rw [hl] at hs; cases hs
        | some l =>
          rw [hl] at hs
          cases hs
          refine ⟨?_, .inr ⟨_, hl⟩⟩
          obtain ⟨k1, k2, k3, k4⟩ := openFa_ok E.fa a c.back.world
          simp only [step, hw] at hl
          split at hl
          · simp only [Option.some.injEq] at hl
            subst hl
            rw [hw] at h
            simp only [Acc] at h ⊢
            refine ⟨by simp [h.1, itemEvs, Back.out], rfl, rfl, ?_⟩
            intro _ hr
            have := k4 hr
            simp [Back.out, this]
          · cases hl
      · rename_i hw
        cases hl : step cfg c.life (.wOpen (openIn E.inn a c.back.world).1.out (openIn E.inn a c.back.world).2) with
        | none => rw [hl] at hs; cases hs
        | some l =>
          rw [hl] at hs
          cases hs
          refine ⟨?_, .inr ⟨_, hl⟩⟩
          simp only [step, hw] at hl
          split at hl
          · simp only [Option.some.injEq] at hl
            subst hl
            rw [hw] at h
            simp only [Acc] at h ⊢
            exact ⟨by simp [h.1, itemEvs, Back.out], rfl, rfl, fun h => by cases h⟩
          · cases hl
      · cases hs
  | wake ws =>
    simp only [cstep] at hs
    split at hs
    · rename_i sec hw
      rw [hw] at h
      simp only [Acc] at h
      obtain ⟨⟨b, items⟩, hr, hs⟩ := bind_ok_inv hs
      obtain ⟨r1, r2, r3, r4⟩ := recvAll_ok E ws c.back b items (kindOk_ne h.2) hr
      have hk : kindOk sec b := by
        clear hs r1 r2 r4
        have : ∀ (ws : List Waked) (b0 b : Back σ) (items : List Item), kindOk sec b0 →
            recvAll E b0 ws = .ok (b, items) → kindOk sec b := by
          intro ws
          induction ws with
          | nil => intro b0 b items hk h; cases h; exact hk
          | cons x ws ih =>
            intro b0 b items hk h
            cases x with
            | il => obtain ⟨⟨_, _⟩, h1, h2⟩ := bind_ok_inv h; cases h2; exact ih _ _ _ hk h1
            | unknown => obtain ⟨⟨_, _⟩, h1, h2⟩ := bind_ok_inv h; cases h2; exact ih _ _ _ hk h1
            | ke r =>
              obtain ⟨⟨b1, _, _⟩, h1, h2⟩ := bind_ok_inv h
              obtain ⟨⟨_, _⟩, h3, h4⟩ := bind_ok_inv h2
              cases h4
              refine ih _ _ _ ?_ h3
              cases b0 with
              | none => cases hk
              | fa st => obtain ⟨⟨_, _⟩, _, h6⟩ := bind_ok_inv h1; cases h6; exact hk
              | inn st => obtain ⟨⟨_, _⟩, _, h6⟩ := bind_ok_inv h1; cases h6; exact hk
        exact this ws _ _ _ h.2 hr
      cases hl : step cfg c.life (.wWake items) with
      | none => simp only [hl] at hs; cases hs
      | some l =>
        simp only [hl] at hs
        cases hs
        refine ⟨?_, .inr ⟨_, hl⟩⟩
        simp only [step, hw] at hl
        split at hl
        · simp only [Option.some.injEq] at hl
          subst hl
          simp only [Acc]
          exact ⟨by rw [h.1, r1]; simp, hk, r2, fun _ h => by cases h⟩
        · cases hl
    · cases hs

theorem crun_induct {σ} {cfg : Cfg} {E : Env σ} {P : CS σ → Prop}
    (hstep : ∀ c a c', P c → cstep cfg E c a = .ok (some c') → P c') :
    ∀ (acts : List (CAct σ)) (c c' : CS σ), P c → crun cfg E c acts = .ok (some c') → P c' := by
  intro acts
  induction acts with
  | nil => intro c c' h hr; cases hr; exact h
  | cons a as ih =>
    intro c c' h hr
    simp only [crun] at hr
    obtain ⟨o, h1, h2⟩ := bind_ok_inv hr
    cases o with
    | none => cases h2
    | some c1 => exact ih _ _ (hstep _ _ _ h h1) h2

theorem creach_ok {σ} {cfg : Cfg} {E : Env σ} {c : CS σ} (h : CReach cfg E c) :
    Acc cfg c.life.w (callbacks c.life.log) c.back ∧ Reachable cfg c.life := by
  obtain ⟨w, acts, h⟩ := h
  refine crun_induct (P := fun c => Acc cfg c.life.w (callbacks c.life.log) c.back ∧ Reachable cfg c.life)
    ?_ acts (cinit cfg w) c ⟨⟨rfl, rfl⟩, [], rfl⟩ h
  intro c a c' hc hs
  obtain ⟨h1, h2⟩ := cstep_ok hc.1 hs
  refine ⟨h1, ?_⟩
  rcases h2 with h2 | ⟨la, h2⟩
  · rw [h2]; exact hc.2
  · exact reachable_step hc.2 h2

end Verif.Lemmas.Ad
