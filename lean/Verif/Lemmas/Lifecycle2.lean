import Verif.Lemmas.Lifecycle
/-! More invariants of the lifecycle model: the future, the log of `close()` results, the stop signal. -/

namespace Verif.Lemmas.Life
set_option linter.unusedSimpArgs false
open Verif Verif.Model Verif.Model.Life Verif.Spec

/-- The worker does not run the adapter (any more). -/
def Aborted : WPc → Prop
  | .stStore _ | .live false | .die false _ | .setFut false | .finished => True
  | .inCb n | .selfClose _ n => Aborted n
  | _ => False

/-- A close call whose `release()` has returned. -/
def Released : ClosePc → Prop
  | .check _ | .get => True
  | _ => False

/-- The owner is in or after the destructor. -/
def InDtor : OPc → Prop
  | .idle | .closing _ => False
  | _ => True

def OReleased : OPc → Prop
  | .idle => False
  | .closing c | .dtorClosing c => Released c
  | _ => True

def closePcOk (s : St) : ClosePc → Prop
  | .store v => v = .released ∧ (s.sb.count > 0 ∨ Aborted s.w)
  | .check v => v = .released ∧ s.sb.is = .released
  | .get => s.sb.is = .released
  | _ => True

/-- Where a callback returns to. -/
def Flat : WPc → Bool
  | .inCb _ | .selfClose _ _ | .finished | .start | .stLoad | .stRead | .stStore _ | .live _ => false
  | _ => true

structure FutInv (s : St) : Prop where
  f1 : s.fut = none ↔ s.w ≠ .finished
  f3 : s.valid = false → s.fut.isSome = true
  f4 : (s.o = .dtorFd ∨ s.o = .gone) → s.fut.isSome = true
  f5 : s.fdOpen = false → s.o = .gone
  f7 : Obs.closeRet true ∈ s.log → s.valid = false ∧ s.fut = some true
  f8 : (s.o = .closing .get ∨ s.o = .dtorClosing .get) → s.valid = true
  f9 : (s.log.filter (· = .closeRet true)).length ≤ 1
  f10 : Obs.dtorRet ∈ s.log → s.o = .gone
  f11 : ∀ n, s.w = .inCb n → Flat n = true
  f12 : ∀ c n, s.w = .selfClose c n → Flat n = true

theorem fut_init (cfg : Cfg) : FutInv (init cfg) := by
  constructor <;> simp [init]

theorem fut_step {cfg : Cfg} {s s' : St} {a : Act} (h : FutInv s) (hs : step cfg s a = some s') :
    FutInv s' := by
  obtain ⟨f1, f3, f4, f5, f7, f8, f9, f10, f11, f12⟩ := h
  cases a with
  | w =>
    simp only [step, wStep] at hs
    split at hs <;> try (simp only [reduceCtorEq, Option.some.injEq] at hs)
    all_goals try (subst hs; constructor <;> simp_all <;> done)
    all_goals try (rename_i hw; subst hs; constructor <;> simp_all [callCb] <;> (try split) <;> simp_all [Flat] <;> done)
    · -- aDone
      rename_i sec r hw
      split at hs
      · simp at hs; subst hs; constructor <;> simp_all
      · split at hs
        · simp at hs; subst hs; constructor <;> simp_all [callCb, Flat]
        · simp at hs; subst hs; constructor <;> simp_all
    · rename_i c next hw
      split at hs
      · simp at hs
      · rename_i hc; simp at hs; subst hs
        have := closeStep_frame hc
        obtain ⟨e1, e2, e3, e4, e5, e6, e7, e8⟩ := this
        constructor <;> simp_all
      · rename_i hc; simp at hs; subst hs
        have := closeStep_frame hc
        obtain ⟨e1, e2, e3, e4, e5, e6, e7, e8⟩ := this
        constructor <;> simp_all
  | wOpen evs r =>
    simp only [step] at hs
    split at hs <;> try simp at hs
    rename_i sec hw
    obtain ⟨_, rfl⟩ := hs
    constructor <;> simp_all
  | wWake items =>
    simp only [step] at hs
    split at hs <;> try simp at hs
    rename_i sec hw
    obtain ⟨_, rfl⟩ := hs
    constructor <;> simp_all
  | wWakeErr =>
    simp only [step] at hs
    split at hs <;> try simp at hs
    subst hs
    constructor <;> simp_all
  | cbReturn =>
    simp only [step] at hs
    split at hs <;> try simp at hs
    rename_i n hw
    have hn := f11 n hw
    subst hs
    cases n <;> first | (simp [Flat] at hn; done) | (constructor <;> simp_all)
  | cbClose =>
    simp only [step] at hs
    split at hs <;> try simp at hs
    subst hs
    constructor <;> simp_all
  | o =>
    simp only [step, oStep] at hs
    split at hs
    · rename_i c ho
      split at hs
      · simp at hs
      · rename_i hc; simp at hs; subst hs
        cases c <;> simp only [closeStep] at hc
        all_goals try split at hc
        all_goals try split at hc
        all_goals simp at hc
        all_goals (obtain ⟨rfl, rfl⟩ := hc; constructor <;> simp_all)
      · rename_i hc; simp at hs; subst hs
        cases c <;> simp only [closeStep] at hc
        all_goals try split at hc
        all_goals try split at hc
        all_goals simp at hc
        all_goals (obtain ⟨rfl, rfl⟩ := hc; constructor <;> simp_all)
        rename_i b _
        have hnil : s.log.filter (fun x => decide (x = Obs.closeRet true)) = [] := by
          rw [List.filter_eq_nil_iff]; intro x hx; simp only [decide_eq_true_eq]
          rintro rfl; exact f7 hx
        rw [hnil]; cases b <;> simp
    · rename_i c ho
      split at hs
      · simp at hs
      · rename_i hc; simp at hs; subst hs
        cases c <;> simp only [closeStep] at hc
        all_goals try split at hc
        all_goals try split at hc
        all_goals simp at hc
        all_goals (obtain ⟨rfl, rfl⟩ := hc; constructor <;> simp_all)
      · rename_i hc; simp at hs; subst hs
        cases c <;> simp only [closeStep] at hc
        all_goals try split at hc
        all_goals try split at hc
        all_goals simp at hc
        all_goals (obtain ⟨rfl, rfl⟩ := hc; constructor <;> simp_all)
    · split at hs
      · split at hs <;> simp at hs; subst hs; constructor <;> simp_all
      · simp at hs; subst hs; constructor <;> simp_all
    · simp at hs; subst hs; constructor <;> simp_all
    · simp at hs
  | oClose =>
    simp only [step] at hs
    split at hs <;> simp at hs
    subst hs; constructor <;> simp_all
  | oDtor =>
    simp only [step] at hs
    split at hs <;> simp at hs
    subst hs; constructor <;> simp_all


theorem fut_reachable {cfg : Cfg} {s : St} (h : Reachable cfg s) : FutInv s :=
  reachable_induct (P := FutInv) (fut_init cfg) (fun _ _ _ => fut_step) s h

theorem sbfd_reachable {cfg : Cfg} {s : St} (h : Reachable cfg s) : s.sb.fdOk = cfg.fdOk := by
  refine reachable_induct (P := fun s => s.sb.fdOk = cfg.fdOk) rfl ?_ s h
  intro s a s' h hs
  cases a with
  | w =>
    simp only [step, wStep] at hs
    split at hs <;> try (simp only [reduceCtorEq, Option.some.injEq] at hs)
    all_goals try (subst hs; simp_all [callCb, SB.readEv] <;> (repeat' split) <;> simp_all <;> done)
    · split at hs
      · simp at hs; subst hs; exact h
      · split at hs <;> simp at hs <;> subst hs <;> exact h
    · split at hs
      · simp at hs
      · rename_i hc; simp at hs; subst hs; have := closeStep_frame hc; simp_all
      · rename_i hc; simp at hs; subst hs; have := closeStep_frame hc; simp_all
  | o =>
    simp only [step, oStep] at hs
    split at hs
    · split at hs
      · simp at hs
      · rename_i hc; simp at hs; subst hs; have := closeStep_frame hc; simp_all
      · rename_i hc; simp at hs; subst hs; have := closeStep_frame hc; simp_all
    · split at hs
      · simp at hs
      · rename_i hc; simp at hs; subst hs; have := closeStep_frame hc; simp_all
      · rename_i hc; simp at hs; subst hs; have := closeStep_frame hc; simp_all
    · split at hs
      · split at hs <;> simp at hs; subst hs; exact h
      · simp at hs; subst hs; exact h
    · simp at hs; subst hs; exact h
    · simp at hs
  | _ =>
    simp only [step] at hs
    split at hs <;> (try split at hs) <;> simp at hs <;> subst hs <;> exact h


/-- Facts about the stop signal and where the worker is. -/
structure SigCore (s : St) : Prop where
  s2 : s.sb.is ≠ .error
  s4 : s.sb.is = .released → s.sb.count > 0 ∨ Aborted s.w
  s6 : ∀ v, s.w = .stStore v → v = .released
  s6' : s.w = .stRead → s.sb.is = .released

/-- What never goes back. -/
def Mono (s s' : St) : Prop :=
  (s.sb.is = .released → s'.sb.is = .released) ∧
  ((s.sb.count > 0 ∨ Aborted s.w) → (s'.sb.count > 0 ∨ Aborted s'.w))

theorem closePcOk_mono {s s' : St} {c : ClosePc} (hm : Mono s s') (h : closePcOk s c) :
    closePcOk s' c := by
  cases c <;> simp only [closePcOk] at h ⊢
  · exact ⟨h.1, hm.2 h.2⟩
  · exact ⟨h.1, hm.1 h.2⟩
  · exact hm.1 h

theorem closeStep_sig {s s' : St} {c : ClosePc} {r} (hfd : s.sb.fdOk = true) (hcore : SigCore s)
    (hpc : closePcOk s c) (h : closeStep s c = some (s', r)) :
    SigCore s' ∧ Mono s s' ∧ (∀ c', r = .inl c' → closePcOk s' c') ∧
    (∀ b, r = .inr b → s'.sb.is = .released ∧ s'.valid = false ∧
      ((c = .get ∧ s.fut = some b) ∨ (s.valid = false ∧ b = false))) := by
  obtain ⟨s2, s4, s6, s6'⟩ := hcore
  cases c <;> simp only [closeStep] at h
  · split at h <;> simp at h <;> obtain ⟨rfl, rfl⟩ := h
    · exact ⟨⟨s2, s4, s6, s6'⟩, ⟨id, id⟩, by simp_all [closePcOk], by simp⟩
    · exact ⟨⟨s2, s4, s6, s6'⟩, ⟨id, id⟩, by simp_all [closePcOk], by simp⟩
  · simp [SB.writeEv, hfd] at h
    obtain ⟨rfl, rfl⟩ := h
    refine ⟨⟨s2, ?_, s6, s6'⟩, ⟨id, ?_⟩, ?_, by simp⟩
    · intro _; left; simp
    · intro _; left; simp
    · simp [closePcOk]
  · simp at h
    obtain ⟨rfl, rfl⟩ := h
    simp only [closePcOk] at hpc
    obtain ⟨rfl, hc⟩ := hpc
    exact ⟨⟨by simp, fun _ => hc, s6, fun _ => rfl⟩, ⟨fun _ => rfl, id⟩, by simp [closePcOk], by simp⟩
  · simp only [closePcOk] at hpc
    obtain ⟨rfl, hc⟩ := hpc
    simp at h
    split at h <;> simp at h <;> obtain ⟨rfl, rfl⟩ := h
    · exact ⟨⟨s2, s4, s6, s6'⟩, ⟨id, id⟩, by simp_all [closePcOk], by simp⟩
    · exact ⟨⟨s2, s4, s6, s6'⟩, ⟨id, id⟩, by simp, by simp_all⟩
  · split at h <;> simp at h
    obtain ⟨rfl, rfl⟩ := h
    simp only [closePcOk] at hpc
    exact ⟨⟨s2, s4, s6, s6'⟩, ⟨id, id⟩, by simp, by simp_all⟩

def closeOf : OPc → Option ClosePc
  | .closing c | .dtorClosing c => some c
  | _ => none

structure SigInv (s : St) : Prop where
  core : SigCore s
  oPc : ∀ c, closeOf s.o = some c → closePcOk s c
  wPc : ∀ c n, s.w = .selfClose c n → closePcOk s c
  done : (s.o = .dtorFuture ∨ s.o = .dtorFd ∨ s.o = .gone ∨ ∃ b, Obs.closeRet b ∈ s.log) →
    s.sb.is = .released
  ret : (∃ b, Obs.closeRet b ∈ s.log) →
    s.valid = false ∧ (s.fut = some true → Obs.closeRet true ∈ s.log)
  inv : s.valid = false → InDtor s.o ∨ (∃ b, Obs.closeRet b ∈ s.log)

theorem sig_init (cfg : Cfg) : SigInv (init cfg) := by
  constructor <;> simp [init, closeOf]
  constructor <;> simp

/-- Worker steps outside `close()`: nothing but the start-up check touches the signal. -/
theorem wstep_sig {cfg : Cfg} {s s' : St} (hfd : s.sb.fdOk = true) (h : SigCore s)
    (hns : ∀ c n, s.w ≠ .selfClose c n) (hs : wStep cfg s = some s') :
    SigCore s' ∧ Mono s s' ∧ (∀ c n, s'.w ≠ .selfClose c n) ∧ s'.o = s.o ∧ s'.valid = s.valid ∧
    (∀ b, Obs.closeRet b ∈ s'.log ↔ Obs.closeRet b ∈ s.log) := by
  obtain ⟨s2, s4, s6, s6'⟩ := h
  simp only [wStep] at hs
  split at hs <;> try (simp only [reduceCtorEq, Option.some.injEq] at hs)
  · rename_i hw; subst hs
    refine ⟨⟨s2, ?_, ?_, ?_⟩, ⟨id, ?_⟩, ?_, rfl, rfl, fun _ => Iff.rfl⟩ <;>
      split <;> simp_all [Aborted] <;> intro h <;> exact s4 h
  · rename_i hw; subst hs
    by_cases hp : s.sb.is = .pending
    · refine ⟨⟨s2, ?_, ?_, ?_⟩, ⟨id, ?_⟩, ?_, rfl, rfl, fun _ => Iff.rfl⟩ <;> simp_all [Aborted]
    · have hr : s.sb.is = .released := by cases h : s.sb.is <;> simp_all
      refine ⟨⟨s2, ?_, ?_, ?_⟩, ⟨id, ?_⟩, ?_, rfl, rfl, fun _ => Iff.rfl⟩ <;> simp_all [Aborted]
  · rename_i hw; subst hs
    have hr := s6' hw
    have hc : s.sb.count > 0 := by have := s4 hr; simp [hw, Aborted] at this; exact this
    refine ⟨⟨?_, ?_, ?_, ?_⟩, ⟨?_, ?_⟩, ?_, rfl, rfl, fun _ => Iff.rfl⟩ <;>
      simp_all [SB.readEv, Aborted]
  · rename_i v hw; subst hs
    have hv := s6 v hw
    subst hv
    refine ⟨⟨?_, ?_, ?_, ?_⟩, ⟨?_, ?_⟩, ?_, rfl, rfl, fun _ => Iff.rfl⟩ <;> simp_all [Aborted]
  · rename_i pre hw; subst hs
    cases pre <;> refine ⟨⟨?_, ?_, ?_, ?_⟩, ⟨?_, ?_⟩, ?_, rfl, rfl, ?_⟩ <;> simp_all [callCb, Aborted]
  · rename_i hw; subst hs
    refine ⟨⟨?_, ?_, ?_, ?_⟩, ⟨?_, ?_⟩, ?_, rfl, rfl, ?_⟩ <;> simp_all [callCb, Aborted]
  · rename_i hw; subst hs
    refine ⟨⟨?_, ?_, ?_, ?_⟩, ⟨?_, ?_⟩, ?_, rfl, rfl, ?_⟩ <;> simp_all [callCb, Aborted]
  · rename_i sec ok hw; subst hs
    cases ok.keepsRunning <;>
      refine ⟨⟨?_, ?_, ?_, ?_⟩, ⟨?_, ?_⟩, ?_, rfl, rfl, ?_⟩ <;> simp_all [callCb, Aborted]
  · rename_i hw; subst hs
    refine ⟨⟨?_, ?_, ?_, ?_⟩, ⟨?_, ?_⟩, ?_, rfl, rfl, ?_⟩ <;> simp_all [callCb, Aborted]
  · rename_i hw; subst hs
    refine ⟨⟨?_, ?_, ?_, ?_⟩, ⟨?_, ?_⟩, ?_, rfl, rfl, ?_⟩ <;> simp_all [callCb, Aborted]
  · rename_i hw; subst hs
    refine ⟨⟨?_, ?_, ?_, ?_⟩, ⟨?_, ?_⟩, ?_, rfl, rfl, ?_⟩ <;> simp_all [callCb, Aborted]
  · rename_i sec r hw
    split at hs
    · simp at hs; subst hs
      refine ⟨⟨?_, ?_, ?_, ?_⟩, ⟨?_, ?_⟩, ?_, rfl, rfl, ?_⟩ <;> simp_all [callCb, Aborted]
    · split at hs <;> simp at hs <;> subst hs <;>
        refine ⟨⟨?_, ?_, ?_, ?_⟩, ⟨?_, ?_⟩, ?_, rfl, rfl, ?_⟩ <;> simp_all [callCb, Aborted]
  · rename_i pre post hw; subst hs
    cases pre <;> cases post <;> refine ⟨⟨?_, ?_, ?_, ?_⟩, ⟨?_, ?_⟩, ?_, rfl, rfl, ?_⟩ <;>
      simp_all [callCb, Aborted]
  · rename_i r hw; subst hs
    refine ⟨⟨?_, ?_, ?_, ?_⟩, ⟨?_, ?_⟩, ?_, rfl, rfl, ?_⟩ <;> simp_all [callCb, Aborted]
  · rename_i hw; exact absurd hw (hns _ _)

/-- Once a result is in the log or the future was used, the worker is finished. -/
theorem finished_of_invalid {s : St} (hf : FutInv s) (h : s.valid = false) : s.w = .finished := by
  have h3 := hf.f3 h
  by_cases hw : s.w = .finished
  · exact hw
  · have := hf.f1.2 hw; simp [this] at h3

/-- Steps of the worker, or of the environment on it: conclusions shared by all of them. -/
theorem sig_worker {s s' : St} (hf : FutInv s) (h : SigInv s) (hcore : SigCore s') (hm : Mono s s')
    (ho : s'.o = s.o) (hv : s'.valid = s.valid) (hnf : s.w ≠ .finished)
    (hl : ∀ b, Obs.closeRet b ∈ s'.log ↔ Obs.closeRet b ∈ s.log)
    (hw : ∀ c n, s'.w = .selfClose c n → closePcOk s' c) : SigInv s' := by
  have hvt : s.valid = true := by
    cases hv' : s.valid with
    | true => rfl
    | false => exact absurd (finished_of_invalid hf hv') hnf
  have hno : ¬ ∃ b, Obs.closeRet b ∈ s.log := fun hb => by simp [(h.ret hb).1] at hvt
  refine ⟨hcore, ?_, hw, ?_, ?_, ?_⟩
  · intro c hc; rw [ho] at hc; exact closePcOk_mono hm (h.oPc c hc)
  · intro hd
    rw [ho] at hd
    apply hm.1
    apply h.done
    rcases hd with h1 | h1 | h1 | ⟨b, h1⟩
    · exact .inl h1
    · exact .inr (.inl h1)
    · exact .inr (.inr (.inl h1))
    · exact absurd ⟨b, (hl b).1 h1⟩ hno
  · rintro ⟨b, hb⟩; exact absurd ⟨b, (hl b).1 hb⟩ hno
  · intro hx; rw [hv, hvt] at hx; simp at hx

theorem sig_step {cfg : Cfg} {s s' : St} {a : Act} (hfd : s.sb.fdOk = true) (hf : FutInv s)
    (h : SigInv s) (hs : step cfg s a = some s') : SigInv s' := by
  cases a with
  | w =>
    have hnf : s.w ≠ .finished := by
      intro hw; simp [step, wStep, hw] at hs
    by_cases hsc : ∃ c n, s.w = .selfClose c n
    · obtain ⟨c, n, hw⟩ := hsc
      simp only [step, wStep, hw] at hs
      have hpc := h.wPc c n hw
      split at hs
      · simp at hs
      · rename_i s1 c' hc
        simp at hs; subst hs
        obtain ⟨k1, k2, k3, k4⟩ := closeStep_sig hfd h.core hpc hc
        obtain ⟨e1, e2, e3, e4, e5, e6, e7, e8⟩ := closeStep_frame hc
        have hm : Mono s { s1 with w := .selfClose c' n } := by
          refine ⟨k2.1, fun hx => ?_⟩
          have := k2.2 hx
          simpa [e2, hw, Aborted] using this
        refine sig_worker hf h ⟨k1.s2, ?_, ?_, ?_⟩ hm e3 ?_ hnf ?_ ?_
        · intro hr; have := k1.s4 hr; simpa [e2, hw, Aborted] using this
        · intro v hv; simp at hv
        · intro hv; simp at hv
        · rcases e8 with e8 | ⟨_, _, e8⟩
          · exact e8
          · simp [hf.f1.2 hnf] at e8
        · intro b; rw [e1]
        · intro c2 n2 heq
          simp at heq
          obtain ⟨rfl, rfl⟩ := heq
          have := k3 c' rfl
          cases c' <;> simp_all [closePcOk, Aborted]
      · rename_i s1 b hc
        simp at hs; subst hs
        obtain ⟨k1, k2, k3, k4⟩ := closeStep_sig hfd h.core hpc hc
        have hv := (k4 b rfl).2.1
        obtain ⟨e1, e2, e3, e4, e5, e6, e7, e8⟩ := closeStep_frame hc
        rcases e8 with e8 | ⟨_, _, e8⟩
        · rw [e8] at hv; exact absurd (finished_of_invalid hf hv) hnf
        · simp [hf.f1.2 hnf] at e8
    · obtain ⟨k1, k2, k3, k4, k5, k6⟩ :=
        wstep_sig hfd h.core (fun c n hw => hsc ⟨c, n, hw⟩) (by simpa [step] using hs)
      exact sig_worker hf h k1 k2 k4 k5 hnf k6 (fun c n hw => absurd hw (k3 c n))
  | o =>
    simp only [step, oStep] at hs
    split at hs
    · rename_i c ho
      have hpc := h.oPc c (by rw [ho]; rfl)
      split at hs
      · simp at hs
      · rename_i s1 c' hc
        simp at hs; subst hs
        obtain ⟨k1, k2, k3, k4⟩ := closeStep_sig hfd h.core hpc hc
        obtain ⟨e1, e2, e3, e4, e5, e6, e7, e8⟩ := closeStep_frame hc
        have hval : s1.valid = s.valid := by
          rcases e8 with e8 | ⟨rfl, _, e8⟩
          · exact e8
          · simp only [closeStep] at hc; split at hc <;> simp at hc
        refine ⟨⟨k1.s2, k1.s4, k1.s6, k1.s6'⟩, ?_, ?_, ?_, ?_, ?_⟩
        · intro c2 hc2; simp [closeOf] at hc2; subst hc2; exact k3 _ rfl
        · intro c2 n hw; exact closePcOk_mono (s := s) k2 (h.wPc c2 n (e2 ▸ hw))
        · intro hd; apply k2.1; apply h.done; simp only [reduceCtorEq, false_or] at hd; rw [e1] at hd; exact .inr (.inr (.inr hd))
        · intro hb; simp only [e1, e4, hval] at hb ⊢; exact h.ret hb
        · intro hv; simp only [hval, e1] at hv ⊢
          rcases h.inv hv with h' | h'
          · simp [ho, InDtor] at h'
          · exact .inr h'
      · rename_i s1 b hc
        simp at hs; subst hs
        obtain ⟨k1, k2, k3, k4⟩ := closeStep_sig hfd h.core hpc hc
        obtain ⟨e1, e2, e3, e4, e5, e6, e7, e8⟩ := closeStep_frame hc
        obtain ⟨q1, q2, q3⟩ := k4 b rfl
        refine ⟨⟨k1.s2, k1.s4, k1.s6, k1.s6'⟩, ?_, ?_, ?_, ?_, ?_⟩
        · intro c2 hc2; simp [closeOf] at hc2
        · intro c2 n hw; exact closePcOk_mono (s := s) k2 (h.wPc c2 n (e2 ▸ hw))
        · intro _; exact q1
        · intro _
          refine ⟨q2, ?_⟩
          intro hfut
          simp only [e4] at hfut
          simp only [e1, List.mem_append, List.mem_singleton]
          rcases q3 with ⟨_, q3⟩ | ⟨q3, q4⟩
          · rw [hfut] at q3; simp at q3; subst q3; exact .inr rfl
          · left
            rcases h.inv q3 with h' | h'
            · simp [ho, InDtor] at h'
            · exact (h.ret h').2 hfut
        · intro _; right; exact ⟨b, by simp⟩
    · rename_i c ho
      have hpc := h.oPc c (by rw [ho]; rfl)
      split at hs
      · simp at hs
      · rename_i s1 c' hc
        simp at hs; subst hs
        obtain ⟨k1, k2, k3, k4⟩ := closeStep_sig hfd h.core hpc hc
        obtain ⟨e1, e2, e3, e4, e5, e6, e7, e8⟩ := closeStep_frame hc
        have hval : s1.valid = s.valid := by
          rcases e8 with e8 | ⟨rfl, _, e8⟩
          · exact e8
          · simp only [closeStep] at hc; split at hc <;> simp at hc
        refine ⟨⟨k1.s2, k1.s4, k1.s6, k1.s6'⟩, ?_, ?_, ?_, ?_, ?_⟩
        · intro c2 hc2; simp [closeOf] at hc2; subst hc2; exact k3 _ rfl
        · intro c2 n hw; exact closePcOk_mono (s := s) k2 (h.wPc c2 n (e2 ▸ hw))
        · intro hd; apply k2.1; apply h.done; simp only [reduceCtorEq, false_or] at hd; rw [e1] at hd; exact .inr (.inr (.inr hd))
        · intro hb; simp only [e1, e4, hval] at hb ⊢; exact h.ret hb
        · intro _; left; trivial
      · rename_i s1 b hc
        simp at hs; subst hs
        obtain ⟨k1, k2, k3, k4⟩ := closeStep_sig hfd h.core hpc hc
        obtain ⟨e1, e2, e3, e4, e5, e6, e7, e8⟩ := closeStep_frame hc
        obtain ⟨q1, q2, q3⟩ := k4 b rfl
        refine ⟨⟨k1.s2, k1.s4, k1.s6, k1.s6'⟩, ?_, ?_, ?_, ?_, ?_⟩
        · intro c2 hc2; simp [closeOf] at hc2
        · intro c2 n hw; exact closePcOk_mono (s := s) k2 (h.wPc c2 n (e2 ▸ hw))
        · intro _; exact q1
        · intro hb; simp only [e1, e4] at hb ⊢; exact ⟨q2, (h.ret hb).2⟩
        · intro _; left; trivial
    · rename_i ho
      have hrel := h.done (.inl ho)
      obtain ⟨⟨s2, s4, s6, s6'⟩, h1, h2, h3, h4, h5⟩ := h
      split at hs
      · split at hs <;> simp at hs; subst hs
        refine ⟨⟨s2, s4, s6, s6'⟩, ?_, h2, fun _ => hrel, h4, fun _ => .inl trivial⟩
        intro c hc; simp [closeOf] at hc
      · simp at hs; subst hs
        refine ⟨⟨s2, s4, s6, s6'⟩, ?_, h2, fun _ => hrel, h4, fun _ => .inl trivial⟩
        intro c hc; simp [closeOf] at hc
    · rename_i ho
      have hrel := h.done (.inr (.inl ho))
      obtain ⟨⟨s2, s4, s6, s6'⟩, h1, h2, h3, h4, h5⟩ := h
      simp at hs; subst hs
      refine ⟨⟨s2, s4, s6, s6'⟩, ?_, h2, fun _ => hrel, ?_, fun _ => .inl trivial⟩
      · intro c hc; simp [closeOf] at hc
      · simpa using h4
    · simp at hs
  | wOpen evs r =>
    simp only [step] at hs
    split at hs <;> try simp at hs
    rename_i sec hw
    obtain ⟨_, rfl⟩ := hs
    obtain ⟨s2, s4, s6, s6'⟩ := h.core
    refine sig_worker hf h ⟨s2, ?_, ?_, ?_⟩ ⟨id, ?_⟩ rfl rfl (by simp [hw]) (fun _ => Iff.rfl) ?_ <;>
      simp_all [Aborted]
  | wWake items =>
    simp only [step] at hs
    split at hs <;> try simp at hs
    rename_i sec hw
    obtain ⟨_, rfl⟩ := hs
    obtain ⟨s2, s4, s6, s6'⟩ := h.core
    refine sig_worker hf h ⟨s2, ?_, ?_, ?_⟩ ⟨id, ?_⟩ rfl rfl (by simp [hw]) (fun _ => Iff.rfl) ?_ <;>
      simp_all [Aborted]
  | wWakeErr =>
    simp only [step] at hs
    split at hs <;> try simp at hs
    rename_i sec hw
    subst hs
    obtain ⟨s2, s4, s6, s6'⟩ := h.core
    refine sig_worker hf h ⟨s2, ?_, ?_, ?_⟩ ⟨id, ?_⟩ rfl rfl (by simp [hw]) (fun _ => Iff.rfl) ?_ <;>
      simp_all [Aborted]
  | cbReturn =>
    simp only [step] at hs
    split at hs <;> try simp at hs
    rename_i n hw
    subst hs
    obtain ⟨s2, s4, s6, s6'⟩ := h.core
    have hn := hf.f11 n hw
    refine sig_worker hf h ⟨s2, ?_, ?_, ?_⟩ ⟨id, ?_⟩ rfl rfl (by simp [hw]) (fun _ => Iff.rfl) ?_
    · simpa [hw, Aborted] using s4
    · rintro v rfl; simp [Flat] at hn
    · rintro rfl; simp [Flat] at hn
    · simp [hw, Aborted]
    · rintro c m rfl; simp [Flat] at hn
  | cbClose =>
    simp only [step] at hs
    split at hs <;> try simp at hs
    rename_i n hw
    subst hs
    obtain ⟨s2, s4, s6, s6'⟩ := h.core
    refine sig_worker hf h ⟨s2, ?_, ?_, ?_⟩ ⟨id, ?_⟩ rfl rfl (by simp [hw]) (fun _ => Iff.rfl) ?_ <;>
      simp_all [Aborted]
    trivial
  | oClose =>
    simp only [step] at hs
    split at hs <;> simp at hs
    rename_i ho
    subst hs
    obtain ⟨⟨s2, s4, s6, s6'⟩, h1, h2, h3, h4, h5⟩ := h
    refine ⟨⟨s2, s4, s6, s6'⟩, ?_, h2, ?_, ?_, ?_⟩
    · intro c hc; simp [closeOf] at hc; subst hc; trivial
    · simpa [ho] using h3
    · simpa using h4
    · simpa [InDtor, ho] using h5
  | oDtor =>
    simp only [step] at hs
    split at hs <;> simp at hs
    rename_i ho
    subst hs
    obtain ⟨⟨s2, s4, s6, s6'⟩, h1, h2, h3, h4, h5⟩ := h
    refine ⟨⟨s2, s4, s6, s6'⟩, ?_, h2, ?_, ?_, ?_⟩
    · intro c hc; simp [closeOf] at hc; subst hc; trivial
    · simpa [ho] using h3
    · simpa using h4
    · simp [InDtor]

theorem sig_reachable {cfg : Cfg} {s : St} (hfd : cfg.fdOk = true) (h : Reachable cfg s) : SigInv s := by
  have : Reachable cfg s ∧ SigInv s := by
    refine reachable_induct (P := fun s => Reachable cfg s ∧ SigInv s) ⟨⟨[], rfl⟩, sig_init cfg⟩ ?_ s h
    intro s a s' ⟨hr, hi⟩ hs
    exact ⟨reachable_step hr hs, sig_step (by rw [sbfd_reachable hr, hfd]) (fut_reachable hr) hi hs⟩
  exact this.2

end Verif.Lemmas.Life
