import Verif.Lemmas.Lifecycle3
/-! Lemmas about whole runs. -/

namespace Verif.Lemmas.Life
open Verif Verif.Model Verif.Model.Life Verif.Spec
set_option linter.unusedSimpArgs false

theorem returned_released {cfg : Cfg} {s : St} (hfd : cfg.fdOk = true) (h : Reachable cfg s)
    (hr : ReleaseReturned s) : s.sb.is = .released := by
  have hs := sig_reachable hfd h
  rcases hr with ⟨v, h1⟩ | h1 | ⟨v, h1⟩ | h1 | h1 | h1 | h1 | ⟨v, n, h1⟩ | ⟨n, h1⟩ | h1
  · exact (hs.oPc (.check v) (by rw [h1]; rfl)).2
  · exact hs.oPc .get (by rw [h1]; rfl)
  · exact (hs.oPc (.check v) (by rw [h1]; rfl)).2
  · exact hs.oPc .get (by rw [h1]; rfl)
  · exact hs.done (.inl h1)
  · exact hs.done (.inr (.inl h1))
  · exact hs.done (.inr (.inr (.inl h1)))
  · exact (hs.wPc _ _ h1).2
  · exact hs.wPc _ _ h1
  · exact hs.done (.inr (.inr (.inr h1)))

/-- Once released, always released (the flag; the counter may be taken by the start-up check). -/
theorem released_step {cfg : Cfg} {s s' : St} {a : Act} (hfd : cfg.fdOk = true) (h : Reachable cfg s)
    (hrel : s.sb.is = .released) (hs : step cfg s a = some s') : s'.sb.is = .released := by
  have hsig := sig_reachable hfd h
  have hfd' : s.sb.fdOk = true := by rw [sbfd_reachable h, hfd]
  cases a with
  | w =>
    by_cases hsc : ∃ c n, s.w = .selfClose c n
    · obtain ⟨c, n, hw⟩ := hsc
      simp only [step, wStep, hw] at hs
      split at hs
      · simp at hs
      · rename_i hc; simp at hs; subst hs
        exact (closeStep_sig hfd' hsig.core (hsig.wPc c n hw) hc).2.1.1 hrel
      · rename_i hc; simp at hs; subst hs
        exact (closeStep_sig hfd' hsig.core (hsig.wPc c n hw) hc).2.1.1 hrel
    · exact (wstep_sig hfd' hsig.core (fun c n hw => hsc ⟨c, n, hw⟩) (by simpa [step] using hs)).2.1.1 hrel
  | o =>
    simp only [step, oStep] at hs
    split at hs
    · rename_i c ho
      have hpc := hsig.oPc c (by rw [ho]; rfl)
      split at hs
      · simp at hs
      · rename_i hc; simp at hs; subst hs; exact (closeStep_sig hfd' hsig.core hpc hc).2.1.1 hrel
      · rename_i hc; simp at hs; subst hs; exact (closeStep_sig hfd' hsig.core hpc hc).2.1.1 hrel
    · rename_i c ho
      have hpc := hsig.oPc c (by rw [ho]; rfl)
      split at hs
      · simp at hs
      · rename_i hc; simp at hs; subst hs; exact (closeStep_sig hfd' hsig.core hpc hc).2.1.1 hrel
      · rename_i hc; simp at hs; subst hs; exact (closeStep_sig hfd' hsig.core hpc hc).2.1.1 hrel
    · split at hs
      · split at hs <;> simp at hs; subst hs; exact hrel
      · simp at hs; subst hs; exact hrel
    · simp at hs; subst hs; exact hrel
    · simp at hs
  | _ =>
    simp only [step] at hs
    split at hs <;> (try split at hs) <;> simp at hs <;> subst hs <;> exact hrel

theorem released_run {cfg : Cfg} {s s' : St} {acts : List Act} (hfd : cfg.fdOk = true)
    (h : Reachable cfg s) (hrel : s.sb.is = .released) (hr : run cfg s acts = some s') :
    s'.sb.is = .released :=
  (run_induct (P := fun t => Reachable cfg t ∧ t.sb.is = .released)
    (fun _ _ _ ⟨h1, h2⟩ hs => ⟨reachable_step h1 hs, released_step hfd h1 h2 hs⟩) acts s s' ⟨h, hrel⟩ hr).2

/-- A callback that called `close()` never comes back. -/
theorem selfClose_step {cfg : Cfg} {s s' : St} {a : Act} {c : ClosePc} {n : WPc} (hfd : cfg.fdOk = true)
    (h : Reachable cfg s) (hw : s.w = .selfClose c n) (hs : step cfg s a = some s') :
    (∃ c', s'.w = .selfClose c' n) ∧ callbacks s'.log = callbacks s.log ∧
    (∀ b, Obs.closeRet b ∈ s'.log ↔ Obs.closeRet b ∈ s.log) ∧
    (Obs.dtorRet ∈ s'.log ↔ Obs.dtorRet ∈ s.log) := by
  have hsig := sig_reachable hfd h
  have hfd' : s.sb.fdOk = true := by rw [sbfd_reachable h, hfd]
  have hf := fut_reachable h
  have hfut : s.fut = none := hf.f1.2 (by simp [hw])
  have hval : s.valid = true := by
    cases hv : s.valid with
    | true => rfl
    | false => have := finished_of_invalid hf hv; simp [hw] at this
  have noret : ∀ c s1 b, closePcOk s c → closeStep s c ≠ some (s1, .inr b) := by
    intro c s1 b hpc hc
    cases c <;> simp only [closeStep] at hc
    · split at hc <;> simp at hc
    · simp at hc
    · simp at hc
    · simp only [closePcOk] at hpc; simp [hpc.1, hval] at hc
    · simp [hfut] at hc
  cases a with
  | w =>
    simp only [step, wStep, hw] at hs
    split at hs
    · simp at hs
    · rename_i s1 c' hc; simp at hs; subst hs
      obtain ⟨e1, _⟩ := closeStep_frame hc
      exact ⟨⟨c', rfl⟩, by simp [e1], by simp [e1], by simp [e1]⟩
    · rename_i s1 b hc; exact absurd hc (noret _ _ _ (hsig.wPc c n hw))
  | o =>
    simp only [step, oStep] at hs
    split at hs
    · rename_i c1 ho
      have hpc := hsig.oPc c1 (by rw [ho]; rfl)
      split at hs
      · simp at hs
      · rename_i s1 c' hc; simp at hs; subst hs
        obtain ⟨e1, e2, _⟩ := closeStep_frame hc
        exact ⟨⟨c, by simp [e2, hw]⟩, by simp [e1], by simp [e1], by simp [e1]⟩
      · rename_i s1 b hc; exact absurd hc (noret _ _ _ hpc)
    · rename_i c1 ho
      have hpc := hsig.oPc c1 (by rw [ho]; rfl)
      split at hs
      · simp at hs
      · rename_i s1 c' hc; simp at hs; subst hs
        obtain ⟨e1, e2, _⟩ := closeStep_frame hc
        exact ⟨⟨c, by simp [e2, hw]⟩, by simp [e1], by simp [e1], by simp [e1]⟩
      · rename_i s1 b hc; exact absurd hc (noret _ _ _ hpc)
    · simp [hval, hfut] at hs
    · rename_i ho; have := hf.f4 (.inl ho); simp [hfut] at this
    · simp at hs
  | oClose =>
    simp only [step] at hs
    split at hs <;> simp at hs
    subst hs; simp [hw, callbacks_append, callbacks]
  | oDtor =>
    simp only [step] at hs
    split at hs <;> simp at hs
    subst hs; simp [hw, callbacks_append, callbacks]
  | _ => simp only [step, hw] at hs; simp at hs

theorem selfClose_run {cfg : Cfg} {s s' : St} {acts : List Act} {c : ClosePc} {n : WPc}
    (hfd : cfg.fdOk = true) (h : Reachable cfg s) (hw : s.w = .selfClose c n)
    (hr : run cfg s acts = some s') :
    (∃ c', s'.w = .selfClose c' n) ∧ callbacks s'.log = callbacks s.log ∧
    (∀ b, Obs.closeRet b ∈ s'.log ↔ Obs.closeRet b ∈ s.log) ∧
    (Obs.dtorRet ∈ s'.log ↔ Obs.dtorRet ∈ s.log) := by
  have := run_induct (cfg := cfg) (P := fun t => Reachable cfg t ∧ (∃ c', t.w = .selfClose c' n) ∧
    callbacks t.log = callbacks s.log ∧ (∀ b, Obs.closeRet b ∈ t.log ↔ Obs.closeRet b ∈ s.log) ∧
    (Obs.dtorRet ∈ t.log ↔ Obs.dtorRet ∈ s.log))
    (fun t a t' ⟨h1, ⟨c', h2⟩, h3, h4, h5⟩ hs => by
      obtain ⟨k1, k2, k3, k4⟩ := selfClose_step hfd h1 h2 hs
      exact ⟨reachable_step h1 hs, k1, k2.trans h3, fun b => (k3 b).trans (h4 b), k4.trans h5⟩)
    acts s s' ⟨h, ⟨c, hw⟩, rfl, fun _ => Iff.rfl, Iff.rfl⟩ hr
  exact this.2

/-- Nobody asked to stop so far. -/
structure Undisturbed (cfg : Cfg) (s : St) : Prop where
  o : s.o = .idle
  sb : (s.w = .start ∨ s.w = .stLoad) → s.sb.is = .pending
  w : (s.w ≠ .stRead ∧ ∀ v, s.w ≠ .stStore v) ∧ (∀ b, s.w = .live b → b = cfg.dirOk)
  cbs : ∀ e l, callbacks s.log = e :: l → e = liveEv cfg.path cfg.dirOk
  start : s.w ≠ .start → s.w = .stLoad → cfg.dirOk = true

theorem undisturbed_step {cfg : Cfg} {s s' : St} {a : Act} (hr : Reachable cfg s) (h : Undisturbed cfg s)
    (hs : step cfg s a = some s') (hc : a ≠ .oClose) (hd : a ≠ .oDtor) : Undisturbed cfg s' := by
  have hsh := shape_reachable hr
  have hf := fut_reachable hr
  obtain ⟨h1, h2, ⟨h3, h3'⟩, h4, h5⟩ := h
  have grow : ∀ (x : List Ev) e l, callbacks s.log ≠ [] → callbacks s.log ++ x = e :: l →
      e = liveEv cfg.path cfg.dirOk := by
    intro x e l hne heq
    cases hcb : callbacks s.log with
    | nil => exact absurd hcb hne
    | cons e' l' =>
      rw [hcb] at heq; simp at heq; rw [← heq.1]; exact h4 e' l' hcb
  cases a with
  | w =>
    simp only [step, wStep] at hs
    split at hs <;> try (simp only [reduceCtorEq, Option.some.injEq] at hs)
    · rename_i hw; subst hs
      have := h2 (.inl hw)
      constructor <;> (try split) <;> simp_all
    · rename_i hw; subst hs
      have hp := h2 (.inr hw)
      have hdir := h5 (by simp [hw]) hw
      constructor <;> simp_all
    · rename_i hw; exact absurd hw h3.1
    · rename_i hw; exact absurd hw (h3.2 _)
    · rename_i pre hw; subst hs
      have hp := h3' pre hw
      rw [hw] at hsh; simp only [Shape] at hsh
      refine ⟨h1, ?_, ?_, ?_, ?_⟩ <;> simp [callCb, callbacks_append, callbacks, hsh.1, hp]
    · rename_i hw; subst hs; constructor <;> simp_all
    · rename_i sec e es r items hw; subst hs
      rw [hw] at hsh; simp only [Shape] at hsh
      obtain ⟨⟨_, mids, hl, _⟩, _⟩ := hsh
      refine ⟨h1, by simp [callCb], by simp [callCb], ?_, by simp [callCb]⟩
      simp only [callCb, callbacks_append]
      intro e' l' heq; exact grow _ e' l' (by simp [hl]) heq
    · rename_i sec ok hw; subst hs; constructor <;> (try split) <;> simp_all
    · rename_i hw; subst hs; constructor <;> simp_all
    · rename_i hw; subst hs; constructor <;> simp_all
    · rename_i hw; subst hs; constructor <;> simp_all
    · rename_i sec r hw
      rw [hw] at hsh; simp only [Shape] at hsh
      obtain ⟨⟨_, mids, hl, _⟩, _⟩ := hsh
      split at hs
      · simp at hs; subst hs; constructor <;> simp_all
      · split at hs <;> simp at hs <;> subst hs
        · refine ⟨h1, by simp [callCb], by simp [callCb], ?_, by simp [callCb]⟩
          simp only [callCb, callbacks_append]
          intro e' l' heq; exact grow _ e' l' (by simp [hl]) heq
        · exact ⟨h1, by simp, by simp, h4, by simp⟩
    · rename_i pre post hw; subst hs
      refine ⟨h1, by simp [callCb], by simp [callCb], ?_, by simp [callCb]⟩
      simp only [callCb, callbacks_append]
      intro e' l' heq
      refine grow _ e' l' ?_ heq
      rw [hw] at hsh
      cases pre <;> cases post <;> simp only [Shape] at hsh
      · simp [hsh.2]
      · simp [hsh.2]
      · obtain ⟨_, _, _, hl, _⟩ := hsh; simp [hl]
      · obtain ⟨_, _, hl, _⟩ := hsh; simp [hl]
    · rename_i hw; subst hs; exact ⟨h1, by simp, by simp, h4, by simp⟩
    · split at hs
      · simp at hs
      · rename_i hcs; simp at hs; subst hs
        obtain ⟨e1, e2, e3, _⟩ := closeStep_frame hcs
        refine ⟨by simp [e3, h1], by simp, by simp, ?_, by simp⟩
        simp only [e1]; exact h4
      · rename_i hcs; simp at hs; subst hs
        obtain ⟨e1, e2, e3, _⟩ := closeStep_frame hcs
        refine ⟨by simp [e3, h1], by simp, by simp, ?_, by simp⟩
        simp only [e1]; exact h4
  | o => simp [step, oStep, h1] at hs
  | oClose => exact absurd rfl hc
  | oDtor => exact absurd rfl hd
  | cbReturn =>
    simp only [step] at hs
    split at hs <;> try simp at hs
    rename_i n hw
    have hn := hf.f11 n hw
    subst hs
    refine ⟨h1, ?_, ?_, h4, ?_⟩
    · rintro (rfl | rfl) <;> simp [Flat] at hn
    · refine ⟨⟨?_, ?_⟩, ?_⟩
      · rintro rfl; simp [Flat] at hn
      · rintro v rfl; simp [Flat] at hn
      · rintro b rfl
        simp [Flat] at hn
    · rintro _ rfl; simp [Flat] at hn
  | _ =>
    simp only [step] at hs
    split at hs <;> (try split at hs) <;> simp at hs <;> subst hs <;>
      exact ⟨h1, by simp, by simp, h4, by simp⟩

/-- The start-up check fails or will fail. -/
def Doomed : WPc → Prop
  | .start | .stLoad | .stRead | .stStore _ | .live false | .die false false | .setFut false
  | .finished => True
  | .inCb n | .selfClose _ n => Doomed n
  | _ => False

structure DoomInv (cfg : Cfg) (s : St) : Prop where
  r : Reachable cfg s
  rel : s.sb.is = .released
  d : Doomed s.w
  f : ∀ b, s.fut = some b → b = false
  c : ∀ e ∈ callbacks s.log, e = liveMsg cfg.path false ∨ e = dieMsg cfg.path false

theorem doom_step {cfg : Cfg} {s s' : St} {a : Act} (hfd : cfg.fdOk = true) (h : DoomInv cfg s)
    (hs : step cfg s a = some s') : DoomInv cfg s' := by
  obtain ⟨h1, h2, h3, h4, h5⟩ := h
  have hsig := sig_reachable hfd h1
  refine ⟨reachable_step h1 hs, released_step hfd h1 h2 hs, ?_, ?_, ?_⟩
  all_goals
    cases a with
    | w =>
      simp only [step, wStep] at hs
      split at hs <;> try (simp only [reduceCtorEq, Option.some.injEq] at hs)
      all_goals try (rename_i hw; subst hs; simp only [hw, Doomed] at h3 <;> done)
      all_goals try (rename_i hw; simp only [hw, Doomed] at h3 <;> done)
      · rename_i hw; subst hs
        first | (exact h4) | (exact h5) | (simp only; split <;> trivial)
      · rename_i hw; subst hs
        first | (exact h4) | (exact h5) | (simp [h2, Doomed])
      · rename_i hw; subst hs
        first | (exact h4) | (exact h5) | trivial
      · rename_i v hw; subst hs
        have := hsig.core.s6 v hw
        subst this
        first | (exact h4) | (exact h5) | (simp [Doomed])
      · rename_i pre hw; subst hs
        rw [hw] at h3
        cases pre with
        | true => simp [Doomed] at h3
        | false =>
          first
            | (exact h4)
            | (simp [callCb, Doomed]; done)
            | (simp only [callCb, callbacks_append, callbacks, List.mem_append, List.mem_singleton]
               rintro e (he | rfl)
               · exact h5 e he
               · left; exact liveEv_eq _ _)
      · rename_i pre post hw; subst hs
        rw [hw] at h3
        cases pre <;> cases post <;> simp only [Doomed] at h3
        first
          | (exact h4)
          | (simp [callCb, Doomed]; done)
          | (simp only [callCb, callbacks_append, callbacks, List.mem_append, List.mem_singleton]
             rintro e (he | rfl)
             · exact h5 e he
             · right; exact dieEv_eq _ _)
      · rename_i r hw; subst hs
        rw [hw] at h3
        cases r <;> simp only [Doomed] at h3
        first | (exact h5) | trivial | (intro b hb; simpa using hb.symm)
      · rename_i c n hw
        rw [hw] at h3
        split at hs
        · simp at hs
        · rename_i hc; simp at hs; subst hs
          obtain ⟨e1, _, _, e4, _⟩ := closeStep_frame hc
          first | (exact h3) | (simp only [e4]; exact h4) | (simp only [e1]; exact h5)
        · rename_i hc; simp at hs; subst hs
          obtain ⟨e1, _, _, e4, _⟩ := closeStep_frame hc
          first | (exact h3) | (simp only [e4]; exact h4) | (simp only [e1]; exact h5)
    | o =>
      simp only [step, oStep] at hs
      split at hs
      · split at hs
        · simp at hs
        · rename_i hc; simp at hs; subst hs
          obtain ⟨e1, e2, _, e4, _⟩ := closeStep_frame hc
          first | (simp only [e2]; exact h3) | (simp only [e4]; exact h4) | (simp only [e1]; exact h5)
        · rename_i hc; simp at hs; subst hs
          obtain ⟨e1, e2, _, e4, _⟩ := closeStep_frame hc
          first
            | (simp only [e2]; exact h3)
            | (simp only [e4]; exact h4)
            | (simp only [e1, callbacks_append, callbacks, List.append_nil]; exact h5)
      · split at hs
        · simp at hs
        · rename_i hc; simp at hs; subst hs
          obtain ⟨e1, e2, _, e4, _⟩ := closeStep_frame hc
          first | (simp only [e2]; exact h3) | (simp only [e4]; exact h4) | (simp only [e1]; exact h5)
        · rename_i hc; simp at hs; subst hs
          obtain ⟨e1, e2, _, e4, _⟩ := closeStep_frame hc
          first | (simp only [e2]; exact h3) | (simp only [e4]; exact h4) | (simp only [e1]; exact h5)
      · split at hs
        · split at hs <;> simp at hs; subst hs; first | exact h3 | exact h4 | exact h5
        · simp at hs; subst hs; first | exact h3 | exact h4 | exact h5
      · simp at hs; subst hs
        first | exact h3 | exact h4 | (simp only [callbacks_append, callbacks, List.append_nil]; exact h5)
      · simp at hs
    | oClose =>
      simp only [step] at hs
      split at hs <;> simp at hs
      subst hs
      first | exact h3 | exact h4 | (simp only [callbacks_append, callbacks, List.append_nil]; exact h5)
    | oDtor =>
      simp only [step] at hs
      split at hs <;> simp at hs
      subst hs
      first | exact h3 | exact h4 | (simp only [callbacks_append, callbacks, List.append_nil]; exact h5)
    | wOpen evs r =>
      simp only [step] at hs
      split at hs <;> try simp at hs
      rename_i sec hw; simp [hw, Doomed] at h3
    | wWake items =>
      simp only [step] at hs
      split at hs <;> try simp at hs
      rename_i sec hw; simp [hw, Doomed] at h3
    | wWakeErr =>
      simp only [step] at hs
      split at hs <;> try simp at hs
      rename_i sec hw; simp [hw, Doomed] at h3
    | cbReturn =>
      simp only [step] at hs
      split at hs <;> simp at hs
      rename_i n hw; subst hs; rw [hw] at h3
      first | exact h3 | exact h4 | exact h5
    | cbClose =>
      simp only [step] at hs
      split at hs <;> simp at hs
      rename_i n hw; subst hs; rw [hw] at h3
      first | exact h3 | exact h4 | exact h5

/-! ### After a fatal status -/

def strip : WPc → WPc
  | .inCb n | .selfClose _ n => strip n
  | w => w

/-- The worker has left the loop with the fatal status `r`; `c0` was delivered before. -/
def FailInv (cfg : Cfg) (r : Result) (c0 : List Ev) (s : St) : Prop :=
  ((∃ sec, s.w = .aDone sec r) ∧ callbacks s.log = c0 ∧ s.fut = none) ∨
  (strip s.w = .die true false ∧ callbacks s.log = c0 ++ [sendMsg r cfg.path] ∧ s.fut = none) ∨
  (strip s.w = .setFut false ∧ callbacks s.log = c0 ++ [sendMsg r cfg.path, dieEv cfg.path false] ∧
    s.fut = none) ∨
  (s.w = .finished ∧ callbacks s.log = c0 ++ [sendMsg r cfg.path, dieEv cfg.path false] ∧
    s.fut = some false)

theorem oStep_frame {s s' : St} (hs : oStep s = some s') :
    s'.w = s.w ∧ s'.fut = s.fut ∧ callbacks s'.log = callbacks s.log := by
  simp only [oStep] at hs
  split at hs
  · split at hs
    · simp at hs
    · rename_i hc; simp at hs; subst hs
      obtain ⟨e1, e2, _, e4, _⟩ := closeStep_frame hc; simp [e1, e2, e4]
    · rename_i hc; simp at hs; subst hs
      obtain ⟨e1, e2, _, e4, _⟩ := closeStep_frame hc; simp [e1, e2, e4, callbacks_append, callbacks]
  · split at hs
    · simp at hs
    · rename_i hc; simp at hs; subst hs
      obtain ⟨e1, e2, _, e4, _⟩ := closeStep_frame hc; simp [e1, e2, e4]
    · rename_i hc; simp at hs; subst hs
      obtain ⟨e1, e2, _, e4, _⟩ := closeStep_frame hc; simp [e1, e2, e4]
  · split at hs
    · split at hs <;> simp at hs; subst hs; simp
    · simp at hs; subst hs; simp
  · simp at hs; subst hs; simp [callbacks_append, callbacks]
  · simp at hs

/-- Steps of the owner do not touch the worker, the result or what the callback saw. -/
theorem owner_frame {cfg : Cfg} {s s' : St} {a : Act} (ha : isWorker a = false)
    (hs : step cfg s a = some s') :
    s'.w = s.w ∧ s'.fut = s.fut ∧ callbacks s'.log = callbacks s.log := by
  cases a <;> simp [isWorker] at ha
  · exact oStep_frame (by simpa [step] using hs)
  · simp only [step] at hs; split at hs <;> simp at hs; subst hs
    simp [callbacks_append, callbacks]
  · simp only [step] at hs; split at hs <;> simp at hs; subst hs
    simp [callbacks_append, callbacks]

/-- Steps of the worker while it is inside a callback. -/
theorem inside_frame {cfg : Cfg} {s s' : St} {a : Act} (ha : isWorker a = true)
    (hw : (∃ n, s.w = .inCb n) ∨ ∃ c n, s.w = .selfClose c n) (hs : step cfg s a = some s') :
    strip s'.w = strip s.w ∧ s'.fut = s.fut ∧ callbacks s'.log = callbacks s.log := by
  rcases hw with ⟨n, hw⟩ | ⟨c, n, hw⟩
  · cases a <;> simp [isWorker] at ha <;> simp [step, wStep, hw] at hs
    · subst hs; simp [hw, strip]
    · subst hs; simp [hw, strip]
  · cases a <;> simp [isWorker] at ha <;> simp only [step, wStep, hw] at hs <;> try simp at hs
    split at hs
    · simp at hs
    · rename_i hc; simp at hs; subst hs
      obtain ⟨e1, e2, _, e4, _⟩ := closeStep_frame hc; simp [e1, e4, hw, strip]
    · rename_i hc; simp at hs; subst hs
      obtain ⟨e1, e2, _, e4, _⟩ := closeStep_frame hc; simp [e1, e4, hw, strip]

theorem strip_eq {w x : WPc} (h : strip w = x) :
    w = x ∨ (∃ n, w = .inCb n) ∨ (∃ c n, w = .selfClose c n) := by
  cases w <;> simp_all [strip]

theorem fail_step {cfg : Cfg} {s s' : St} {a : Act} {r : Result} {c0 : List Ev}
    (hr : r.isError = true) (hnf : r = .eFanotify → ∀ sec, s.w = .aDone sec r → sec = true)
    (h : FailInv cfg r c0 s) (hs : step cfg s a = some s') :
    FailInv cfg r c0 s' ∧ (∀ sec, s'.w = .aDone sec r → s.w = .aDone sec r) := by
  cases hwk : isWorker a with
  | false =>
    obtain ⟨e1, e2, e3⟩ := owner_frame hwk hs
    refine ⟨?_, by rw [e1]; exact fun _ h => h⟩
    simpa only [FailInv, e1, e2, e3] using h
  | true =>
    rcases h with ⟨⟨sec, hw⟩, hc, hf⟩ | ⟨hw, hc, hf⟩ | ⟨hw, hc, hf⟩ | ⟨hw, hc, hf⟩
    · cases a <;> simp [isWorker] at hwk <;> simp only [step, wStep, hw] at hs <;> try simp at hs
      split at hs
      · rename_i hx
        have := hnf hx.2 sec hw
        simp [this] at hx
      · simp [hr] at hs
        subst hs
        refine ⟨.inr (.inl ⟨rfl, ?_, hf⟩), by simp [callCb]⟩
        simp [callCb, callbacks_append, callbacks, hc]
    · rcases strip_eq hw with hw' | hin
      · cases a <;> simp [isWorker] at hwk <;> simp only [step, wStep, hw'] at hs <;> try simp at hs
        subst hs
        refine ⟨.inr (.inr (.inl ⟨rfl, ?_, hf⟩)), by simp [callCb]⟩
        simp [callCb, callbacks_append, callbacks, hc]
      · obtain ⟨e1, e2, e3⟩ := inside_frame hwk hin hs
        refine ⟨.inr (.inl ⟨e1.trans hw, e3.trans hc, e2.trans hf⟩), ?_⟩
        intro sec hx; rw [hx] at e1; simp [strip] at e1; rw [hw] at e1; simp at e1
    · rcases strip_eq hw with hw' | hin
      · cases a <;> simp [isWorker] at hwk <;> simp only [step, wStep, hw'] at hs <;> try simp at hs
        subst hs
        exact ⟨.inr (.inr (.inr ⟨rfl, hc, rfl⟩)), by simp⟩
      · obtain ⟨e1, e2, e3⟩ := inside_frame hwk hin hs
        refine ⟨.inr (.inr (.inl ⟨e1.trans hw, e3.trans hc, e2.trans hf⟩)), ?_⟩
        intro sec hx; rw [hx] at e1; simp [strip] at e1; rw [hw] at e1; simp at e1
    · cases a <;> simp [isWorker] at hwk <;> simp only [step, wStep, hw] at hs <;> simp at hs

/-! ### Inside the loop -/

theorem mild_keeps {r : Result} (h : Mild r) : r.keepsRunning = true := by
  unfold Mild at h; revert h; cases r <;> decide

/-- The worker is in the event loop and nothing fatal is pending. -/
def InLoop : WPc → Prop
  | .aWait _ => True
  | .aItems _ ok items => ok.keepsRunning = true ∧ WarnOnly items
  | .aEvs _ _ r items => r.keepsRunning = true ∧ WarnOnly items
  | _ => False

theorem warnOnly_tail {i : Item} {is : List Item} (h : WarnOnly (i :: is)) : WarnOnly is :=
  fun j hj => h j (by simp [hj])

theorem inLoop_step {cfg : Cfg} {s s' : St} {a : Act} (h : InLoop (strip s.w))
    (ha : a ≠ .wWakeErr) (hi : ∀ items, a = .wWake items → WarnOnly items)
    (hs : step cfg s a = some s') : InLoop (strip s'.w) := by
  cases hwk : isWorker a with
  | false => obtain ⟨e1, _, _⟩ := owner_frame hwk hs; rw [e1]; exact h
  | true =>
    by_cases hin : (∃ n, s.w = .inCb n) ∨ ∃ c n, s.w = .selfClose c n
    · obtain ⟨e1, _, _⟩ := inside_frame hwk hin hs; rw [e1]; exact h
    · have hst : strip s.w = s.w := by
        cases hw : s.w <;> simp_all [strip]
      rw [hst] at h
      cases hw : s.w with
      | aWait sec =>
        cases a <;> simp [isWorker] at hwk <;> simp [step, wStep, hw] at hs
        · obtain ⟨_, rfl⟩ := hs; exact ⟨by decide, hi _ rfl⟩
        · exact absurd rfl ha
      | aItems sec ok items =>
        rw [hw] at h
        obtain ⟨h1, h2⟩ := h
        cases a <;> simp [isWorker] at hwk <;> simp only [step, wStep, hw] at hs <;> try simp at hs
        cases items with
        | nil => simp [h1] at hs; subst hs; trivial
        | cons i is =>
          obtain ⟨evs, r, rfl, hr⟩ := h2 i (by simp)
          simp at hs; subst hs
          exact ⟨mild_keeps hr, warnOnly_tail h2⟩
      | aEvs sec evs r items =>
        rw [hw] at h
        cases a <;> simp [isWorker] at hwk <;> simp only [step, wStep, hw] at hs <;> try simp at hs
        cases evs with
        | nil => simp at hs; subst hs; exact h
        | cons e es => simp at hs; subst hs; exact h
      | inCb n => exact absurd (.inl ⟨n, hw⟩) hin
      | selfClose c n => exact absurd (.inr ⟨c, n, hw⟩) hin
      | _ => rw [hw] at h; exact absurd h id

/-- Delivering a list of events and coming back. -/
theorem deliver {cfg : Cfg} : ∀ (evs : List Ev) (s : St) (sec : Bool) (r : Result) (items : List Item),
    s.w = .aEvs sec evs r items →
    ∃ acts, (∀ a ∈ acts, a = .w ∨ a = .cbReturn) ∧
      run cfg s acts = some { s with w := .aItems sec r items, log := s.log ++ evs.map Obs.cb } := by
  intro evs
  induction evs with
  | nil => intro s sec r items hw; exact ⟨[.w], by simp, by simp [run, step, wStep, hw]⟩
  | cons e es ih =>
    intro s sec r items hw
    obtain ⟨acts, h1, h2⟩ := ih { s with w := .aEvs sec es r items, log := s.log ++ [Obs.cb e] } sec r items rfl
    refine ⟨.w :: .cbReturn :: acts, ?_, ?_⟩
    · intro a ha; simp at ha; rcases ha with rfl | rfl | ha
      · exact .inl rfl
      · exact .inr rfl
      · exact h1 a ha
    · simp only [run, step, wStep, hw, callCb]
      simp only [h2]; simp

theorem processItems {cfg : Cfg} : ∀ (items : List Item) (s : St) (sec : Bool) (ok : Result),
    s.w = .aItems sec ok items → ok.keepsRunning = true → WarnOnly items →
    ∃ acts, (∀ a ∈ acts, a = .w ∨ a = .cbReturn) ∧
      run cfg s acts = some { s with w := .aWait sec, log := s.log ++ (items.flatMap evsOf).map Obs.cb } := by
  intro items
  induction items with
  | nil => intro s sec ok hw hk _; exact ⟨[.w], by simp, by simp [run, step, wStep, hw, hk]⟩
  | cons i is ih =>
    intro s sec ok hw hk hwo
    obtain ⟨evs, r, rfl, hr⟩ := hwo i (by simp)
    obtain ⟨a1, k1, k2⟩ := deliver (cfg := cfg) evs { s with w := .aEvs sec evs r is } sec r is rfl
    obtain ⟨a2, k3, k4⟩ := ih { s with w := .aItems sec r is, log := s.log ++ evs.map Obs.cb } sec r rfl
      (mild_keeps hr) (warnOnly_tail hwo)
    refine ⟨.w :: (a1 ++ a2), ?_, ?_⟩
    · intro a ha; simp at ha; rcases ha with rfl | ha | ha
      · exact .inl rfl
      · exact k1 a ha
      · exact k3 a ha
    · simp only [run, step, wStep, hw]
      rw [run_append, k2]
      simp only [Option.bind_some, k4, evsOf, List.flatMap_cons, List.map_append, List.append_assoc]

/-! ### One back end only -/

/-- The first back end is in use and its status is not "unavailable". -/
def FirstOnly : WPc → Prop
  | .aWait false => True
  | .aItems false ok items => ok ≠ .eFanotify ∧ itemsOk items = true
  | .aEvs false _ r items => r ≠ .eFanotify ∧ itemsOk items = true
  | .aDone false r => r ≠ .eFanotify
  | .die _ _ | .setFut _ | .finished => True
  | _ => False

theorem firstOnly_step {cfg : Cfg} {s s' : St} {a : Act} (h : FirstOnly (strip s.w))
    (hs : step cfg s a = some s') : FirstOnly (strip s'.w) ∧ ∀ evs r, a ≠ .wOpen evs r := by
  cases hwk : isWorker a with
  | false =>
    obtain ⟨e1, _, _⟩ := owner_frame hwk hs; rw [e1]
    exact ⟨h, by rintro evs r rfl; simp [isWorker] at hwk⟩
  | true =>
    by_cases hin : (∃ n, s.w = .inCb n) ∨ ∃ c n, s.w = .selfClose c n
    · obtain ⟨e1, _, _⟩ := inside_frame hwk hin hs; rw [e1]
      refine ⟨h, ?_⟩
      rintro evs r rfl
      rcases hin with ⟨n, hw⟩ | ⟨c, n, hw⟩ <;> simp [step, hw] at hs
    · have hst : strip s.w = s.w := by
        cases hw : s.w <;> simp_all [strip]
      rw [hst] at h
      cases hw : s.w with
      | aWait sec =>
        rw [hw] at h
        cases sec <;> simp only [FirstOnly] at h
        cases a <;> simp [isWorker] at hwk <;> simp [step, wStep, hw] at hs
        · obtain ⟨⟨h1, _⟩, rfl⟩ := hs; exact ⟨⟨by decide, h1⟩, by simp⟩
        · subst hs; exact ⟨⟨by decide, rfl⟩, by simp⟩
      | aItems sec ok items =>
        rw [hw] at h
        cases sec <;> simp only [FirstOnly] at h
        obtain ⟨h1, h2⟩ := h
        cases a <;> simp [isWorker] at hwk <;> simp only [step, wStep, hw] at hs <;> try simp at hs
        refine ⟨?_, by simp⟩
        cases items with
        | nil =>
          simp at hs; subst hs; simp only
          split
          · trivial
          · exact h1
        | cons i is =>
          cases i with
          | il => simp at hs; subst hs; exact ⟨by decide, by simpa [itemsOk] using h2⟩
          | ke evs r =>
            simp at hs; subst hs
            simp [itemsOk] at h2
            refine ⟨?_, h2.2⟩
            rintro rfl; simp [isRecvResult] at h2
          | unknown => simp at hs; subst hs; exact ⟨by decide, by simpa [itemsOk] using h2⟩
      | aEvs sec evs r items =>
        rw [hw] at h
        cases sec <;> simp only [FirstOnly] at h
        cases a <;> simp [isWorker] at hwk <;> simp only [step, wStep, hw] at hs <;> try simp at hs
        refine ⟨?_, by simp⟩
        cases evs with
        | nil => simp at hs; subst hs; exact h
        | cons e es => simp at hs; subst hs; exact h
      | aDone sec r =>
        rw [hw] at h
        cases sec <;> simp only [FirstOnly] at h
        cases a <;> simp [isWorker] at hwk <;> simp only [step, wStep, hw] at hs <;> try simp at hs
        refine ⟨?_, by simp⟩
        simp [h] at hs
        split at hs <;> simp at hs <;> subst hs <;> trivial
      | die pre post =>
        cases a <;> simp [isWorker] at hwk <;> simp only [step, wStep, hw] at hs <;> try simp at hs
        subst hs; exact ⟨trivial, by simp⟩
      | setFut b =>
        cases a <;> simp [isWorker] at hwk <;> simp only [step, wStep, hw] at hs <;> try simp at hs
        subst hs; exact ⟨trivial, by simp⟩
      | finished => cases a <;> simp [isWorker] at hwk <;> simp [step, wStep, hw] at hs
      | inCb n => exact absurd (.inl ⟨n, hw⟩) hin
      | selfClose c n => exact absurd (.inr ⟨c, n, hw⟩) hin
      | _ => rw [hw] at h; exact absurd h id

theorem doom_run {cfg : Cfg} {s s' : St} {acts : List Act} (hfd : cfg.fdOk = true) (h : DoomInv cfg s)
    (hr : run cfg s acts = some s') : DoomInv cfg s' :=
  run_induct (fun _ _ _ h hs => doom_step hfd h hs) acts s s' h hr

theorem doom_start {cfg : Cfg} {s : St} (hfd : cfg.fdOk = true) (h : Reachable cfg s)
    (hrel : ReleaseReturned s) (hw : s.w = .start ∨ s.w = .stLoad) : DoomInv cfg s := by
  have hf := fut_reachable h
  have hsh := shape_reachable h
  refine ⟨h, returned_released hfd h hrel, ?_, ?_, ?_⟩
  · rcases hw with hw | hw <;> simp [hw, Doomed]
  · have : s.fut = none := hf.f1.2 (by rcases hw with hw | hw <;> simp [hw])
    simp [this]
  · rcases hw with hw | hw <;> rw [hw] at hsh <;> simp only [Shape] at hsh
    · simp [hsh]
    · simp [hsh.1]

end Verif.Lemmas.Life
