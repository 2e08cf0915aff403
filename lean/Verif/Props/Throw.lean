import Verif.Spec.Throw
import Verif.Lemmas.Lifecycle3
/-!
# Callbacks that throw: C147
-/

namespace Verif.Props
open Verif Verif.Model Verif.Model.Life Verif.Spec Verif.Lemmas.Life

/-- C147 as it should be: a callback that throws does not end the program, and the story of the watch is complete when the watch has ended. -/
def C147_full : Prop := ∀ (cfg : Cfg) (x : XSt), XReach cfg x →
  x.dead = false ∧ (x.life.w = .finished → ∃ live die, Ended cfg.path live die (callbacks x.life.log))

private theorem xrun_induct {cfg : Cfg} {P : XSt → Prop} (hstep : ∀ x a x', P x → xstep cfg x a = some x' → P x') :
    ∀ (acts : List XAct) (x x' : XSt), P x → xrun cfg x acts = some x' → P x' := by
  intro acts
  induction acts with
  | nil => intro x x' h hr; simp [xrun] at hr; subst hr; exact h
  | cons a as ih =>
    intro x x' h hr
    simp only [xrun] at hr
    split at hr
    · cases hr
    · rename_i x1 hx1; exact ih x1 x' (hstep x a x1 h hx1) hr

private theorem xlife {cfg : Cfg} {x x' : XSt} {a : Act} (hs : xstep cfg x (.life a) = some x') :
    x.dead = false ∧ ((x.exc = true ∧ atGet x.life.o = true ∧ a = .o ∧ x' = { x with dead := true }) ∨
      ((x.exc && atGet x.life.o && decide (a = .o)) = false ∧ ∃ l, step cfg x.life a = some l ∧ x' = { x with life := l })) := by
  simp only [xstep] at hs
  split at hs
  · cases hs
  · rename_i hd
    refine ⟨by simpa using hd, ?_⟩
    split at hs
    · rename_i h
      simp only [Bool.and_eq_true, decide_eq_true_eq] at h
      simp only [Option.some.injEq] at hs
      exact .inl ⟨h.1.1, h.1.2, h.2, hs.symm⟩
    · rename_i h
      cases hl : step cfg x.life a with
      | none => rw [hl] at hs; simp at hs
      | some l => rw [hl] at hs; simp at hs; exact .inr ⟨by simpa using h, l, rfl, hs.symm⟩

private theorem xthrow {cfg : Cfg} {x x' : XSt} (hs : xstep cfg x .throw = some x') :
    x.dead = false ∧ (∃ n, x.life.w = .inCb n) ∧ x' = { x with life := { x.life with w := .finished, fut := some false }, exc := true } := by
  simp only [xstep] at hs
  split at hs
  · cases hs
  · rename_i hd
    simp only [throwStep] at hs
    split at hs
    · rename_i n hw; simp at hs; exact ⟨by simpa using hd, ⟨n, hw⟩, hs.symm⟩
    · cases hs

/-- Until something is thrown, the watch is one of the lifecycle model; afterwards its thread has ended. -/
private theorem xreach_inv {cfg : Cfg} {x : XSt} (h : XReach cfg x) :
    (x.exc = false → Reachable cfg x.life) ∧ (x.exc = true → x.life.w = .finished) ∧ (x.dead = true → x.exc = true) := by
  obtain ⟨acts, hr⟩ := h
  refine xrun_induct (P := fun x => (x.exc = false → Reachable cfg x.life) ∧ (x.exc = true → x.life.w = .finished) ∧ (x.dead = true → x.exc = true))
    ?_ acts (xinit cfg) x ⟨fun _ => ⟨[], rfl⟩, by simp [xinit], by simp [xinit]⟩ hr
  intro x a x' ⟨h1, h2, h3⟩ hs
  cases a with
  | throw =>
    obtain ⟨_, _, rfl⟩ := xthrow hs
    simp
  | life a =>
    obtain ⟨hd, ⟨he, _, _, rfl⟩ | ⟨_, l, hl, rfl⟩⟩ := xlife hs
    · exact ⟨fun h => by simp [he] at h, fun _ => h2 he, fun _ => he⟩
    · exact ⟨fun h => reachable_step (h1 h) hl, fun h => (finished_step (h2 h) hl).1, fun h => by simp [hd] at h⟩

/-- C147: nothing is delivered after a callback has thrown, whatever the threads do; the die message in particular is not. -/
theorem C147_silent_partial (cfg : Cfg) (x0 x1 x2 : XSt) (hs : xstep cfg x0 .throw = some x1) (acts : List XAct) (hr : xrun cfg x1 acts = some x2) :
    callbacks x2.life.log = callbacks x0.life.log := by
  obtain ⟨_, _, e⟩ := xthrow hs
  have hstep : ∀ x a x', (x.life.w = .finished ∧ callbacks x.life.log = callbacks x0.life.log) → xstep cfg x a = some x' →
      (x'.life.w = .finished ∧ callbacks x'.life.log = callbacks x0.life.log) := by
    intro x a x' ⟨h1, h2⟩ hs
    cases a with
    | throw => obtain ⟨_, ⟨n, hn⟩, _⟩ := xthrow hs; rw [h1] at hn; cases hn
    | life a =>
      obtain ⟨_, ⟨_, _, _, rfl⟩ | ⟨_, l, hl, rfl⟩⟩ := xlife hs
      · exact ⟨h1, h2⟩
      · have := finished_step h1 hl
        exact ⟨this.1, by rw [this.2.1]; exact h2⟩
  exact (xrun_induct hstep acts x1 x2 (by rw [e]; exact ⟨rfl, rfl⟩) hr).2

/-- With a working stop signal the future has been used when the destructor destroys it. -/
private theorem dtorFuture_invalid {cfg : Cfg} (hfd : cfg.fdOk = true) {s : St} (h : Reachable cfg s) : s.o = .dtorFuture → s.valid = false := by
  suffices ∀ s, Reachable cfg s → Reachable cfg s ∧ (s.o = .dtorFuture → s.valid = false) from (this s h).2
  refine reachable_induct ⟨⟨[], rfl⟩, by simp [init]⟩ ?_
  intro s a s' ⟨hreach, ih⟩ hs
  refine ⟨reachable_step hreach hs, ?_⟩
  have hsig := sig_reachable hfd hreach
  have hsb : s.sb.fdOk = true := by rw [sbfd_reachable hreach]; exact hfd
  cases a with
  | o =>
    simp only [step, oStep] at hs
    split at hs
    · split at hs
      · cases hs
      · simp at hs; subst hs; simp
      · simp at hs; subst hs; simp
    · rename_i c ho
      split at hs
      · cases hs
      · simp at hs; subst hs; simp
      · rename_i b hc
        simp at hs; subst hs
        intro _
        exact ((closeStep_sig hsb hsig.core (hsig.oPc c (by rw [ho]; rfl)) hc).2.2.2 b rfl).2.1
    · split at hs
      · split at hs
        · cases hs
        · simp at hs; subst hs; simp
      · simp at hs; subst hs; simp
    · simp at hs; subst hs; simp
    · cases hs
  | oClose => simp only [step] at hs; split at hs <;> simp at hs; subst hs; simp
  | oDtor => simp only [step] at hs; split at hs <;> simp at hs; subst hs; simp
  | w =>
    simp only [step] at hs
    intro ho
    have : s'.o = s.o ∧ (s.valid = false → s'.valid = false) := by
      unfold wStep at hs
      split at hs
      all_goals first
        | (simp [callCb] at hs; subst hs; exact ⟨rfl, id⟩)
        | cases hs
        | (split at hs <;> (try split at hs) <;> simp [callCb] at hs <;> subst hs <;> exact ⟨rfl, id⟩)
        | skip
      · split at hs
        · cases hs
        · rename_i hc; simp at hs; subst hs
          obtain ⟨_, _, h1, _, _, _, _, h2 | h2⟩ := closeStep_frame hc
          · exact ⟨h1, by simp [h2]⟩
          · exact ⟨h1, by simp [h2.2.1]⟩
        · rename_i hc; simp at hs; subst hs
          obtain ⟨_, _, h1, _, _, _, _, h2 | h2⟩ := closeStep_frame hc
          · exact ⟨h1, by simp [h2]⟩
          · exact ⟨h1, by simp [h2.2.1]⟩
    exact this.2 (ih (by rw [← this.1]; exact ho))
  | _ =>
    simp only [step] at hs
    split at hs <;> (try split at hs) <;> simp at hs <;> subst hs <;> exact ih

/-- What is left of the owner's call after a callback has thrown. -/
private def ownerLeft : OPc → Nat
  | .closing .load | .dtorClosing .load => 5
  | .closing .write | .dtorClosing .write => 4
  | .closing (.store _) | .dtorClosing (.store _) => 3
  | .closing (.check _) | .dtorClosing (.check _) => 2
  | .closing .get | .dtorClosing .get => 1
  | _ => 5

/-- A close call that can only come to `get`. -/
private def comesToGet : ClosePc → Bool
  | .store v => v == .released
  | .check v => v == .released
  | _ => true

/-- The owner is not past a close call. -/
private def before : OPc → Bool
  | .idle => true
  | .closing c => comesToGet c
  | .dtorClosing c => comesToGet c
  | _ => false

/-- After a throw, with a working stop signal. -/
private structure Doomed (x : XSt) : Prop where
  exc : x.exc = true
  fin : x.life.w = .finished
  fut : x.life.fut = some false
  valid : x.life.valid = true
  fd : x.life.sb.fdOk = true
  bef : before x.life.o = true
  noRet : ∀ o ∈ x.life.log, ¬ IsReturn o

private theorem close_doomed {s s' : St} {c : ClosePc} {r} (hfd : s.sb.fdOk = true) (hv : s.valid = true) (hc : comesToGet c = true) (hg : c ≠ .get)
    (h : closeStep s c = some (s', r)) :
    ∃ c', r = .inl c' ∧ comesToGet c' = true ∧ ownerLeft (.closing c') + 1 ≤ ownerLeft (.closing c) ∧ s'.sb.fdOk = true ∧ s'.valid = true := by
  cases c with
  | load =>
    simp only [closeStep] at h
    split at h <;> simp at h <;> obtain ⟨rfl, rfl⟩ := h
    · exact ⟨_, rfl, rfl, by simp [ownerLeft], hfd, hv⟩
    · exact ⟨_, rfl, rfl, by simp [ownerLeft], hfd, hv⟩
  | write =>
    simp [closeStep, SB.writeEv, hfd] at h
    obtain ⟨rfl, rfl⟩ := h
    exact ⟨_, rfl, rfl, by simp [ownerLeft], rfl, hv⟩
  | store v =>
    simp only [closeStep, Option.some.injEq, Prod.mk.injEq] at h
    obtain ⟨rfl, rfl⟩ := h
    exact ⟨_, rfl, hc, by simp [ownerLeft], hfd, hv⟩
  | check v =>
    simp only [comesToGet, beq_iff_eq] at hc
    subst hc
    simp [closeStep, hv] at h
    obtain ⟨rfl, rfl⟩ := h
    exact ⟨_, rfl, rfl, by simp [ownerLeft], hfd, hv⟩
  | get => exact absurd rfl hg

private theorem left_dtor (c : ClosePc) : ownerLeft (.dtorClosing c) = ownerLeft (.closing c) := by cases c <;> rfl

private theorem close_runs {s : St} {c : ClosePc} (hf : s.fut.isSome = true) : (closeStep s c).isSome = true := by
  cases c <;> simp only [closeStep]
  · split <;> rfl
  · rfl
  · rfl
  · split
    · rfl
    · split <;> rfl
  · cases hs : s.fut with
    | none => rw [hs] at hf; cases hf
    | some b => rfl

/-- One more step after a throw. -/
private theorem doomed_x {cfg : Cfg} {x x' : XSt} {a : XAct} (h : Doomed x) (hs : xstep cfg x a = some x') :
    Doomed x' ∧ (x'.dead = true ∨ ownerLeft x'.life.o + (if ownerMoves a then 1 else 0) ≤ ownerLeft x.life.o) ∧
      (ownerMoves a = true → x'.dead = true → ownerLeft x.life.o = 1) := by
  obtain ⟨he, hw, hf, hv, hfd, hb, hn⟩ := h
  cases a with
  | throw => obtain ⟨_, ⟨n, hn⟩, _⟩ := xthrow hs; rw [hw] at hn; cases hn
  | life a =>
    obtain ⟨hd, ⟨_, hg, rfl, rfl⟩ | ⟨hno, l, hl, rfl⟩⟩ := xlife hs
    · refine ⟨⟨he, hw, hf, hv, hfd, hb, hn⟩, .inl rfl, ?_⟩
      intro _ _
      generalize x.life.o = o at hg
      cases o with
      | closing c => cases c <;> simp [atGet] at hg <;> rfl
      | dtorClosing c => cases c <;> simp [atGet] at hg <;> rfl
      | _ => simp [atGet] at hg
    · have hfin := finished_step hw hl
      simp only [he, Bool.true_and] at hno
      cases a with
      | o =>
        simp only [decide_true, Bool.and_true] at hno
        simp only [step, oStep] at hl
        split at hl
        · rename_i c ho
          have hg : c ≠ .get := by rintro rfl; rw [ho] at hno; cases hno
          rw [ho] at hb
          split at hl
          · cases hl
          · rename_i hc
            obtain ⟨c', h1, h2, h3, h4, h5⟩ := close_doomed hfd hv hb hg hc
            cases h1
            simp at hl; subst hl
            have := closeStep_frame hc
            refine ⟨⟨he, hfin.1, by rw [hfin.2.2]; exact hf, h5, h4, h2, by simp only; rw [this.1]; exact hn⟩, .inr (by rw [ho]; exact h3), by simp [hd]⟩
          · rename_i hc
            obtain ⟨c', h1, _⟩ := close_doomed hfd hv hb hg hc
            cases h1
        · rename_i c ho
          have hg : c ≠ .get := by rintro rfl; rw [ho] at hno; cases hno
          rw [ho] at hb
          split at hl
          · cases hl
          · rename_i hc
            obtain ⟨c', h1, h2, h3, h4, h5⟩ := close_doomed hfd hv hb hg hc
            cases h1
            simp at hl; subst hl
            have := closeStep_frame hc
            refine ⟨⟨he, hfin.1, by rw [hfin.2.2]; exact hf, h5, h4, h2, by simp only; rw [this.1]; exact hn⟩,
              .inr (by rw [ho, left_dtor, left_dtor]; exact h3), by simp [hd]⟩
          · rename_i hc
            obtain ⟨c', h1, _⟩ := close_doomed hfd hv hb hg hc
            cases h1
        · rename_i ho; rw [ho] at hb; cases hb
        · rename_i ho; rw [ho] at hb; cases hb
        · cases hl
      | oClose =>
        simp only [step] at hl
        split at hl
        · rename_i ho
          simp at hl; subst hl
          refine ⟨⟨he, hw, hf, hv, hfd, rfl, ?_⟩, .inr (by rw [ho]; simp [ownerMoves, ownerLeft]), by simp [ownerMoves]⟩
          intro o hmem
          simp only [List.mem_append, List.mem_singleton] at hmem
          rcases hmem with h | rfl
          · exact hn o h
          · simp [IsReturn]
        · cases hl
      | oDtor =>
        simp only [step] at hl
        split at hl
        · rename_i ho
          simp at hl; subst hl
          refine ⟨⟨he, hw, hf, hv, hfd, rfl, ?_⟩, .inr (by rw [ho]; simp [ownerMoves, ownerLeft]), by simp [ownerMoves]⟩
          intro o hmem
          simp only [List.mem_append, List.mem_singleton] at hmem
          rcases hmem with h | rfl
          · exact hn o h
          · simp [IsReturn]
        · cases hl
      | w => simp [step, wStep, hw] at hl
      | _ => simp only [step, hw] at hl; cases hl

/-- The state right after a throw. -/
private theorem doomed_start {cfg : Cfg} (hfd : cfg.fdOk = true) {x0 x1 : XSt} (h0 : XReach cfg x0) (hs : xstep cfg x0 .throw = some x1) :
    Doomed x1 ∧ x1.dead = false := by
  obtain ⟨hd, ⟨n, hn⟩, rfl⟩ := xthrow hs
  have hinv := xreach_inv h0
  have hex : x0.exc = false := by
    cases he : x0.exc with
    | false => rfl
    | true => have := hinv.2.1 he; rw [hn] at this; cases this
  have hreach := hinv.1 hex
  have hfut := fut_reachable hreach
  have hsig := sig_reachable hfd hreach
  have hnone : x0.life.fut = none := hfut.f1.2 (by rw [hn]; simp)
  have hval : x0.life.valid = true := by
    cases hv : x0.life.valid with
    | true => rfl
    | false => have := hfut.f3 hv; rw [hnone] at this; cases this
  have hret : ¬ ∃ b, Obs.closeRet b ∈ x0.life.log := by
    intro h; have := (hsig.ret h).1; rw [hval] at this; cases this
  refine ⟨⟨rfl, rfl, rfl, hval, (sbfd_reachable hreach).trans hfd, ?_, ?_⟩, hd⟩
  · show before x0.life.o = true
    cases ho : x0.life.o with
    | idle => rfl
    | closing c =>
      have := hsig.oPc c (by rw [ho]; rfl)
      cases c <;> simp_all [closePcOk, before, comesToGet]
    | dtorClosing c =>
      have := hsig.oPc c (by rw [ho]; rfl)
      cases c <;> simp_all [closePcOk, before, comesToGet]
    | dtorFuture => have := dtorFuture_invalid hfd hreach ho; rw [hval] at this; cases this
    | dtorFd => have := hfut.f4 (.inl ho); rw [hnone] at this; cases this
    | gone => have := hfut.f4 (.inr ho); rw [hnone] at this; cases this
  · intro o ho hr
    cases o with
    | closeRet b => exact hret ⟨b, ho⟩
    | dtorRet => have := hfut.f4 (.inr (hfut.f10 ho)); rw [hnone] at this; cases this
    | _ => cases hr

/-- C147: after a callback has thrown (and with a working stop signal), neither `close()` nor the destructor returns; within five steps of the first
of them the program is terminated, and until then there is always a next step. -/
theorem C147_terminated_partial (cfg : Cfg) (hfd : cfg.fdOk = true) (x0 x1 x2 : XSt) (h0 : XReach cfg x0) (hs : xstep cfg x0 .throw = some x1)
    (acts : List XAct) (hr : xrun cfg x1 acts = some x2) :
    (∀ o ∈ x2.life.log, ¬ IsReturn o) ∧ acts.countP ownerMoves ≤ 5 ∧ (acts.countP ownerMoves = 5 → x2.dead = true) ∧
    (x2.dead = false → x2.life.o ≠ .idle → (xstep cfg x2 (.life .o)).isSome = true) := by
  obtain ⟨hd1, hnd⟩ := doomed_start hfd h0 hs
  have key : ∀ (acts : List XAct) (x x' : XSt), Doomed x → x.dead = false → xrun cfg x acts = some x' →
      Doomed x' ∧ acts.countP ownerMoves + (if x'.dead then 0 else ownerLeft x'.life.o) ≤ ownerLeft x.life.o := by
    intro acts
    induction acts with
    | nil => intro x x' h hnd hr; simp [xrun] at hr; subst hr; exact ⟨h, by simp [hnd]⟩
    | cons a as ih =>
      intro x x' h hnd hr
      simp only [xrun] at hr
      split at hr
      · cases hr
      · rename_i y hy
        obtain ⟨h1, h2, h3⟩ := doomed_x h hy
        by_cases hyd : y.dead = true
        · cases as with
          | nil =>
            simp [xrun] at hr; subst hr
            refine ⟨h1, ?_⟩
            rw [List.countP_singleton, hyd]
            by_cases hm : ownerMoves a = true
            · rw [h3 hm hyd]; simp [hm]
            · simp [hm]
          | cons b bs => simp only [xrun] at hr; cases b <;> simp [xstep, hyd] at hr
        · rcases h2 with h2 | h2
          · exact absurd h2 hyd
          · obtain ⟨h4, h5⟩ := ih y x' h1 (by simpa using hyd) hr
            refine ⟨h4, ?_⟩
            rw [List.countP_cons]; omega
  obtain ⟨h2, h3⟩ := key acts x1 x2 hd1 hnd hr
  have hle : ∀ o, ownerLeft o ≤ 5 ∧ 1 ≤ ownerLeft o := by
    intro o; unfold ownerLeft; split <;> omega
  refine ⟨h2.noRet, by have := (hle x1.life.o).1; split at h3 <;> omega, ?_, ?_⟩
  · intro h5
    by_cases hdd : x2.dead = true
    · exact hdd
    · have h6 := hle x1.life.o; have h7 := hle x2.life.o; rw [if_neg hdd] at h3; omega
  · intro hdd hid
    simp only [xstep, hdd, Bool.false_eq_true, if_false]
    split
    · rfl
    · have hb := h2.bef
      have hf : x2.life.fut.isSome = true := by rw [h2.fut]; rfl
      simp only [step, oStep]
      cases ho : x2.life.o with
      | idle => exact absurd ho hid
      | closing c =>
        have := close_runs (c := c) hf
        cases hc : closeStep x2.life c with
        | none => rw [hc] at this; cases this
        | some p => obtain ⟨s', r⟩ := p; cases r <;> simp [hc]
      | dtorClosing c =>
        have := close_runs (c := c) hf
        cases hc : closeStep x2.life c with
        | none => rw [hc] at this; cases this
        | some p => obtain ⟨s', r⟩ := p; cases r <;> simp [hc]
      | _ => rw [ho] at hb; cases hb

/-- Without a stop signal, a close call comes nowhere near the future. -/
private def failsEarly : ClosePc → Bool
  | .store v => v == .error
  | .check v => v == .error
  | .get => false
  | _ => true

private structure NoSignal (s : St) : Prop where
  fd : s.sb.fdOk = false
  is : s.sb.is ≠ .released
  ow : ∀ c, s.o = .closing c ∨ s.o = .dtorClosing c → failsEarly c = true
  ret : ∀ b, Obs.closeRet b ∈ s.log → b = false
  sc : ∀ c n, s.w = .selfClose c n → failsEarly c = true
  ss : ∀ v, s.w = .stStore v → v ≠ .released

private theorem close_noSignal {s s' : St} {c : ClosePc} {r} (hfd : s.sb.fdOk = false) (hi : s.sb.is ≠ .released) (hc : failsEarly c = true)
    (h : closeStep s c = some (s', r)) :
    s'.sb.fdOk = false ∧ s'.sb.is ≠ .released ∧ (∀ c', r = .inl c' → failsEarly c' = true) ∧ (∀ b, r = .inr b → b = false) := by
  cases c with
  | load =>
    simp only [closeStep, hi, if_false, Option.some.injEq, Prod.mk.injEq] at h
    obtain ⟨rfl, rfl⟩ := h
    exact ⟨hfd, hi, by simp [failsEarly], by simp⟩
  | write =>
    simp [closeStep, SB.writeEv, hfd] at h
    obtain ⟨rfl, rfl⟩ := h
    exact ⟨hfd, hi, by simp [failsEarly], by simp⟩
  | store v =>
    simp only [failsEarly, beq_iff_eq] at hc
    subst hc
    simp only [closeStep, Option.some.injEq, Prod.mk.injEq] at h
    obtain ⟨rfl, rfl⟩ := h
    exact ⟨hfd, by simp, by simp [failsEarly], by simp⟩
  | check v =>
    simp only [failsEarly, beq_iff_eq] at hc
    subst hc
    simp [closeStep] at h
    obtain ⟨rfl, rfl⟩ := h
    exact ⟨hfd, hi, by simp, by simp⟩
  | get => simp [failsEarly] at hc

private theorem noSignal_move {s s' : St} (h : NoSignal s) (h1 : s'.sb = s.sb) (h2 : s'.o = s.o) (h3 : s'.log = s.log ∨ ∃ e, s'.log = s.log ++ [.cb e])
    (h4 : ∀ c n, s'.w ≠ .selfClose c n) (h5 : ∀ v, s'.w ≠ .stStore v) : NoSignal s' := by
  refine ⟨by rw [h1]; exact h.fd, by rw [h1]; exact h.is, by rw [h2]; exact h.ow, ?_, fun c n e => absurd e (h4 c n), fun v e => absurd e (h5 v)⟩
  intro b hb
  rcases h3 with h3 | ⟨e, h3⟩
  · rw [h3] at hb; exact h.ret b hb
  · rw [h3] at hb; simp at hb; exact h.ret b hb

private theorem noSignal_step {cfg : Cfg} {s s' : St} {a : Act} (h : NoSignal s) (hflat : ∀ n, s.w = .inCb n → Flat n = true)
    (hs : step cfg s a = some s') : NoSignal s' := by
  cases a with
  | w =>
    simp only [step, wStep] at hs
    split at hs
    · simp at hs; subst hs; exact noSignal_move h rfl rfl (.inl rfl) (by simp only; split <;> simp) (by simp only; split <;> simp)
    · simp at hs; subst hs; exact noSignal_move h rfl rfl (.inl rfl) (by simp only; split <;> simp) (by simp only; split <;> simp)
    · simp [SB.readEv, h.fd] at hs; subst hs
      exact ⟨h.fd, h.is, h.ow, h.ret, by simp, by simp⟩
    · rename_i v hw
      simp at hs; subst hs
      exact ⟨h.fd, h.ss v hw, h.ow, h.ret, by simp, by simp⟩
    · simp at hs; subst hs; exact noSignal_move h rfl rfl (.inr ⟨_, rfl⟩) (by simp [callCb]) (by simp [callCb])
    · simp at hs; subst hs; exact noSignal_move h rfl rfl (.inl rfl) (by simp) (by simp)
    · simp at hs; subst hs; exact noSignal_move h rfl rfl (.inr ⟨_, rfl⟩) (by simp [callCb]) (by simp [callCb])
    · simp at hs; subst hs; exact noSignal_move h rfl rfl (.inl rfl) (by simp only; split <;> simp) (by simp only; split <;> simp)
    · simp at hs; subst hs; exact noSignal_move h rfl rfl (.inl rfl) (by simp) (by simp)
    · simp at hs; subst hs; exact noSignal_move h rfl rfl (.inl rfl) (by simp) (by simp)
    · simp at hs; subst hs; exact noSignal_move h rfl rfl (.inl rfl) (by simp) (by simp)
    · split at hs
      · simp at hs; subst hs; exact noSignal_move h rfl rfl (.inl rfl) (by simp) (by simp)
      · split at hs
        · simp at hs; subst hs; exact noSignal_move h rfl rfl (.inr ⟨_, rfl⟩) (by simp [callCb]) (by simp [callCb])
        · simp at hs; subst hs; exact noSignal_move h rfl rfl (.inl rfl) (by simp) (by simp)
    · simp at hs; subst hs; exact noSignal_move h rfl rfl (.inr ⟨_, rfl⟩) (by simp [callCb]) (by simp [callCb])
    · simp at hs; subst hs; exact noSignal_move h rfl rfl (.inl rfl) (by simp) (by simp)
    · rename_i c n hw
      split at hs
      · cases hs
      · rename_i hc; simp at hs; subst hs
        obtain ⟨g1, g2, g3, _⟩ := close_noSignal h.fd h.is (h.sc c n hw) hc
        have hf := closeStep_frame hc
        refine ⟨g1, g2, by simp only; rw [hf.2.2.1]; exact h.ow, by simp only; rw [hf.1]; exact h.ret, ?_, by simp⟩
        intro c1 n1 e; simp at e; rw [← e.1]; exact g3 _ rfl
      · rename_i hc; simp at hs; subst hs
        obtain ⟨g1, g2, g3, _⟩ := close_noSignal h.fd h.is (h.sc c n hw) hc
        have hf := closeStep_frame hc
        exact ⟨g1, g2, by simp only; rw [hf.2.2.1]; exact h.ow, by simp only; rw [hf.1]; exact h.ret, by simp, by simp⟩
    · cases hs
  | wOpen evs r =>
    simp only [step] at hs
    split at hs
    · split at hs
      · simp at hs; subst hs; exact noSignal_move h rfl rfl (.inl rfl) (by simp) (by simp)
      · cases hs
    · cases hs
  | wWake items =>
    simp only [step] at hs
    split at hs
    · split at hs
      · simp at hs; subst hs; exact noSignal_move h rfl rfl (.inl rfl) (by simp) (by simp)
      · cases hs
    · cases hs
  | wWakeErr =>
    simp only [step] at hs
    split at hs
    · simp at hs; subst hs; exact noSignal_move h rfl rfl (.inl rfl) (by simp) (by simp)
    · cases hs
  | cbReturn =>
    simp only [step] at hs
    split at hs
    · rename_i n hw
      simp at hs; subst hs
      have := hflat n hw
      exact noSignal_move h rfl rfl (.inl rfl) (by rintro c m rfl; simp [Flat] at this) (by rintro v rfl; simp [Flat] at this)
    · cases hs
  | cbClose =>
    simp only [step] at hs
    split at hs
    · simp at hs; subst hs
      refine ⟨h.fd, h.is, h.ow, h.ret, ?_, by simp⟩
      intro c n e; simp at e; rw [← e.1]; rfl
    · cases hs
  | o =>
    simp only [step, oStep] at hs
    split at hs
    · rename_i c ho
      split at hs
      · cases hs
      · rename_i hc; simp at hs; subst hs
        obtain ⟨g1, g2, g3, _⟩ := close_noSignal h.fd h.is (h.ow c (.inl ho)) hc
        have hf := closeStep_frame hc
        refine ⟨g1, g2, ?_, by simp only; rw [hf.1]; exact h.ret, by simp only; rw [hf.2.1]; exact h.sc, by simp only; rw [hf.2.1]; exact h.ss⟩
        intro c1 e; simp at e; rw [← e]; exact g3 _ rfl
      · rename_i hc; simp at hs; subst hs
        obtain ⟨g1, g2, _, g4⟩ := close_noSignal h.fd h.is (h.ow c (.inl ho)) hc
        have hf := closeStep_frame hc
        refine ⟨g1, g2, by simp, ?_, by simp only; rw [hf.2.1]; exact h.sc, by simp only; rw [hf.2.1]; exact h.ss⟩
        intro b1 e
        simp only [hf.1, List.mem_append, List.mem_singleton, Obs.closeRet.injEq] at e
        rcases e with e | e
        · exact h.ret b1 e
        · rw [e]; exact g4 _ rfl
    · rename_i c ho
      split at hs
      · cases hs
      · rename_i hc; simp at hs; subst hs
        obtain ⟨g1, g2, g3, _⟩ := close_noSignal h.fd h.is (h.ow c (.inr ho)) hc
        have hf := closeStep_frame hc
        refine ⟨g1, g2, ?_, by simp only; rw [hf.1]; exact h.ret, by simp only; rw [hf.2.1]; exact h.sc, by simp only; rw [hf.2.1]; exact h.ss⟩
        intro c1 e; simp at e; rw [← e]; exact g3 _ rfl
      · rename_i hc; simp at hs; subst hs
        obtain ⟨g1, g2, _, g4⟩ := close_noSignal h.fd h.is (h.ow c (.inr ho)) hc
        have hf := closeStep_frame hc
        exact ⟨g1, g2, by simp, by simp only; rw [hf.1]; exact h.ret, by simp only; rw [hf.2.1]; exact h.sc, by simp only; rw [hf.2.1]; exact h.ss⟩
    · split at hs
      · split at hs
        · cases hs
        · simp at hs; subst hs; exact ⟨h.fd, h.is, by simp, h.ret, h.sc, h.ss⟩
      · simp at hs; subst hs; exact ⟨h.fd, h.is, by simp, h.ret, h.sc, h.ss⟩
    · simp at hs; subst hs; exact ⟨h.fd, h.is, by simp, by simpa using h.ret, h.sc, h.ss⟩
    · cases hs
  | oClose =>
    simp only [step] at hs
    split at hs
    · simp at hs; subst hs
      refine ⟨h.fd, h.is, ?_, by simpa using h.ret, h.sc, h.ss⟩
      intro c e; simp at e; rw [← e]; rfl
    · cases hs
  | oDtor =>
    simp only [step] at hs
    split at hs
    · simp at hs; subst hs
      refine ⟨h.fd, h.is, ?_, by simpa using h.ret, h.sc, h.ss⟩
      intro c e; simp at e; rw [← e]; rfl
    · cases hs

/-- C147: without a stop signal (no descriptor could be got) a callback that throws does no harm: the program is never terminated, and every
`close()` returns false. -/
theorem C147_without_signal_partial (cfg : Cfg) (hfd : cfg.fdOk = false) (x : XSt) (h : XReach cfg x) :
    x.dead = false ∧ ∀ b, Obs.closeRet b ∈ x.life.log → b = false := by
  obtain ⟨acts, hr⟩ := h
  have hstep : ∀ x a x', ((x.exc = false → Reachable cfg x.life) ∧ (x.exc = true → x.life.w = .finished) ∧ x.dead = false ∧ NoSignal x.life) →
      xstep cfg x a = some x' →
      ((x'.exc = false → Reachable cfg x'.life) ∧ (x'.exc = true → x'.life.w = .finished) ∧ x'.dead = false ∧ NoSignal x'.life) := by
    intro x a x' ⟨h1, h2, h3, h4⟩ hs
    cases a with
    | throw =>
      obtain ⟨_, _, rfl⟩ := xthrow hs
      exact ⟨by simp, by simp, h3, ⟨h4.fd, h4.is, h4.ow, h4.ret, by simp, by simp⟩⟩
    | life a =>
      obtain ⟨hd, ⟨_, hg, _, _⟩ | ⟨_, l, hl, rfl⟩⟩ := xlife hs
      · exfalso
        generalize ho : x.life.o = o at hg
        cases o with
        | closing c => cases c <;> simp [atGet] at hg; have := h4.ow .get (.inl ho); simp [failsEarly] at this
        | dtorClosing c => cases c <;> simp [atGet] at hg; have := h4.ow .get (.inr ho); simp [failsEarly] at this
        | _ => simp [atGet] at hg
      · refine ⟨fun h => reachable_step (h1 h) hl, fun h => (finished_step (h2 h) hl).1, hd, noSignal_step h4 ?_ hl⟩
        intro n hn
        cases he : x.exc with
        | false => exact (fut_reachable (h1 he)).f11 n hn
        | true => have := h2 he; rw [hn] at this; cases this
  have := xrun_induct hstep acts (xinit cfg) x ⟨fun _ => ⟨[], rfl⟩, by simp [xinit], rfl,
    ⟨hfd, by simp [xinit, init], by simp [xinit, init], by simp [xinit, init], by simp [xinit, init], by simp [xinit, init]⟩⟩ hr
  exact ⟨this.2.2.1, this.2.2.2.ret⟩

private def cfgX : Cfg := { path := b!"/d", dirOk := true, fdOk := true }
/-- The callback throws on the live message; the owner then calls `close()`. -/
private def throwRun : List XAct :=
  [.life .w, .life .w, .life .w, .throw, .life .oClose, .life .o, .life .o, .life .o, .life .o, .life .o]

private theorem ranX {o : Option XSt} {p : XSt → Prop} [DecidablePred p] (h : (match o with | some a => decide (p a) | none => false) = true) :
    ∃ a, o = some a ∧ p a := by
  cases o with
  | none => simp at h
  | some a => exact ⟨a, rfl, by simpa using h⟩

/-- C147_full does not hold of the code: after a callback has thrown, `close()` terminates the program. -/
theorem C147_refuted : ¬ C147_full := by
  intro h
  obtain ⟨x, hx, hd⟩ : ∃ x, xrun cfgX (xinit cfgX) throwRun = some x ∧ (x.dead = true) := ranX (by decide +kernel)
  have := (h cfgX x ⟨throwRun, hx⟩).1
  rw [hd] at this; cases this

/-- A state in which a callback throws, as `C147_silent_partial` and `C147_terminated_partial` ask for. -/
example : ∃ x0 x1, XReach cfgX x0 ∧ xstep cfgX x0 .throw = some x1 := by
  obtain ⟨x1, h1, _⟩ : ∃ x, xrun cfgX (xinit cfgX) (throwRun.take 3) = some x ∧ ((xstep cfgX x .throw).isSome = true) := ranX (by decide +kernel)
  rename_i h
  obtain ⟨x2, h2⟩ := Option.isSome_iff_exists.1 h
  exact ⟨x1, x2, ⟨_, h1⟩, h2⟩

private def cfgX' : Cfg := { path := b!"/d", dirOk := true, fdOk := false }
/-- Without a stop signal: the same calls, and `close()` returns. -/
example : ∃ x, xrun cfgX' (xinit cfgX') (throwRun.take 9) = some x ∧ (Obs.closeRet false ∈ x.life.log ∧ x.exc = true) := ranX (by decide +kernel)

end Verif.Props
