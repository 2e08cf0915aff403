import Verif.Spec.PyExit
import Verif.Props.HandleEnds
/-!
# The end of a Python program that has a `Watch`: C141
-/

namespace Verif.Props
open Verif Verif.Model Verif.Model.Life Verif.Model.Handle Verif.Model.PyExit Verif.Spec Verif.Spec.Hd Verif.Spec.PyExit
open Verif.Lemmas Verif.Lemmas.Life Verif.Lemmas.Handle Verif.Lemmas.NodeLife

/-- The worker has only the result left to set. -/
private def Past (w : WPc) : Prop := (∃ r, w = .setFut r) ∨ w = .finished

private theorem past_of_last {cfg : Cfg} {s : St} (hr : Reachable cfg s) (h : LastCallReturned cfg.path s) : Past s.w := by
  obtain ⟨⟨a, d, mids, he, _⟩, h1, h2⟩ := h
  have hsh := shape_reachable hr
  have nrun : ∀ l, l = callbacks s.log → Running cfg l → False := by
    rintro l rfl ⟨_, ms, hl, hm⟩
    rw [he] at hl
    simp only [List.cons_append, List.cons.injEq] at hl
    have : dieMsg cfg.path d ∈ ms := by rw [← hl.2]; simp
    have := hm _ this
    simp [isMid, dieMsg] at this
  have nfail : Failed cfg (callbacks s.log) → False := by
    rintro ⟨_, ms, r, hl, _, hm⟩
    have := congrArg List.getLast? (he.symm.trans hl)
    rw [List.getLast?_append, ← List.cons_append, List.getLast?_append] at this
    simp [dieMsg, sendMsg] at this
  cases hw : s.w with
  | inCb n => exact absurd hw (h1 n)
  | selfClose c n => exact absurd hw (h2 c n)
  | setFut r => exact .inl ⟨r, rfl⟩
  | finished => exact .inr rfl
  | start => rw [hw] at hsh; simp only [Shape] at hsh; rw [he] at hsh; simp at hsh
  | stLoad => rw [hw] at hsh; simp only [Shape] at hsh; rw [he] at hsh; simp at hsh
  | stRead => rw [hw] at hsh; simp only [Shape] at hsh; rw [he] at hsh; simp at hsh
  | stStore v => rw [hw] at hsh; simp only [Shape] at hsh; rw [he] at hsh; simp at hsh
  | live b => rw [hw] at hsh; simp only [Shape] at hsh; rw [he] at hsh; simp at hsh
  | aOpen b => rw [hw] at hsh; exact (nrun _ rfl hsh).elim
  | aWait b => rw [hw] at hsh; exact (nrun _ rfl hsh).elim
  | aEvs b e r i => rw [hw] at hsh; exact (nrun _ rfl hsh.1).elim
  | aItems b r i => rw [hw] at hsh; exact (nrun _ rfl hsh.1).elim
  | aDone b r => rw [hw] at hsh; exact (nrun _ rfl hsh.1).elim
  | die a b =>
    rw [hw] at hsh
    cases a <;> cases b <;> simp only [Shape] at hsh
    · rw [he] at hsh; simp at hsh
    · rw [he] at hsh; simp at hsh
    · exact (nfail hsh).elim
    · exact (nrun _ rfl hsh).elim

private theorem last_of_past {cfg : Cfg} {s : St} (hr : Reachable cfg s) (h : Past s.w) : LastCallReturned cfg.path s := by
  have hsh := shape_reachable hr
  rcases h with ⟨r, hw⟩ | hw
  · rw [hw] at hsh
    obtain ⟨a, h1, _⟩ := fin_ended hsh
    exact ⟨⟨a, r, h1⟩, by simp [hw], by simp [hw]⟩
  · rw [hw] at hsh
    obtain ⟨b, hb⟩ := hsh
    obtain ⟨a, h1, _⟩ := fin_ended hb
    exact ⟨⟨a, b, h1⟩, by simp [hw], by simp [hw]⟩

/-- Without the callback's return the worker does not get there; -/
private theorem not_past_step {cfg : Cfg} {s s' : St} {a : Act} (h : ¬ Past s.w) (ha : a ≠ .cbReturn) (hs : step cfg s a = some s') : ¬ Past s'.w := by
  cases a with
  | cbReturn => exact absurd rfl ha
  | w =>
    simp only [step, wStep] at hs
    split at hs <;> try (simp only [reduceCtorEq, Option.some.injEq] at hs)
    all_goals try (subst hs; simp only [callCb, Past]; (try split) <;> simp <;> done)
    · split at hs
      · simp at hs; subst hs; simp [Past]
      · split at hs <;> simp at hs <;> subst hs <;> simp [callCb, Past]
    · rename_i r hw; exact absurd (.inl ⟨r, hw⟩) h
    · split at hs
      · simp at hs
      · simp at hs; subst hs; simp [Past]
      · simp at hs; subst hs; simp [Past]
  | o => rw [(owner_frame rfl hs).1]; exact h
  | oClose => rw [(owner_frame rfl hs).1]; exact h
  | oDtor => rw [(owner_frame rfl hs).1]; exact h
  | wOpen evs r =>
    simp only [step] at hs
    split at hs
    · split at hs
      · simp at hs; subst hs; simp [Past]
      · simp at hs
    · simp at hs
  | wWake items =>
    simp only [step] at hs
    split at hs
    · split at hs
      · simp at hs; subst hs; simp [Past]
      · simp at hs
    · simp at hs
  | wWakeErr =>
    simp only [step] at hs
    split at hs
    · simp at hs; subst hs; simp [Past]
    · simp at hs
  | cbClose =>
    simp only [step] at hs
    split at hs
    · simp at hs; subst hs; simp [Past]
    · simp at hs

/-- and from there it goes on without the callback. -/
private theorem past_step {cfg : Cfg} {s s' : St} {a : Act} (h : Past s.w) (hs : step cfg s a = some s') :
    Past s'.w ∧ a ≠ .cbReturn ∧ a ≠ .cbClose ∧ callbacks s'.log = callbacks s.log := by
  cases a with
  | w =>
    rcases h with ⟨r, hw⟩ | hw
    · simp [step, wStep, hw] at hs; subst hs; exact ⟨.inr rfl, by simp, by simp, rfl⟩
    · simp [step, wStep, hw] at hs
  | o => exact ⟨by rw [(owner_frame rfl hs).1]; exact h, by simp, by simp, (owner_frame rfl hs).2.2⟩
  | oClose => exact ⟨by rw [(owner_frame rfl hs).1]; exact h, by simp, by simp, (owner_frame rfl hs).2.2⟩
  | oDtor => exact ⟨by rw [(owner_frame rfl hs).1]; exact h, by simp, by simp, (owner_frame rfl hs).2.2⟩
  | wOpen evs r => rcases h with ⟨r, hw⟩ | hw <;> simp [step, hw] at hs
  | wWake items => rcases h with ⟨r, hw⟩ | hw <;> simp [step, hw] at hs
  | wWakeErr => rcases h with ⟨r, hw⟩ | hw <;> simp [step, hw] at hs
  | cbReturn => rcases h with ⟨r, hw⟩ | hw <;> simp [step, hw] at hs
  | cbClose => rcases h with ⟨r, hw⟩ | hw <;> simp [step, hw] at hs

private theorem hlife_w {cfg : Cfg} {h h' : H} {a : Act} (hs : hstep cfg h (.life a) = .ok (some h')) :
    ∃ l, step cfg h.life a = some l ∧ h'.life.w = l.w ∧ callbacks h'.life.log = callbacks l.log := by
  simp only [hstep] at hs
  split at hs
  · cases hl : step cfg h.life a with
    | none => rw [hl] at hs; simp at hs
    | some l =>
      rw [hl] at hs; simp at hs; subst hs
      refine ⟨l, rfl, settle_w _ _, ?_⟩
      simp only [settle]
      split
      · rfl
      · split
        · split
          · cases hd : step cfg l .oDtor with
            | none => rfl
            | some l' => exact (owner_frame rfl hd).2.2
          · rfl
        · rfl
        · rfl
  · simp at hs

private theorem plife_h {cfg : Cfg} {p q : PS} {a : Act} {n i : Int} (hs : Handle.pstep Spec.Bind.utf8 cfg p (.life a n i) = .ok (some q)) :
    hstep cfg p.h (.life a) = .ok (some q.h) := by
  simp only [Handle.pstep] at hs
  cases hh : hstep cfg p.h (.life a) with
  | ub m => rw [hh] at hs; cases hs
  | ok o =>
    rw [hh] at hs
    cases o with
    | none => simp only [Outcome.bind_ok] at hs; cases hs
    | some h1 =>
      simp only [Outcome.bind_ok] at hs
      split at hs
      · cases hs
      · simp only [pure, Outcome.ok.injEq, Option.some.injEq] at hs
        subst hs
        simp only [pback]
        split
        · rfl
        · split <;> rfl

private theorem not_past_p {cfg : Cfg} {p q : PS} {a : Act} {n i : Int} (h : ¬ Past p.h.life.w) (ha : a ≠ .cbReturn)
    (hs : Handle.pstep Spec.Bind.utf8 cfg p (.life a n i) = .ok (some q)) : ¬ Past q.h.life.w := by
  obtain ⟨l, h1, h2, _⟩ := hlife_w (plife_h hs)
  rw [h2]; exact not_past_step h ha h1

private theorem past_p {cfg : Cfg} {p q : PS} {a : Act} {n i : Int} (h : Past p.h.life.w)
    (hs : Handle.pstep Spec.Bind.utf8 cfg p (.life a n i) = .ok (some q)) :
    Past q.h.life.w ∧ a ≠ .cbReturn ∧ a ≠ .cbClose ∧ newCbs p.h.life.log q.h.life.log = [] := by
  have hh := plife_h hs
  obtain ⟨l, h1, h2, h3⟩ := hlife_w hh
  obtain ⟨g1, g2, g3, g4⟩ := past_step h h1
  refine ⟨by rw [h2]; exact g1, g2, g3, ?_⟩
  have := newCbs_eq (hstep_log hh)
  rw [h3, g4] at this
  simpa using this

private structure XInv (cfg : Cfg) (x : X) : Prop where
  ps : PInv cfg x.ps
  running : x.phase = .running → x.ps.alive = true ∧ x.ps.last = false
  finalizing : x.phase = .finalizing → x.ps.alive = true ∧ x.ps.busy = true ∧ x.ps.last = true
  exited : x.phase = .exited → x.ps.alive = false

private theorem plife_flags {cfg : Cfg} {p q : PS} {a : Act} {n i : Int} (hs : Handle.pstep Spec.Bind.utf8 cfg p (.life a n i) = .ok (some q)) :
    q.last = p.last ∧ (p.busy = false → q.alive = p.alive ∧ q.busy = false) ∧
    (p.busy = true → (q.busy = true ∧ q.alive = p.alive) ∨ (q.busy = false ∧ q.alive = !p.last)) := by
  simp only [Handle.pstep] at hs
  cases hh : hstep cfg p.h (.life a) with
  | ub m => rw [hh] at hs; cases hs
  | ok o =>
    rw [hh] at hs
    cases o with
    | none => simp only [Outcome.bind_ok] at hs; cases hs
    | some h1 =>
      simp only [Outcome.bind_ok] at hs
      split at hs
      · cases hs
      · simp only [pure, Outcome.ok.injEq, Option.some.injEq] at hs
        subst hs
        simp only [pback]
        split
        · exact ⟨rfl, fun h => ⟨rfl, h⟩, fun h => .inl ⟨h, rfl⟩⟩
        · split
          · rename_i hb
            refine ⟨rfl, fun h => ?_, fun _ => .inr ⟨rfl, rfl⟩⟩
            rw [h] at hb; cases hb
          · rename_i hb
            exact ⟨rfl, fun h => ⟨rfl, h⟩, fun h => absurd h hb⟩

private theorem pcall {cfg : Cfg} {p q : PS} {a : Handle.PAct} (hal : p.alive = true) (hl : p.last = false) (ha : a = .close ∨ a = .del)
    (hs : Handle.pstep Spec.Bind.utf8 cfg p a = .ok (some q)) :
    p.busy = false ∧ (p.attr = false → q = { p with alive := (a == .close) }) ∧
    (p.attr = true → ∃ h, hstep cfg p.h .close = .ok (some h) ∧ q = { p with h := h, busy := true, last := (a == .del) }) := by
  rcases ha with rfl | rfl
  · simp only [Handle.pstep] at hs
    cases hb : p.busy with
    | true => simp [hb, pure] at hs
    | false =>
      refine ⟨rfl, fun h => ?_, fun h => ?_⟩
      · simp [hb, h, hal, pure] at hs; rw [← hs]; cases p; simp_all
      · simp only [hb, h, hal, Bool.not_true, Bool.or_false, Bool.false_eq_true, if_false] at hs
        cases hh : hstep cfg p.h .close with
        | ub m => rw [hh] at hs; cases hs
        | ok o =>
          rw [hh] at hs
          cases o with
          | none => simp only [Outcome.bind_ok] at hs; cases hs
          | some h1 =>
            simp only [Outcome.bind_ok, pure, Outcome.ok.injEq, Option.some.injEq] at hs
            exact ⟨h1, rfl, by rw [← hs]; simp [hl, h, hal]⟩
  · simp only [Handle.pstep] at hs
    cases hb : p.busy with
    | true => simp [hb, pure] at hs
    | false =>
      refine ⟨rfl, fun h => ?_, fun h => ?_⟩
      · simp only [hb, h, hal, pure, Bool.not_true, Bool.or_false, Bool.false_eq_true, if_false, Bool.not_false, if_true,
          Outcome.ok.injEq, Option.some.injEq] at hs
        rw [← hs]; simp [hb, h]
      · simp only [hb, h, hal, Bool.not_true, Bool.or_false, Bool.false_eq_true, if_false] at hs
        cases hh : hstep cfg p.h .close with
        | ub m => rw [hh] at hs; cases hs
        | ok o =>
          rw [hh] at hs
          cases o with
          | none => simp only [Outcome.bind_ok] at hs; cases hs
          | some h1 =>
            simp only [Outcome.bind_ok, pure, Outcome.ok.injEq, Option.some.injEq] at hs
            exact ⟨h1, rfl, by rw [← hs]; simp [h, hal]⟩

/-- What a step of the program is. -/
private theorem xstep_cases {cfg : Cfg} {x : X} {a : XAct} {y : X} (hs : xstep Spec.Bind.utf8 cfg x a = .ok (some y)) :
    (∃ b n i q, a = .life b n i ∧ Handle.pstep Spec.Bind.utf8 cfg x.ps (.life b n i) = .ok (some q) ∧
      ((x.phase = .running ∧ y = { x with ps := q }) ∨ (x.phase = .finalizing ∧ needsLock x b q = false ∧ y = xsettle { x with ps := q }))) ∨
    (a = .close ∧ x.phase = .running ∧ ∃ q, Handle.pstep Spec.Bind.utf8 cfg x.ps .close = .ok (some q) ∧ y = { x with ps := q }) ∨
    (a = .finish ∧ x.phase = .running ∧ ∃ q, Handle.pstep Spec.Bind.utf8 cfg x.ps .del = .ok (some q) ∧ y = xsettle { ps := q, phase := .finalizing }) := by
  cases a with
  | life b n i =>
    left
    cases hp : x.phase with
    | exited => simp [xstep, hp] at hs
    | running =>
      simp only [xstep, hp] at hs
      cases hq : Handle.pstep Spec.Bind.utf8 cfg x.ps (.life b n i) with
      | ub m => rw [hq] at hs; cases hs
      | ok o =>
        rw [hq] at hs
        cases o with
        | none => simp only [Outcome.bind_ok] at hs; cases hs
        | some q =>
          simp only [Outcome.bind_ok, pure, Outcome.ok.injEq, Option.some.injEq] at hs
          exact ⟨b, n, i, q, rfl, hq, .inl ⟨rfl, by rw [← hs, ← hp]⟩⟩
    | finalizing =>
      simp only [xstep, hp] at hs
      cases hq : Handle.pstep Spec.Bind.utf8 cfg x.ps (.life b n i) with
      | ub m => rw [hq] at hs; cases hs
      | ok o =>
        rw [hq] at hs
        cases o with
        | none => simp only [Outcome.bind_ok] at hs; cases hs
        | some q =>
          simp only [Outcome.bind_ok] at hs
          cases hn : needsLock x b q with
          | true => simp [hn, pure] at hs
          | false =>
            simp only [hn, Bool.false_eq_true, if_false, pure, Outcome.ok.injEq, Option.some.injEq] at hs
            exact ⟨b, n, i, q, rfl, hq, .inr ⟨rfl, hn, by rw [← hs, ← hp]⟩⟩
  | close =>
    right; left
    cases hp : x.phase with
    | exited => simp [xstep, hp] at hs
    | finalizing => simp [xstep, hp] at hs
    | running =>
      simp only [xstep, hp] at hs
      cases hq : Handle.pstep Spec.Bind.utf8 cfg x.ps .close with
      | ub m => rw [hq] at hs; cases hs
      | ok o =>
        rw [hq] at hs
        cases o with
        | none => simp only [Outcome.bind_ok] at hs; cases hs
        | some q =>
          simp only [Outcome.bind_ok, pure, Outcome.ok.injEq, Option.some.injEq] at hs
          exact ⟨rfl, rfl, q, rfl, by rw [← hs, ← hp]⟩
  | finish =>
    right; right
    cases hp : x.phase with
    | exited => simp [xstep, hp] at hs
    | finalizing => simp [xstep, hp] at hs
    | running =>
      simp only [xstep, hp] at hs
      cases hq : Handle.pstep Spec.Bind.utf8 cfg x.ps .del with
      | ub m => rw [hq] at hs; cases hs
      | ok o =>
        rw [hq] at hs
        cases o with
        | none => simp only [Outcome.bind_ok] at hs; cases hs
        | some q =>
          simp only [Outcome.bind_ok, pure, Outcome.ok.injEq, Option.some.injEq] at hs
          exact ⟨rfl, rfl, q, rfl, hs.symm⟩

private theorem xstep_inv {cfg : Cfg} {x y : X} {a : XAct} (hi : XInv cfg x) (hs : xstep Spec.Bind.utf8 cfg x a = .ok (some y)) : XInv cfg y := by
  rcases xstep_cases hs with ⟨b, n, i, q, _, hq, ⟨hp, rfl⟩ | ⟨hp, _, rfl⟩⟩ | ⟨_, hp, q, hq, rfl⟩ | ⟨_, hp, q, hq, rfl⟩
  · obtain ⟨w1, w2⟩ := hi.running hp
    obtain ⟨e1, e2, e3⟩ := plife_flags hq
    refine ⟨pstep_inv hi.ps hq, fun _ => ⟨?_, by simp [e1, w2]⟩, fun h => by simp [hp] at h, fun h => by simp [hp] at h⟩
    cases hb : x.ps.busy with
    | false => simp [(e2 hb).1, w1]
    | true =>
      rcases e3 hb with ⟨_, h⟩ | ⟨_, h⟩
      · simp [h, w1]
      · simp [h, w2]
  · obtain ⟨w1, w2, w3⟩ := hi.finalizing hp
    obtain ⟨e1, e2, e3⟩ := plife_flags hq
    rcases e3 w2 with ⟨h1, h2⟩ | ⟨h1, h2⟩
    · have : xsettle { x with ps := q } = { x with ps := q } := by simp [xsettle, hp, h2, w1]
      rw [this]
      exact ⟨pstep_inv hi.ps hq, fun h => by simp [hp] at h, fun _ => ⟨by simp [h2, w1], h1, by simp [e1, w3]⟩, fun h => by simp [hp] at h⟩
    · have : xsettle { x with ps := q } = { ps := q, phase := .exited } := by simp [xsettle, hp, h2, w3]
      rw [this]
      exact ⟨pstep_inv hi.ps hq, fun h => by simp at h, fun h => by simp at h, fun _ => by simp [h2, w3]⟩
  · obtain ⟨w1, w2⟩ := hi.running hp
    refine ⟨pstep_inv hi.ps hq, fun _ => ?_, fun h => by simp [hp] at h, fun h => by simp [hp] at h⟩
    obtain ⟨_, k1, k2⟩ := pcall w1 w2 (.inl rfl) hq
    cases ha : x.ps.attr with
    | false => rw [k1 ha]; exact ⟨rfl, w2⟩
    | true => obtain ⟨h, _, rfl⟩ := k2 ha; exact ⟨w1, rfl⟩
  · obtain ⟨w1, w2⟩ := hi.running hp
    have hq' := pstep_inv hi.ps hq
    obtain ⟨_, k1, k2⟩ := pcall w1 w2 (.inr rfl) hq
    cases ha : x.ps.attr with
    | false =>
      have he := k1 ha
      subst he
      refine ⟨hq', fun h => ?_, fun h => ?_, fun h => rfl⟩
      · simp [xsettle] at h
      · simp [xsettle] at h
    | true =>
      obtain ⟨h, _, he⟩ := k2 ha
      subst he
      refine ⟨?_, fun h => ?_, fun h => ?_, fun h => ?_⟩
      · simpa [xsettle, w1] using hq'
      · simp [xsettle, w1] at h
      · simp [xsettle, w1]
      · simp [xsettle, w1] at h

private theorem xrun_inv {cfg : Cfg} : ∀ (acts : List XAct) (x y : X), XInv cfg x → xrun Spec.Bind.utf8 cfg x acts = .ok (some y) → XInv cfg y := by
  intro acts
  induction acts with
  | nil => intro p q hi h; simp only [xrun, Outcome.ok.injEq, Option.some.injEq] at h; subst h; exact hi
  | cons a as ih =>
    intro p q hi h
    simp only [xrun] at h
    cases hs : xstep Spec.Bind.utf8 cfg p a with
    | ub m => rw [hs] at h; cases h
    | ok o =>
      rw [hs] at h
      cases o with
      | none => simp only [Outcome.bind_ok] at h; cases h
      | some p1 => simp only [Outcome.bind_ok] at h; exact ih p1 q (xstep_inv hi hs) h

private theorem xinv {cfg : Cfg} {x : X} (h : XRuns cfg x) : XInv cfg x := by
  obtain ⟨acts, h⟩ := h
  exact xrun_inv acts _ _ ⟨pinv_new cfg, fun _ => ⟨rfl, rfl⟩, fun h => (by cases h), fun h => (by cases h)⟩ h

/-! ## C141 -/

/-- C141 in full: a Python program that has a `Watch` ends when its last line has been executed, closed or not. -/
def C141_full : Prop := ∀ (cfg : Cfg) (x : X), cfg.fdOk = true → XRuns cfg x → x.phase = .finalizing → CanEnd cfg x

private theorem done_finished {cfg : Cfg} (hfd : cfg.fdOk = true) {p : PS} (hi : PInv cfg p) (ha : p.attr = false) : p.h.life.w = .finished := by
  obtain ⟨hC, hlen⟩ := hi.let_go ha
  exact ended_of_rets hfd hi.h hC (by intro h; rw [h] at hlen; cases hlen)

/-- The worker is stuck in front of the interpreter lock. -/
private theorem stuck_run {cfg : Cfg} (hfd : cfg.fdOk = true) : ∀ (acts : List XAct) (x y : X), XInv cfg x → x.phase = .finalizing →
    ¬ Past x.ps.h.life.w → xrun Spec.Bind.utf8 cfg x acts = .ok (some y) → y.phase = .finalizing ∧ callbacks y.ps.h.life.log = callbacks x.ps.h.life.log := by
  intro acts
  induction acts with
  | nil => intro x y hi hp hw h; simp only [xrun, Outcome.ok.injEq, Option.some.injEq] at h; subst h; exact ⟨hp, rfl⟩
  | cons a as ih =>
    intro x y hi hp hw h
    simp only [xrun] at h
    cases hs : xstep Spec.Bind.utf8 cfg x a with
    | ub m => rw [hs] at h; cases h
    | ok o =>
      rw [hs] at h
      cases o with
      | none => simp only [Outcome.bind_ok] at h; cases h
      | some x1 =>
        simp only [Outcome.bind_ok] at h
        have hi1 := xstep_inv hi hs
        rcases xstep_cases hs with ⟨b, n, i, q, rfl, hq, ⟨hp', _⟩ | ⟨_, hn, he⟩⟩ | ⟨_, hp', _⟩ | ⟨_, hp', _⟩
        · rw [hp] at hp'; cases hp'
        · have hb : b ≠ .cbReturn := by rintro rfl; simp [needsLock] at hn
          have hcb : newCbs x.ps.h.life.log q.h.life.log = [] := by
            simp only [needsLock, Bool.or_eq_false_iff] at hn
            simpa using hn.2
          have hw1 := not_past_p hw hb hq
          have hal : q.alive = true := by
            cases hx : q.alive with
            | true => rfl
            | false =>
              have hiq := pstep_inv hi.ps hq
              exact absurd (.inr (done_finished hfd hiq (hiq.dead hx).2)) hw1
          have he' : x1 = { x with ps := q } := by rw [he]; simp [xsettle, hp, hal]
          subst he'
          obtain ⟨g1, g2⟩ := ih _ y hi1 hp hw1 h
          refine ⟨g1, g2.trans ?_⟩
          have := newCbs_eq (hstep_log (plife_h hq))
          rw [hcb] at this
          simpa using this
        · rw [hp] at hp'; cases hp'
        · rw [hp] at hp'; cases hp'

/-- `close` keeps the watcher's thread where it is. -/
private theorem close_w {cfg : Cfg} {h h' : H} (hs : hstep cfg h .close = .ok (some h')) : h'.life.w = h.life.w ∧ callbacks h'.life.log = callbacks h.life.log := by
  simp only [hstep] at hs
  split at hs
  · simp at hs
  · split at hs
    · cases hs
    · cases hl : step cfg h.life .oClose with
      | none => rw [hl] at hs; simp at hs
      | some l => rw [hl] at hs; simp at hs; subst hs; exact ⟨(owner_frame rfl hl).1, (owner_frame rfl hl).2.2⟩

/-- From there the program ends by itself. -/
private theorem past_ends {cfg : Cfg} : ∀ (acts : List Handle.PAct) (x : X) (p' : PS), XInv cfg x → x.phase = .finalizing → Past x.ps.h.life.w →
    (∀ a ∈ acts, QuietP a) → Handle.prun Spec.Bind.utf8 cfg x.ps acts = .ok (some p') → p'.alive = false → CanEnd cfg x := by
  intro acts
  induction acts with
  | nil =>
    intro x p' hi hp _ _ h hal
    simp only [Handle.prun, Outcome.ok.injEq, Option.some.injEq] at h
    subst h
    rw [(hi.finalizing hp).1] at hal; cases hal
  | cons a as ih =>
    intro x p' hi hp hw hq h hal
    have hqa := hq a List.mem_cons_self
    cases a with
    | close => exact hqa.elim
    | del => exact hqa.elim
    | life b n i =>
      simp only [Handle.prun] at h
      cases hs : Handle.pstep Spec.Bind.utf8 cfg x.ps (.life b n i) with
      | ub m => rw [hs] at h; cases h
      | ok o =>
        rw [hs] at h
        cases o with
        | none => simp only [Outcome.bind_ok] at h; cases h
        | some q =>
          simp only [Outcome.bind_ok] at h
          obtain ⟨g1, g2, g3, g4⟩ := past_p hw hs
          have hn : needsLock x b q = false := by simp [needsLock, g2, g3, g4]
          have hx : xstep Spec.Bind.utf8 cfg x (.life b n i) = .ok (some (xsettle { x with ps := q })) := by
            simp [xstep, hp, hs, hn, pure]
          have hi1 := xstep_inv hi hx
          cases hqa : q.alive with
          | false =>
            have he : xsettle { x with ps := q } = { ps := q, phase := .exited } := by simp [xsettle, hp, hqa]
            rw [he] at hx
            exact ⟨[.life b n i], { ps := q, phase := .exited }, by simp [xrun, hx], rfl⟩
          | true =>
            have he : xsettle { x with ps := q } = { x with ps := q } := by simp [xsettle, hp, hqa]
            rw [he] at hx hi1
            obtain ⟨acts', y, r1, r2⟩ := ih { x with ps := q } p' hi1 hp g1 (fun c hc => hq c (List.mem_cons_of_mem _ hc)) h hal
            exact ⟨.life b n i :: acts', y, by simp [xrun, hx, r1], r2⟩

private theorem settle_ps (x : X) : (xsettle x).ps = x.ps := by
  simp only [xsettle]
  split
  · split <;> rfl
  · rfl

private theorem prun_snoc {cfg : Cfg} {p q : PS} {a : Handle.PAct} (hs : Handle.pstep Spec.Bind.utf8 cfg p a = .ok (some q)) :
    ∀ (acts : List Handle.PAct) (p0 : PS), Handle.prun Spec.Bind.utf8 cfg p0 acts = .ok (some p) →
      Handle.prun Spec.Bind.utf8 cfg p0 (acts ++ [a]) = .ok (some q) := by
  intro acts
  induction acts with
  | nil =>
    intro p0 h
    simp only [Handle.prun, Outcome.ok.injEq, Option.some.injEq] at h
    subst h
    simp [Handle.prun, hs]
  | cons b bs ih =>
    intro p0 h
    simp only [Handle.prun, List.cons_append] at h ⊢
    cases hb : Handle.pstep Spec.Bind.utf8 cfg p0 b with
    | ub m => rw [hb] at h; cases h
    | ok o =>
      rw [hb] at h
      cases o with
      | none => simp only [Outcome.bind_ok] at h; cases h
      | some p1 => simp only [Outcome.bind_ok] at h ⊢; exact ih p1 h

private theorem xrun_reach {cfg : Cfg} : ∀ (acts : List XAct) (x y : X), PReach cfg x.ps → xrun Spec.Bind.utf8 cfg x acts = .ok (some y) → PReach cfg y.ps := by
  intro acts
  induction acts with
  | nil => intro p q hi h; simp only [xrun, Outcome.ok.injEq, Option.some.injEq] at h; subst h; exact hi
  | cons a as ih =>
    intro p q hi h
    simp only [xrun] at h
    cases hs : xstep Spec.Bind.utf8 cfg p a with
    | ub m => rw [hs] at h; cases h
    | ok o =>
      rw [hs] at h
      cases o with
      | none => simp only [Outcome.bind_ok] at h; cases h
      | some p1 =>
        simp only [Outcome.bind_ok] at h
        refine ih p1 q ?_ h
        obtain ⟨acts0, h0⟩ := hi
        rcases xstep_cases hs with ⟨b, n, i, q, _, hq, ⟨hp, rfl⟩ | ⟨hp, _, rfl⟩⟩ | ⟨_, hp, q, hq, rfl⟩ | ⟨_, hp, q, hq, rfl⟩
        · exact ⟨_, prun_snoc hq acts0 _ h0⟩
        · rw [settle_ps]; exact ⟨_, prun_snoc hq acts0 _ h0⟩
        · exact ⟨_, prun_snoc hq acts0 _ h0⟩
        · rw [settle_ps]; exact ⟨_, prun_snoc hq acts0 _ h0⟩

private theorem xreach {cfg : Cfg} {x : X} (h : XRuns cfg x) : PReach cfg x.ps := by
  obtain ⟨acts, h⟩ := h
  exact xrun_reach acts _ _ ⟨[], rfl⟩ h

private theorem past_can_end {cfg : Cfg} {x : X} (h : XInv cfg x) (hr : PReach cfg x.ps) (hp : x.phase = .finalizing) (hw : Past x.ps.h.life.w) : CanEnd cfg x := by
  obtain ⟨_, hb, hl⟩ := h.finalizing hp
  obtain ⟨acts, p', h1, h2, _, _, h5⟩ := C134_python_returns cfg x.ps hr hb (by
    intro c n hc
    rcases hw with ⟨r, hw⟩ | hw <;> rw [hc] at hw <;> cases hw)
  exact past_ends acts x p' h hp hw h1 h2 (by rw [h5, hl]; rfl)

/-- C141 (partial: exactly when it holds). The program has executed its last line. If the watch was closed before, the process
ends at once. If not, but the callback had been called for the last time and had returned (as the watcher gave up by itself),
the process can end, whatever has happened in between. Otherwise it never ends. -/
theorem C141_exact_partial (cfg : Cfg) (hfd : cfg.fdOk = true) (x y : X) (h : XRuns cfg x) (hs : xstep Spec.Bind.utf8 cfg x .finish = .ok (some y)) :
    (x.ps.attr = false → y.phase = .exited) ∧
    (x.ps.attr = true → LastCallReturned cfg.path x.ps.h.life → ∀ acts z, xrun Spec.Bind.utf8 cfg y acts = .ok (some z) → CanEnd cfg z) ∧
    (x.ps.attr = true → ¬ LastCallReturned cfg.path x.ps.h.life → ¬ CanEnd cfg y) := by
  have hi := xinv h
  have hi1 := xstep_inv hi hs
  rcases xstep_cases hs with ⟨_, _, _, _, he, _⟩ | ⟨he, _⟩ | ⟨_, hp, q, hq, he⟩
  · cases he
  · cases he
  obtain ⟨w1, w2⟩ := hi.running hp
  obtain ⟨_, k1, k2⟩ := pcall w1 w2 (.inr rfl) hq
  have open_ : x.ps.attr = true → y.phase = .finalizing ∧ y.ps.h.life.w = x.ps.h.life.w := by
    intro ha
    obtain ⟨h1, hh, rfl⟩ := k2 ha
    subst he
    simp [xsettle, w1, (close_w hh).1]
  refine ⟨fun ha => ?_, fun ha hl acts z hz => ?_, fun ha hl => ?_⟩
  · rw [he, k1 ha]; rfl
  · obtain ⟨g1, g2⟩ := open_ ha
    have hw : Past y.ps.h.life.w := by rw [g2]; exact past_of_last hi.ps.h.reach hl
    have hyr : PReach cfg y.ps := by
      obtain ⟨a0, h0⟩ := xreach h
      rw [he, settle_ps]; exact ⟨_, prun_snoc hq a0 _ h0⟩
    have main : ∀ (acts : List XAct) (y z : X), XInv cfg y → ((y.phase = .finalizing ∧ Past y.ps.h.life.w) ∨ y.phase = .exited) →
        xrun Spec.Bind.utf8 cfg y acts = .ok (some z) → (z.phase = .finalizing ∧ Past z.ps.h.life.w) ∨ z.phase = .exited := by
      intro acts
      induction acts with
      | nil => intro y z _ hd h; simp only [xrun, Outcome.ok.injEq, Option.some.injEq] at h; subst h; exact hd
      | cons a as ih =>
        intro y z hi hd h
        simp only [xrun] at h
        cases hs : xstep Spec.Bind.utf8 cfg y a with
        | ub m => rw [hs] at h; cases h
        | ok o =>
          rw [hs] at h
          cases o with
          | none => simp only [Outcome.bind_ok] at h; cases h
          | some y1 =>
            simp only [Outcome.bind_ok] at h
            refine ih y1 z (xstep_inv hi hs) ?_ h
            rcases xstep_cases hs with ⟨b, n, i, q, _, hq, ⟨hp, _⟩ | ⟨hp, _, rfl⟩⟩ | ⟨_, hp, _⟩ | ⟨_, hp, _⟩
            · rcases hd with ⟨hd, _⟩ | hd <;> rw [hp] at hd <;> cases hd
            · rcases hd with ⟨_, hd⟩ | hd
              · have := (past_p hd hq).1
                cases hal : q.alive with
                | true => left; simp [xsettle, hp, hal, this]
                | false => right; simp [xsettle, hp, hal]
              · rw [hp] at hd; cases hd
            · rcases hd with ⟨hd, _⟩ | hd <;> rw [hp] at hd <;> cases hd
            · rcases hd with ⟨hd, _⟩ | hd <;> rw [hp] at hd <;> cases hd
    rcases main acts y z hi1 (.inl ⟨g1, hw⟩) hz with ⟨hz1, hz2⟩ | hz1
    · exact past_can_end (xrun_inv acts _ _ hi1 hz) (xrun_reach acts _ _ hyr hz) hz1 hz2
    · exact ⟨[], z, rfl, hz1⟩
  · obtain ⟨g1, g2⟩ := open_ ha
    rintro ⟨acts, z, hz, hx⟩
    have := (stuck_run hfd acts y z hi1 g1 (by rw [g2]; exact fun hw => hl (last_of_past hi.ps.h.reach hw)) hz).1
    rw [this] at hx; cases hx

/-- C141 (partial likewise): and while it hangs the callback is not called, so the die message is never told. -/
theorem C141_silent_partial (cfg : Cfg) (hfd : cfg.fdOk = true) (x y z : X) (h : XRuns cfg x) (hs : xstep Spec.Bind.utf8 cfg x .finish = .ok (some y))
    (ha : x.ps.attr = true) (hl : ¬ LastCallReturned cfg.path x.ps.h.life) (acts : List XAct) (hz : xrun Spec.Bind.utf8 cfg y acts = .ok (some z)) :
    callbacks z.ps.h.life.log = callbacks x.ps.h.life.log := by
  have hi := xinv h
  have hi1 := xstep_inv hi hs
  rcases xstep_cases hs with ⟨_, _, _, _, he, _⟩ | ⟨he, _⟩ | ⟨_, hp, q, hq, he⟩
  · cases he
  · cases he
  obtain ⟨w1, w2⟩ := hi.running hp
  obtain ⟨_, k1, k2⟩ := pcall w1 w2 (.inr rfl) hq
  obtain ⟨h1, hh, rfl⟩ := k2 ha
  subst he
  have hw : ¬ Past h1.life.w := by rw [(close_w hh).1]; exact fun hw => hl (last_of_past hi.ps.h.reach hw)
  have := (stuck_run hfd acts _ z hi1 (by simp [xsettle, w1]) (by simpa [xsettle, w1] using hw) hz).2
  rw [this]
  simp [xsettle, w1, (close_w hh).2]

private def cfgX : Cfg := { path := b!"/d", dirOk := true, fdOk := true }
private def cfgXBad : Cfg := { path := b!"/f", dirOk := false, fdOk := true }
private def lifeX (l : List Life.Act) : List XAct := l.map fun a => .life a 5 6
private def upX : List Life.Act := [.w, .w, .w, .cbReturn, .wOpen [] .pending, .w, .w]
private def downX : List Life.Act := [.o, .o, .o, .o, .wWake [.il], .w, .w, .w, .w, .cbReturn, .w, .o, .o, .o, .o, .o]

private theorem ranX {o : Outcome (Option X)} {p : X → Prop} [DecidablePred p]
    (h : (match o with | .ok (some a) => decide (p a) | _ => false) = true) : ∃ a, o = .ok (some a) ∧ p a := by
  cases o with
  | ok a =>
    cases a with
    | none => cases h
    | some a => exact ⟨a, rfl, by simpa using h⟩
  | ub => cases h

private theorem xrun_append {cfg : Cfg} : ∀ (as bs : List XAct) (x : X), xrun Spec.Bind.utf8 cfg x (as ++ bs) =
    (xrun Spec.Bind.utf8 cfg x as >>= fun o => match o with | none => pure none | some y => xrun Spec.Bind.utf8 cfg y bs) := by
  intro as
  induction as with
  | nil => intro bs x; simp [xrun]
  | cons a as ih =>
    intro bs x
    simp only [List.cons_append, xrun]
    cases xstep Spec.Bind.utf8 cfg x a with
    | ub m => rfl
    | ok o =>
      cases o with
      | none => simp
      | some y => simp [ih]

/-- A watch that is open. -/
private theorem x_open : ∃ x, xrun Spec.Bind.utf8 cfgX (xnew cfgX) (lifeX upX) = .ok (some x) ∧ x.ps.attr = true ∧ x.phase = .running ∧
    x.ps.busy = false ∧ x.ps.alive = true ∧ x.ps.h.inC = false ∧ x.ps.h.freed = false ∧ x.ps.h.life.o = .idle ∧ (callbacks x.ps.h.life.log).length = 1 := ranX (by decide +kernel)

/-- C141 as stated is false of the code: the last message needs the callback, and with it the interpreter lock, while the main
thread waits for the watcher's thread. -/
theorem C141_refuted : ¬ C141_full := by
  intro h
  obtain ⟨x, h1, h2, h3, h4, h5, h6, h7, h8, h9⟩ := x_open
  obtain ⟨y, hy, hp⟩ := ranX (o := xrun Spec.Bind.utf8 cfgX (xnew cfgX) (lifeX upX ++ [.finish])) (p := fun y => y.phase = .finalizing) (by decide +kernel)
  have hs : xstep Spec.Bind.utf8 cfgX x .finish = .ok (some y) := by
    rw [xrun_append, h1] at hy
    simp only [Outcome.bind_ok, xrun] at hy
    cases hx : xstep Spec.Bind.utf8 cfgX x .finish with
    | ub m => rw [hx] at hy; cases hy
    | ok o =>
      rw [hx] at hy
      cases o with
      | none => simp only [Outcome.bind_ok] at hy; cases hy
      | some y' => simp only [Outcome.bind_ok, Outcome.ok.injEq, Option.some.injEq] at hy; rw [hy]
  refine (C141_exact_partial cfgX rfl x y ⟨_, h1⟩ hs).2.2 h2 ?_ (h cfgX y rfl ⟨_, hy⟩ hp)
  rintro ⟨⟨a, d, mids, he, _⟩, _⟩
  rw [he] at h9
  simp at h9

/-- The three cases come about: closed; given up by itself (the path is no directory); open. -/
example : (∃ x, XRuns cfgX x ∧ x.ps.attr = false ∧ x.phase = .running) ∧
    (∃ x, XRuns cfgXBad x ∧ x.ps.attr = true ∧ x.phase = .running ∧ LastCallReturned cfgXBad.path x.ps.h.life) ∧
    (∃ x, XRuns cfgX x ∧ x.ps.attr = true ∧ x.phase = .running ∧ ¬ LastCallReturned cfgX.path x.ps.h.life) := by
  refine ⟨?_, ?_, ?_⟩
  · obtain ⟨x, h1, h2⟩ := ranX (o := xrun Spec.Bind.utf8 cfgX (xnew cfgX) (lifeX upX ++ [.close] ++ lifeX downX))
      (p := fun x => x.ps.attr = false ∧ x.phase = .running) (by decide +kernel)
    exact ⟨x, ⟨_, h1⟩, h2⟩
  · obtain ⟨x, h1, h2, h3, h4⟩ := ranX (o := xrun Spec.Bind.utf8 cfgXBad (xnew cfgXBad) (lifeX [.w, .w, .cbReturn, .w, .cbReturn, .w]))
      (p := fun x => x.ps.attr = true ∧ x.phase = .running ∧ x.ps.h.life.w = .finished) (by decide +kernel)
    exact ⟨x, ⟨_, h1⟩, h2, h3, last_of_past (xinv ⟨_, h1⟩).ps.h.reach (.inr h4)⟩
  · obtain ⟨x, h1, h2, h3, _, _, _, _, _, h9⟩ := x_open
    refine ⟨x, ⟨_, h1⟩, h2, h3, ?_⟩
    rintro ⟨⟨a, d, mids, he, _⟩, _⟩
    rw [he] at h9
    simp at h9
example : ∃ x, XRuns cfgX x ∧ x.phase = .exited := by
  obtain ⟨x, h1, h2⟩ := ranX (o := xrun Spec.Bind.utf8 cfgX (xnew cfgX) (lifeX upX ++ [.close] ++ lifeX downX ++ [.finish]))
    (p := fun x => x.phase = .exited) (by decide +kernel)
  exact ⟨x, ⟨_, h1⟩, h2⟩

end Verif.Props
