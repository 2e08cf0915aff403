import Verif.Spec.NoMarks
import Verif.Props.Doomed
/-!
# A Linux watch for which fanotify gives no mark: C146
-/

namespace Verif.Props
open Verif Verif.Model Verif.Model.Life Verif.Model.Ad Verif.Spec Verif.Spec.Ad Verif.Lemmas.Life Verif.Lemmas.Ad

/-- C146 as it should be: when fanotify refuses every directory, the watcher does not go on waiting for fanotify (it falls back to inotify, or
ends with an error). -/
def C146_full : Prop := ∀ (σ : Type) (cfg : Cfg) (E : Env σ), NoMarks E.fa → ∀ c, CReach cfg E c → c.life.w ≠ .aWait false

/-- Where a watch without marks is, and what the callback has got. The flag: has the stop signal been seen? -/
private inductive Rest (path : Str) (base evs : List Ev) : Bool → WPc → List Ev → Prop where
  | telling {told rest} (h : told ++ rest = evs) : Rest path base evs false (.aEvs false rest .pending []) (base ++ told)
  | wait : Rest path base evs false (.aWait false) (base ++ evs)
  | none : Rest path base evs false (.aItems false .pending []) (base ++ evs)
  | some {is} (h : is.all (· == .il) = true) : Rest path base evs true (.aItems false .pending (.il :: is)) (base ++ evs)
  | comp {is} (h : is.all (· == .il) = true) : Rest path base evs true (.aItems false .complete is) (base ++ evs)
  | done : Rest path base evs true (.aDone false .complete) (base ++ evs)
  | die : Rest path base evs true (.die true true) (base ++ evs)
  | setFut : Rest path base evs true (.setFut true) (base ++ evs ++ [dieMsg path true])
  | fin : Rest path base evs true .finished (base ++ evs ++ [dieMsg path true])
  | inCb {b n l} (h : Rest path base evs b n l) (hn : n ≠ .finished) (hs : ∀ c m, n ≠ .selfClose c m) : Rest path base evs b (.inCb n) l
  | self {b c n l} (h : Rest path base evs b n l) (hn : n ≠ .finished) (hs : ∀ c m, n ≠ .selfClose c m) : Rest path base evs b (.selfClose c n) l

private theorem all_il {is : List Item} (h : is.all (· == .il) = true) : is = [] ∨ ∃ t, is = .il :: t ∧ t.all (· == .il) = true := by
  cases is with
  | nil => exact .inl rfl
  | cons i t =>
    simp only [List.all_cons, Bool.and_eq_true, beq_iff_eq] at h
    obtain ⟨rfl, h⟩ := h
    exact .inr ⟨t, rfl, h⟩

/-- A step of the worker itself. -/
private theorem rest_w {cfg : Cfg} {base evs : List Ev} {s s' : St} {b : Bool} (hd : Rest cfg.path base evs b s.w (callbacks s.log))
    (hs : wStep cfg s = some s') :
    Rest cfg.path base evs b s'.w (callbacks s'.log) ∧ (s'.w = .finished → s'.fut = some true) ∧
      ((∀ c m, s.w ≠ .selfClose c m) → s'.sb = s.sb ∧ s'.o = s.o ∧ ∀ c m, s'.w ≠ .selfClose c m) := by
  generalize hw : s.w = w at hd
  generalize hl : callbacks s.log = l at hd
  have cb : ∀ (e : Ev) (n : WPc), callbacks (callCb s e n).log = l ++ [e] := by
    intro e n; rw [← hl]; simp [callCb, callbacks_append, callbacks]
  cases hd with
  | telling ht =>
    rename_i told rest
    cases rest with
    | nil =>
      simp only [wStep, hw, Option.some.injEq] at hs
      subst hs
      simp only [List.append_nil] at ht
      subst ht
      exact ⟨by rw [hl]; exact .none, by simp, by simp⟩
    | cons e es =>
      simp only [wStep, hw, Option.some.injEq] at hs
      subst hs
      refine ⟨?_, by simp [callCb], by simp [callCb]⟩
      rw [cb, List.append_assoc]
      exact .inCb (.telling (by rw [List.append_assoc]; exact ht)) (by simp) (by simp)
  | wait => simp only [wStep, hw] at hs; cases hs
  | none =>
    have : Result.pending.keepsRunning = true := by decide
    simp only [wStep, hw, this, if_true, Option.some.injEq] at hs
    subst hs
    exact ⟨by rw [hl]; exact .wait, by simp, by simp⟩
  | some h =>
    simp only [wStep, hw, Option.some.injEq] at hs
    subst hs
    exact ⟨by rw [hl]; exact .comp h, by simp, by simp⟩
  | comp h =>
    rcases all_il h with rfl | ⟨t, rfl, h⟩
    · have : Result.complete.keepsRunning = false := by decide
      simp only [wStep, hw, this, Bool.false_eq_true, if_false, Option.some.injEq] at hs
      subst hs
      exact ⟨by rw [hl]; exact .done, by simp, by simp⟩
    · simp only [wStep, hw, Option.some.injEq] at hs
      subst hs
      exact ⟨by rw [hl]; exact .comp h, by simp, by simp⟩
  | done =>
    have h1 : (Result.complete = Result.eFanotify) = False := by simp
    have h2 : Result.complete.isError = false := by decide
    simp only [wStep, hw, h1, decide_false, Bool.and_false, Bool.false_eq_true, if_false, h2, Option.some.injEq] at hs
    subst hs
    exact ⟨by rw [hl]; exact .die, by simp, by simp⟩
  | die =>
    simp only [wStep, hw, Option.some.injEq] at hs
    subst hs
    exact ⟨by rw [cb]; exact .inCb .setFut (by simp) (by simp), by simp [callCb], by simp [callCb]⟩
  | setFut =>
    simp only [wStep, hw, Option.some.injEq] at hs
    subst hs
    exact ⟨by rw [hl]; exact .fin, fun _ => rfl, by simp⟩
  | fin => simp only [wStep, hw] at hs; cases hs
  | inCb h hn => simp only [wStep, hw] at hs; cases hs
  | self h hn hns =>
    simp only [wStep, hw] at hs
    split at hs
    · cases hs
    · rename_i hc
      simp only [Option.some.injEq] at hs; subst hs
      exact ⟨by rw [(closeStep_frame hc).1, hl]; exact .self h hn hns, by simp, by simp⟩
    · rename_i hc
      simp only [Option.some.injEq] at hs; subst hs
      exact ⟨by rw [(closeStep_frame hc).1, hl]; exact .inCb h hn hns, by simp, by simp⟩

/-- What is kept: with `open'`, nobody has closed. -/
private def Keeps (path : Str) (base evs : List Ev) (open' : Bool) (s : St) : Prop :=
  (∃ b, Rest path base evs b s.w (callbacks s.log) ∧ (open' = true → b = false)) ∧ (s.w = .finished → s.fut = some true) ∧
  (open' = true → s.sb.count = 0 ∧ s.o = .idle ∧ ∀ c m, s.w ≠ .selfClose c m)

private theorem rest_step {cfg : Cfg} {base evs : List Ev} {op : Bool} {s s' : St} {a : Act} (h : Keeps cfg.path base evs op s)
    (hp : plainAct a = true) (he : a ≠ .wWakeErr) (hu : op = true → a ≠ .oClose ∧ a ≠ .oDtor ∧ a ≠ .cbClose) (hs : step cfg s a = some s') :
    Keeps cfg.path base evs op s' := by
  obtain ⟨⟨b, hd, hb⟩, hf, ho⟩ := h
  have same : op = false → ∀ {x : St}, x.w = s.w → callbacks x.log = callbacks s.log → x.fut = s.fut → Keeps cfg.path base evs op x := by
    intro e x h1 h2 h3; refine ⟨⟨b, by rw [h1, h2]; exact hd, hb⟩, by rw [h1, h3]; exact hf, by rw [e]; simp⟩
  cases a with
  | w =>
    simp only [step] at hs
    obtain ⟨h1, h2, h3⟩ := rest_w hd hs
    refine ⟨⟨b, h1, hb⟩, h2, ?_⟩
    intro e
    obtain ⟨g1, g2, g3⟩ := ho e
    obtain ⟨k1, k2, k3⟩ := h3 g3
    exact ⟨by rw [k1]; exact g1, by rw [k2]; exact g2, k3⟩
  | wOpen => cases hp
  | wWake => cases hp
  | wWakeErr => exact absurd rfl he
  | cbReturn =>
    simp only [step] at hs
    split at hs
    · rename_i n hw
      simp only [Option.some.injEq] at hs; subst hs
      rw [hw] at hd
      cases hd with
      | inCb h hn hns => exact ⟨⟨b, h, hb⟩, fun h' => absurd h' hn, fun e => ⟨(ho e).1, (ho e).2.1, hns⟩⟩
    · cases hs
  | cbClose =>
    have e : op = false := by cases op with | false => rfl | true => exact absurd rfl (hu rfl).2.2
    simp only [step] at hs
    split at hs
    · rename_i n hw
      simp only [Option.some.injEq] at hs; subst hs
      rw [hw] at hd
      cases hd with
      | inCb h hn hns => exact ⟨⟨b, .self h hn hns, hb⟩, by simp, by rw [e]; simp⟩
    · cases hs
  | oClose =>
    have e : op = false := by cases op with | false => rfl | true => exact absurd rfl (hu rfl).1
    simp only [step] at hs
    split at hs
    · simp only [Option.some.injEq] at hs; subst hs; exact same e rfl (by simp [callbacks_append, callbacks]) rfl
    · cases hs
  | oDtor =>
    have e : op = false := by cases op with | false => rfl | true => exact absurd rfl (hu rfl).2.1
    simp only [step] at hs
    split at hs
    · simp only [Option.some.injEq] at hs; subst hs; exact same e rfl (by simp [callbacks_append, callbacks]) rfl
    · cases hs
  | o =>
    cases hop : op with
    | true =>
      have := (ho hop).2.1
      simp only [step, oStep, this] at hs
      cases hs
    | false =>
    subst hop
    have same := @same rfl
    simp only [step, oStep] at hs
    split at hs
    · split at hs
      · cases hs
      · rename_i hc; simp only [Option.some.injEq] at hs; subst hs
        have := closeStep_frame hc
        exact same this.2.1 (by simp only; rw [this.1]) this.2.2.2.1
      · rename_i hc; simp only [Option.some.injEq] at hs; subst hs
        have := closeStep_frame hc
        exact same this.2.1 (by simp only; rw [this.1]; simp [callbacks_append, callbacks]) this.2.2.2.1
    · split at hs
      · cases hs
      · rename_i hc; simp only [Option.some.injEq] at hs; subst hs
        have := closeStep_frame hc
        exact same this.2.1 (by simp only; rw [this.1]) this.2.2.2.1
      · rename_i hc; simp only [Option.some.injEq] at hs; subst hs
        have := closeStep_frame hc
        exact same this.2.1 (by simp only; rw [this.1]) this.2.2.2.1
    · split at hs
      · split at hs
        · cases hs
        · simp only [Option.some.injEq] at hs; subst hs; exact same rfl rfl rfl
      · simp only [Option.some.injEq] at hs; subst hs; exact same rfl rfl rfl
    · simp only [Option.some.injEq] at hs; subst hs; exact same rfl (by simp [callbacks_append, callbacks]) rfl
    · cases hs

private theorem recv_il {σ} (E : Env σ) (bk : Back σ) : ∀ ws : List Waked, ws.all (· == .il) = true →
    ∃ is, Ad.recvAll E bk ws = .ok (bk, is) ∧ is.all (· == .il) = true := by
  intro ws
  induction ws with
  | nil => intro _; exact ⟨[], rfl, rfl⟩
  | cons x ws ih =>
    intro h
    simp only [List.all_cons, Bool.and_eq_true, beq_iff_eq] at h
    obtain ⟨rfl, h⟩ := h
    obtain ⟨is, h1, h2⟩ := ih h
    exact ⟨.il :: is, by simp [Ad.recvAll, h1], by simp [h2]⟩

private theorem rest_run {σ} {cfg : Cfg} {E : Env σ} {base evs : List Ev} {op : Bool} : ∀ (acts : List (CAct σ)) (x y : CS σ),
    Keeps cfg.path base evs op x.life → acts.all Still = true → (op = true → acts.all Unclosed = true) →
    crun cfg E x acts = .ok (some y) → Keeps cfg.path base evs op y.life := by
  intro acts
  induction acts with
  | nil => intro x y h _ _ hr; cases hr; exact h
  | cons a as ih =>
    intro x y h hst hu hr
    simp only [List.all_cons, Bool.and_eq_true] at hst
    have hu' : op = true → Unclosed a = true ∧ as.all Unclosed = true := fun e => by have := hu e; simpa using this
    simp only [crun] at hr
    obtain ⟨o, h1, h2⟩ := bind_ok_inv hr
    cases o with
    | none => cases h2
    | some c1 =>
      refine ih c1 y ?_ hst.2 (fun e => (hu' e).2) h2
      cases a with
      | life la =>
        simp only [cstep] at h1
        split at h1
        · rename_i hp
          cases hl : step cfg x.life la with
          | none => rw [hl] at h1; simp at h1
          | some l =>
            rw [hl] at h1; simp at h1; subst h1
            refine rest_step h hp ?_ ?_ hl
            · rintro rfl; cases hst.1
            · intro e
              have := (hu' e).1
              refine ⟨?_, ?_, ?_⟩ <;> (rintro rfl; cases this)
        · simp at h1
      | openBack b =>
        simp only [cstep] at h1
        obtain ⟨⟨b', hd, _⟩, _⟩ := h
        split at h1
        · simp at h1
        · split at h1
          · rename_i hxw; rw [hxw] at hd; cases hd
          · rename_i hxw; rw [hxw] at hd; cases hd
          · simp at h1
      | world w => simp [cstep] at h1; subst h1; exact h
      | wake ws =>
        simp only [cstep] at h1
        split at h1
        · rename_i sec hxw
          obtain ⟨is, g1, g2⟩ := recv_il E x.back ws hst.1
          simp only [g1, Outcome.bind_ok, step, hxw] at h1
          obtain ⟨⟨b, hd, hb⟩, hf, ho⟩ := h
          split at h1
          · rename_i hi
            simp at h1; subst h1
            rw [hxw] at hd
            generalize hl : callbacks x.life.log = l at hd
            cases hd
            refine ⟨?_, by simp, fun e => ⟨(ho e).1, (ho e).2.1, by simp⟩⟩
            rcases all_il g2 with rfl | ⟨t, rfl, g2⟩
            · exact ⟨false, by simp only [hl]; exact .none, fun _ => rfl⟩
            · refine ⟨true, by simp only [hl]; exact .some g2, ?_⟩
              intro e
              have := (ho e).1
              simp [hasIl, this] at hi
          · simp at h1
        · simp at h1

private theorem faMark_refused {σ} {S : Fa.Sys σ} (hno : NoMarks S) (d : Str) (st : Fa.St σ) :
    ((Fa.doMark S d st).1.out.map (·.1)) = st.out.map (·.1) ++ [notWatched d] := by
  unfold Fa.doMark
  split
  · simp [Fa.St.send]; rfl
  · split
    · simp [Fa.St.send]; rfl
    · rename_i real w _ _ w' _
      have := hno w' real
      split
      · rename_i hm; rw [hm] at this; cases this
      · simp [Fa.St.send]; rfl

private theorem faMarks_refused {σ} {S : Fa.Sys σ} (hno : NoMarks S) : ∀ (dirs : List Str) (st : Fa.St σ),
    ((dirs.foldl (fun st d => (Fa.doMark S d st).1) st).out.map (·.1)) = st.out.map (·.1) ++ dirs.map notWatched := by
  intro dirs
  induction dirs with
  | nil => intro st; simp
  | cons d dirs ih =>
    intro st
    simp only [List.foldl_cons]
    rw [ih, faMark_refused hno]
    simp

private theorem opened_keeps {σ} {cfg : Cfg} {E : Env σ} (hno : NoMarks E.fa) {c c1 : CS σ} {a : OpenAns} {op : Bool}
    (hw : c.life.w = .aOpen false) (ha : a.root = true ∧ 0 < a.initFd ∧ (Fds.faMake a.initFd a.ep).1.ok = .pending)
    (hop : op = true → c.life.sb.count = 0 ∧ c.life.o = .idle)
    (ho : cstep cfg E c (.openBack a) = .ok (some c1)) : Keeps cfg.path (callbacks c.life.log) (a.dirs.map notWatched) op c1.life := by
  obtain ⟨h1, h2, h3⟩ := ha
  simp only [cstep] at ho
  split at ho
  · simp at ho
  · rw [hw] at ho
    have hn : ¬ a.initFd < 1 := by omega
    simp only [openFa, h1, hn, Bool.not_true, Bool.false_eq_true, if_false, h3, step, hw] at ho
    rw [faMarks_refused hno] at ho
    split at ho
    · simp at ho; subst ho
      refine ⟨⟨false, ?_, fun _ => rfl⟩, by simp, fun e => ⟨(hop e).1, (hop e).2, by simp⟩⟩
      have := Rest.telling (path := cfg.path) (base := callbacks c.life.log) (told := []) (rest := a.dirs.map notWatched) (evs := a.dirs.map notWatched) rfl
      simpa using this
    · simp at ho

/-- C146 (partial: what happens instead). With fanotify and epoll in order and every mark refused, the callback gets one warning for each
directory found, in order, and then nothing until the die message of success; the result of the watch is true. There is no error
message and no second attempt with inotify. -/
theorem C146_silent_partial {σ} (cfg : Cfg) (E : Env σ) (hno : NoMarks E.fa) (c c1 : CS σ) (a : OpenAns)
    (hw : c.life.w = .aOpen false) (ha : a.root = true ∧ 0 < a.initFd ∧ (Fds.faMake a.initFd a.ep).1.ok = .pending)
    (ho : cstep cfg E c (.openBack a) = .ok (some c1)) (acts : List (CAct σ)) (hst : acts.all Still = true) (c2 : CS σ)
    (hrun : crun cfg E c1 acts = .ok (some c2)) :
    callbacks c2.life.log <+: callbacks c.life.log ++ a.dirs.map notWatched ++ [dieMsg cfg.path true] ∧
    c2.life.w ≠ .aOpen true ∧
    (c2.life.w = .finished → c2.life.fut = some true ∧
      callbacks c2.life.log = callbacks c.life.log ++ a.dirs.map notWatched ++ [dieMsg cfg.path true]) := by
  have h := rest_run (op := false) acts c1 c2 (opened_keeps hno hw ha (fun h => by cases h) ho) hst (fun h => by cases h) hrun
  obtain ⟨⟨b, hd, _⟩, hf, _⟩ := h
  have shape : ∀ {b w l}, Rest cfg.path (callbacks c.life.log) (a.dirs.map notWatched) b w l →
      l <+: callbacks c.life.log ++ a.dirs.map notWatched ++ [dieMsg cfg.path true] ∧ w ≠ .aOpen true ∧
      (w = .finished → l = callbacks c.life.log ++ a.dirs.map notWatched ++ [dieMsg cfg.path true]) := by
    intro b w l h
    induction h with
    | telling h => exact ⟨⟨_, by rw [← h]; simp [List.append_assoc]; rfl⟩, by simp, by simp⟩
    | wait | none | some | comp | done | die => exact ⟨⟨_, rfl⟩, by simp, by simp⟩
    | setFut => exact ⟨⟨[], by simp⟩, by simp, by simp⟩
    | fin => exact ⟨⟨[], by simp⟩, by simp, by simp⟩
    | inCb _ _ _ ih => exact ⟨ih.1, by simp, by simp⟩
    | self _ _ _ ih => exact ⟨ih.1, by simp, by simp⟩
  obtain ⟨g1, g2, g3⟩ := shape hd
  exact ⟨g1, g2, fun h => ⟨hf h, g3 h⟩⟩

/-- C146 (partial): and as long as nobody closes the watch it does not end: the warnings are all the callback ever gets. -/
theorem C146_waits_partial {σ} (cfg : Cfg) (E : Env σ) (hno : NoMarks E.fa) (c c1 : CS σ) (a : OpenAns)
    (hw : c.life.w = .aOpen false) (hc : c.life.sb.count = 0 ∧ c.life.o = .idle)
    (ha : a.root = true ∧ 0 < a.initFd ∧ (Fds.faMake a.initFd a.ep).1.ok = .pending)
    (ho : cstep cfg E c (.openBack a) = .ok (some c1)) (acts : List (CAct σ)) (hst : acts.all Still = true) (hu : acts.all Unclosed = true)
    (c2 : CS σ) (hrun : crun cfg E c1 acts = .ok (some c2)) :
    callbacks c2.life.log <+: callbacks c.life.log ++ a.dirs.map notWatched ∧ c2.life.w ≠ .finished := by
  have h := rest_run (op := true) acts c1 c2 (opened_keeps hno hw ha (fun _ => hc) ho) hst (fun _ => hu) hrun
  obtain ⟨⟨b, hd, hb⟩, hf, _⟩ := h
  rw [hb rfl] at hd
  have shape : ∀ {b w l}, Rest cfg.path (callbacks c.life.log) (a.dirs.map notWatched) b w l → b = false →
      l <+: callbacks c.life.log ++ a.dirs.map notWatched ∧ w ≠ .finished := by
    intro b w l h
    induction h with
    | telling h => intro _; exact ⟨⟨_, by rw [← h]; simp [List.append_assoc]; rfl⟩, by simp⟩
    | wait | none => intro _; exact ⟨List.prefix_rfl, by simp⟩
    | some | comp | done | die | setFut | fin => intro h; cases h
    | inCb _ _ _ ih => intro h; exact ⟨(ih h).1, by simp⟩
    | self _ _ _ ih => intro h; exact ⟨(ih h).1, by simp⟩
  exact shape hd rfl

private def cfgN1 : Cfg := { path := b!"/r", dirOk := true, fdOk := true }
/-- A file system fanotify cannot mark, with inotify in order. -/
private def envN1 : Env Unit where
  fa := { realpath := fun w p => (some p, w), isDir := fun w _ => (true, w), mark := fun w _ => (false, w),
          openByHandle := fun w _ => ((-1, 116), w), readlink := fun w _ => (none, w), rightFirst := false }
  inn := { realpath := fun w p => (some p, w), isDir := fun w _ => (true, w), addWatch := fun w _ => (1, w) }

private theorem ran1 {o : Outcome (Option (CS Unit))} {p : CS Unit → Prop} [DecidablePred p]
    (h : (match o with | .ok (some a) => decide (p a) | _ => false) = true) : ∃ a, o = .ok (some a) ∧ p a := by
  cases o with
  | ok a =>
    cases a with
    | none => cases h
    | some a => exact ⟨a, rfl, by simpa using h⟩
  | ub => cases h

/-- The opening of a watch by root, up to the answer of `make_sysres`. -/
private def upto : List (CAct Unit) := [.life .w, .life .w, .life .w, .life .cbReturn]
private def ansN1 : OpenAns := ⟨true, 5, [b!"/r", b!"/r/d"], ⟨6, true, true⟩⟩
private def toWait : List (CAct Unit) := [.life .w, .life .cbReturn, .life .w, .life .cbReturn, .life .w, .life .w]

/-- C146 is false of the code: root watches a directory that fanotify cannot mark, and the watcher waits, although inotify works there. -/
theorem C146_refuted : ¬ C146_full := by
  intro h
  obtain ⟨c, h1, h2⟩ : ∃ c, crun cfgN1 envN1 (cinit cfgN1 ()) (upto ++ [.openBack ansN1] ++ toWait) = .ok (some c) ∧ c.life.w = .aWait false :=
    ran1 (by decide +kernel)
  exact h Unit cfgN1 envN1 (fun _ _ => rfl) c ⟨(), _, h1⟩ h2

/-- Met: a watch on two directories, waiting and then closed. -/
example : NoMarks envN1.fa ∧ ∃ c c1, CReach cfgN1 envN1 c ∧ c.life.w = .aOpen false ∧ (c.life.sb.count = 0 ∧ c.life.o = .idle) ∧
    (ansN1.root = true ∧ 0 < ansN1.initFd ∧ (Fds.faMake ansN1.initFd ansN1.ep).1.ok = .pending) ∧
    cstep cfgN1 envN1 c (.openBack ansN1) = .ok (some c1) ∧ toWait.all Still = true ∧ toWait.all Unclosed = true ∧
    ∃ c2, crun cfgN1 envN1 c1 (toWait ++ [.wake [], .life .w, .life .oClose, .life .o, .life .o, .life .o, .life .o, .wake [.il], .life .w, .life .w,
      .life .w, .life .w, .life .cbReturn, .life .w]) = .ok (some c2) ∧ c2.life.w = .finished ∧
      callbacks c2.life.log = [liveMsg b!"/r" true, notWatched b!"/r", notWatched b!"/r/d", dieMsg b!"/r" true] := by
  refine ⟨fun _ _ => rfl, ?_⟩
  obtain ⟨c, h1, h2, h3⟩ : ∃ c, crun cfgN1 envN1 (cinit cfgN1 ()) upto = .ok (some c) ∧
      (c.life.w = .aOpen false ∧ c.life.sb.count = 0 ∧ c.life.o = .idle) ∧
      (match cstep cfgN1 envN1 c (.openBack ansN1) with
        | .ok (some c1) => (match crun cfgN1 envN1 c1 (toWait ++ [.wake [], .life .w, .life .oClose, .life .o, .life .o, .life .o, .life .o, .wake [.il],
            .life .w, .life .w, .life .w, .life .w, .life .cbReturn, .life .w]) with
          | .ok (some c2) => decide (c2.life.w = .finished ∧ callbacks c2.life.log =
              [liveMsg b!"/r" true, notWatched b!"/r", notWatched b!"/r/d", dieMsg b!"/r" true])
          | _ => false)
        | _ => false) = true := ran1 (by decide +kernel)
  split at h3
  · rename_i c1 hc1
    split at h3
    · rename_i c2 hc2
      simp only [decide_eq_true_eq] at h3
      exact ⟨c, c1, ⟨(), _, h1⟩, h2.1, h2.2, ⟨rfl, by decide, by decide⟩, hc1, by decide, by decide, c2, hc2, h3⟩
    · cases h3
  · cases h3

end Verif.Props
