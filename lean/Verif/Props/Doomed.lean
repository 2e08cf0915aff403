import Verif.Spec.Doomed
import Verif.Lemmas.Adapter2
import Verif.Lemmas.Doom
import Verif.Props.Adapter
/-!
# A Linux watch for which the kernel gives no watch: C132
-/

namespace Verif.Props
open Verif Verif.Model Verif.Model.Life Verif.Model.Ad Verif.Spec Verif.Spec.Ad Verif.Lemmas.Life Verif.Lemmas.Ad

private theorem doMark_refused {σ} {S : In.Sys σ} (hno : NoWatches S) (d : Str) (st : In.St σ) :
    (In.doMark S d st).1.dm = st.dm ∧ (In.doMark S d st).1.out = st.out ++ [notWatched d] := by
  unfold In.doMark
  split
  · exact ⟨rfl, rfl⟩
  · split
    · exact ⟨rfl, rfl⟩
    · rename_i real w _ _ w' _
      have := hno w' real
      split
      rename_i wd w'' hw
      rw [hw] at this
      rw [if_neg (by simp only at this; omega)]
      exact ⟨rfl, rfl⟩

private theorem marks_refused {σ} {S : In.Sys σ} (hno : NoWatches S) : ∀ (dirs : List Str) (st : In.St σ),
    (dirs.foldl (fun st d => (In.doMark S d st).1) st).dm = st.dm ∧
    (dirs.foldl (fun st d => (In.doMark S d st).1) st).out = st.out ++ dirs.map notWatched := by
  intro dirs
  induction dirs with
  | nil => intro st; simp
  | cons d dirs ih =>
    intro st
    obtain ⟨h1, h2⟩ := doMark_refused hno d st
    obtain ⟨h3, h4⟩ := ih (In.doMark S d st).1
    simp only [List.foldl_cons]
    rw [h3, h4, h1, h2]
    simp

/-- C132: if the kernel refuses every watch when a watch is opened (inotify), the watch never waits for events, whatever the
threads and other processes do: the callback gets one warning for each directory found, in order, then one error message, then the die message of
failure, and the result is false. -/
theorem C132_no_watches {σ} (cfg : Cfg) (E : Env σ) (hno : NoWatches E.inn) (c c1 : CS σ) (a : OpenAns)
    (hw : c.life.w = .aOpen true) (ho : cstep cfg E c (.openBack a) = .ok (some c1)) (acts : List (CAct σ)) (c2 : CS σ)
    (hrun : crun cfg E c1 acts = .ok (some c2)) :
    (∀ second, c2.life.w ≠ .aWait second) ∧
    callbacks c2.life.log <+: callbacks c.life.log ++ openWarnings a.initFd a.dirs ++ [openError a.initFd cfg.path, dieMsg cfg.path false] ∧
    (c2.life.w = .finished → c2.life.fut = some false ∧
      callbacks c2.life.log = callbacks c.life.log ++ openWarnings a.initFd a.dirs ++ [openError a.initFd cfg.path, dieMsg cfg.path false]) := by
  have hopen : ∃ r st, r.isError = true ∧ sendMsg r cfg.path = openError a.initFd cfg.path ∧ st.out = openWarnings a.initFd a.dirs ∧
      openIn E.inn a c.back.world = (st, r) := by
    unfold openIn
    by_cases hfd : a.initFd < 0
    · refine ⟨.eInotify, { dm := [], sys := c.back.world }, by decide, by simp [sendMsg, openError, hfd]; rfl, by simp [openWarnings, hfd], ?_⟩
      simp [hfd, Fds.inMake]
    · obtain ⟨h1, h2⟩ := marks_refused hno a.dirs { dm := [], sys := c.back.world }
      refine ⟨.eNoent, (In.makeDm E.inn a.dirs { dm := [], sys := c.back.world }).1, by decide, by simp [sendMsg, openError, hfd]; rfl, ?_, ?_⟩
      · simp only [In.makeDm, openWarnings, hfd, if_false]; simpa using h2
      · have : (In.makeDm E.inn a.dirs { dm := [], sys := c.back.world }).2 = .eNoent := by
          simp only [In.makeDm]; rw [h1]; rfl
        simp [hfd, this, Fds.inMake]
  obtain ⟨r, st, hr, hmsg, hout, hop⟩ := hopen
  have h1 : Doom cfg.path true r (callbacks c.life.log) (openWarnings a.initFd a.dirs) c1.life.w (callbacks c1.life.log) ∧
      (c1.life.w = .finished → c1.life.fut = some false) := by
    simp only [cstep] at ho
    split at ho
    · cases ho
    · rw [hw] at ho
      simp only [hop, step, hw] at ho
      split at ho
      · simp at ho; subst ho
        refine ⟨?_, by simp⟩
        simp only [hout]
        have := Doom.telling (path := cfg.path) (sec := true) (r := r) (base := callbacks c.life.log) (told := []) (rest := openWarnings a.initFd a.dirs) rfl
        simpa using this
      · simp at ho
  have h2 : Doom cfg.path true r (callbacks c.life.log) (openWarnings a.initFd a.dirs) c2.life.w (callbacks c2.life.log) ∧
      (c2.life.w = .finished → c2.life.fut = some false) := by
    refine crun_induct (P := fun x => Doom cfg.path true r (callbacks c.life.log) (openWarnings a.initFd a.dirs) x.life.w (callbacks x.life.log) ∧
      (x.life.w = .finished → x.life.fut = some false)) ?_ acts c1 c2 h1 hrun
    intro x b y hx hs
    cases b with
    | life la =>
      simp only [cstep] at hs
      split at hs
      · cases hl : step cfg x.life la with
        | none => rw [hl] at hs; simp at hs
        | some l => rw [hl] at hs; simp at hs; subst hs; exact doomed_step hr (.inl rfl) hx hl
      · simp at hs
    | openBack b =>
      simp only [cstep] at hs
      split at hs
      · simp at hs
      · split at hs
        · rename_i hxw; rw [hxw] at hx; cases hx.1
        · rename_i hxw; rw [hxw] at hx; cases hx.1
        · simp at hs
    | wake ws =>
      simp only [cstep] at hs
      split at hs
      · rename_i hxw; rw [hxw] at hx; cases hx.1
      · simp at hs
    | world w => simp [cstep] at hs; subst hs; exact hx
  obtain ⟨hd, hf⟩ := h2
  rw [← hmsg]
  obtain ⟨g1, g2, g3⟩ := doomed_shape hd
  exact ⟨g1, g2, fun h => ⟨hf h, g3 h⟩⟩

private def cfgN0 : Cfg := { path := b!"/r", dirOk := true, fdOk := true }
/-- A kernel that has no watches left. -/
private def envN0 : Env Unit where
  fa := { realpath := fun w _ => (none, w), isDir := fun w _ => (false, w), mark := fun w _ => (false, w),
          openByHandle := fun w _ => ((-1, 116), w), readlink := fun w _ => (none, w), rightFirst := false }
  inn := { realpath := fun w p => (some p, w), isDir := fun w _ => (true, w), addWatch := fun w _ => (-1, w) }

private theorem ran0 {o : Outcome (Option (CS Unit))} {p : CS Unit → Prop} [DecidablePred p]
    (h : (match o with | .ok (some a) => decide (p a) | _ => false) = true) : ∃ a, o = .ok (some a) ∧ p a := by
  cases o with
  | ok a =>
    cases a with
    | none => cases h
    | some a => exact ⟨a, rfl, by simpa using h⟩
  | ub => cases h

/-- Met: a watch on two directories. -/
example : NoWatches envN0.inn ∧ ∃ c c1 a acts c2, CReach cfgN0 envN0 c ∧ c.life.w = .aOpen true ∧ cstep cfgN0 envN0 c (.openBack a) = .ok (some c1) ∧
    crun cfgN0 envN0 c1 acts = .ok (some c2) ∧ c2.life.w = .finished ∧ callbacks c2.life.log =
      [liveMsg b!"/r" true, notWatched b!"/r", notWatched b!"/r/d", ⟨b!"e/self/noent@/r", .other, .watcher, none⟩, dieMsg b!"/r" false] := by
  refine ⟨fun w p => by simp [envN0], ?_⟩
  obtain ⟨c, h1, h2⟩ : ∃ c, crun cfgN0 envN0 (cinit cfgN0 ()) ([.life .w, .life .w, .life .w, .life .cbReturn,
      .openBack ⟨false, 5, [], ⟨6, true, true⟩⟩, .life .w, .life .w, .life .w]) = .ok (some c) ∧
      (c.life.w = .aOpen true ∧ (match cstep cfgN0 envN0 c (.openBack ⟨false, 5, [b!"/r", b!"/r/d"], ⟨6, true, true⟩⟩) with
        | .ok (some c1) => (match crun cfgN0 envN0 c1 [.life .w, .life .cbReturn, .life .w, .life .cbReturn, .life .w, .life .w, .life .w, .life .cbReturn,
            .life .w, .life .cbReturn, .life .w] with
          | .ok (some c2) => decide (c2.life.w = .finished ∧ callbacks c2.life.log =
              [liveMsg b!"/r" true, notWatched b!"/r", notWatched b!"/r/d", ⟨b!"e/self/noent@/r", .other, .watcher, none⟩, dieMsg b!"/r" false])
          | _ => false)
        | _ => false) = true) := ran0 (by decide +kernel)
  obtain ⟨h2, h3⟩ := h2
  split at h3
  · rename_i c1 hc1
    split at h3
    · rename_i c2 hc2
      simp only [decide_eq_true_eq] at h3
      exact ⟨c, c1, _, _, c2, ⟨(), _, h1⟩, h2, hc1, hc2, h3⟩
    · cases h3
  · cases h3

end Verif.Props
