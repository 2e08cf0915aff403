import Verif.Props.Starve
import Verif.Props.Adapter
import Verif.Lemmas.Adapter4
/-!
# No change waits for ever, end to end: C165

Owner, worker, stop signal, callback, inotify back end and the kernel of `Model/Kernel.lean` together.
-/

namespace Verif.Props
open Verif Verif.Model Verif.Model.Ad Verif.Model.Ker Verif.Spec Verif.Spec.Starve Verif.Lemmas.Ker Verif.Lemmas.Ad

/-- As many reads return as there are wake-ups that read something. -/
private theorem wakes_reads {cfg : Life.Cfg} {E : Env World} (hE : E.inn = Ker.sys) : ∀ (hs : List Whole.HStep) {c c' : CS World} {st : In.St World},
    Acc cfg c.life.w (callbacks c.life.log) c.back → HSt false c → c.back = .inn st → Whole.hrun cfg E c hs = .ok (some c') →
    wakes hs ≤ reads st (hs.flatMap backSteps) := by
  intro hs
  induction hs with
  | nil => intro c c' st _ _ _ _; exact Nat.le_refl _
  | cons a as ih =>
    intro c c' st hA hH hb h
    rw [Whole.hrun] at h
    obtain ⟨o, h1, h2⟩ := bind_ok_inv h
    cases o with
    | none => cases h2
    | some c1 =>
      obtain ⟨st1, g1, g2⟩ := hstep_back hE hH hb h1
      obtain ⟨o, k1, k2⟩ := hstep_ok (g := false) hE a hA hH (fun h => by cases h)
      rw [h1] at k1
      injection k1 with k1
      obtain ⟨k3, k4⟩ := k2 c1 k1.symm
      have hi := ih k4 k3 g1 h2
      have hread : ∀ n sched, backSteps a = [.read n sched] → (Whole.bytesOf st.sys n).length ≤ 4096 →
          (if decide (0 < n) then 1 else 0) + wakes as ≤ reads st (.read n sched :: as.flatMap backSteps) := by
        intro n sched ha hf
        rw [ha] at g2
        rw [execs] at g2
        obtain ⟨st2, e1, e2⟩ := bind_ok_inv g2
        cases e2
        have hr : returns st (.read n sched) = decide (0 < n) := by
          have : decide ((batch (st.sys.k.queue.take n)).length ≤ 4096) = true := decide_eq_true hf
          simp only [returns, this, Bool.and_true]
        rw [reads, hr, e1]
        simp only
        omega
      rw [List.flatMap_cons]
      cases a with
      | wakeRead n sched => exact hread n sched rfl (wakeWith_back hE hH hb h1).1
      | wakeBoth f n sched => exact hread n sched rfl (wakeWith_back hE hH hb h1).1
      | op o =>
        cases g2
        rw [wakes]
        show _ ≤ reads st (.op o :: as.flatMap backSteps)
        rw [reads]
        have : wakes as ≤ reads { st with sys := { st.sys with k := apply st.sys.k o } } (as.flatMap backSteps) := hi
        simpa [exec, returns, wakesUp] using this
      | thread a => cases g2; rw [wakes]; simpa [wakesUp, backSteps] using hi
      | noFanotify r => cases g2; rw [wakes]; simpa [wakesUp, backSteps] using hi
      | openInotify x y => cases g2; rw [wakes]; simpa [wakesUp, backSteps] using hi
      | wakeStop => cases g2; rw [wakes]; simpa [wakesUp, backSteps] using hi

private theorem startAcc (limit : Option Nat) (cfg : Life.Cfg) (dirs : List Str) :
    Acc cfg (Whole.startLim limit cfg dirs).life.w (callbacks (Whole.startLim limit cfg dirs).life.log) (Whole.startLim limit cfg dirs).back ∧
    HSt false (Whole.startLim limit cfg dirs) ∧ Came (Whole.startLim limit cfg dirs) :=
  ⟨⟨rfl, rfl⟩, ⟨⟨dirs, limit, rfl⟩, trivial⟩, fun st h => by cases h⟩

private theorem hrun_append {cfg : Life.Cfg} {E : Env World} : ∀ (hs more : List Whole.HStep) {c c1 c2 : CS World},
    Whole.hrun cfg E c hs = .ok (some c1) → Whole.hrun cfg E c1 more = .ok (some c2) → Whole.hrun cfg E c (hs ++ more) = .ok (some c2) := by
  intro hs
  induction hs with
  | nil => intro more c c1 c2 h1 h2; cases h1; exact h2
  | cons a as ih =>
    intro more c c1 c2 h1 h2
    rw [Whole.hrun] at h1
    obtain ⟨o, h3, h4⟩ := bind_ok_inv h1
    cases o with
    | none => cases h4
    | some c3 =>
      rw [List.cons_append, Whole.hrun, h3]
      exact ih more h4 h2

/-- C165. At any moment of any history (`hs`) some records are pending and some changes have been made. Whatever happens
afterwards (`more`): once the watch has been woken up to read as often as there were records pending, then, when it waits again
or has finished, the callback has been told all those changes, each exactly once and in order. -/
theorem C165_no_starving_end_to_end (limit : Option Nat) (cfg : Life.Cfg) (E : Env World) (hE : E.inn = Ker.sys) (dirs : List Str)
    (hs more : List Whole.HStep) (c c1 : CS World) (h : Whole.hrun cfg E (Whole.startLim limit cfg dirs) hs = .ok (some c))
    (h1 : Whole.hrun cfg E c more = .ok (some c1)) (hr : c.back.world.k.queue.length ≤ wakes more)
    (hw : (∃ second, c1.life.w = .aWait second) ∨ c1.life.w = .finished) :
    ∃ told pending, c1.back.world.k.log = told ++ pending ∧ TellsOld (·.known) told (fileEvents (callbacks c1.life.log)) ∧
      c.back.world.k.log <+: told := by
  obtain ⟨a1, a2, a3⟩ := startAcc limit cfg dirs
  obtain ⟨b1, b2, b3⟩ := hrun_came hE hs a1 a2 a3 h
  obtain ⟨o, w1, w2⟩ := whole_hands false limit cfg E hE dirs (hs ++ more) (fun h => by cases h)
  rw [hrun_append hs more h h1] at w1
  injection w1 with w1
  have w3 := w2 c1 w1.symm hw
  cases hb : c.back with
  | inn st =>
    obtain ⟨st1, e1, e2⟩ := hrun_back hE more b1 b2 hb h1
    have e3 := wakes_reads hE more b1 b2 hb h1
    obtain ⟨lim, ds, ms, sc, ss, e4⟩ := b3 st hb
    rw [hb] at hr
    obtain ⟨told, pending, f1, f2, f3⟩ := C162_no_starving lim ds ms sc ss (more.flatMap backSteps) st st1 e4 e2
      (by simp only [Back.world] at hr; omega)
    rcases w3 with ⟨g1, _, g2⟩ | ⟨st2, L, g1, _, g2, _⟩
    · rw [e1] at g1
      simp only [Back.world] at g1
      rw [f1, List.append_eq_nil_iff] at g1
      refine ⟨[], [], ?_, by rw [g2]; exact .nil, ?_⟩
      · rw [e1]; simp only [Back.world]; rw [f1, g1.1, g1.2]
      · simp only [Back.world]; rw [g1.1] at f3; exact f3
    · rw [e1] at g1; injection g1 with g1; subst g1
      exact ⟨told, pending, by rw [e1]; exact f1, by rw [g2]; exact f2, by simpa only [Back.world] using f3⟩
  | none w =>
    have hl : c.back.world.k.log = [] := by
      simp only [HSt, hb] at b2
      obtain ⟨⟨ds, lim, e⟩, _⟩ := b2
      simp only [hb, Back.world, e]
    rw [hb] at hl
    rw [hl]
    rcases w3 with ⟨g1, _, g2⟩ | ⟨st2, L, g1, g3, g2, _⟩
    · exact ⟨[], [], by rw [g1]; rfl, by rw [g2]; exact .nil, List.nil_prefix⟩
    · obtain ⟨P, h5, _⟩ := g3.inv.pend
      exact ⟨L, P, by rw [g1]; exact h5, by rw [g2]; exact g3.told.old, List.nil_prefix⟩
  | fa st =>
    have hl : c.back.world.k.log = [] := by
      simp only [HSt, hb] at b2
      obtain ⟨⟨ds, lim, e⟩, _⟩ := b2
      simp only [hb, Back.world, e]
    rw [hb] at hl
    rw [hl]
    rcases w3 with ⟨g1, _, g2⟩ | ⟨st2, L, g1, g3, g2, _⟩
    · exact ⟨[], [], by rw [g1]; rfl, by rw [g2]; exact .nil, List.nil_prefix⟩
    · obtain ⟨P, h5, _⟩ := g3.inv.pend
      exact ⟨L, P, by rw [g1]; exact h5, by rw [g2]; exact g3.told.old, List.nil_prefix⟩

/-- C165: such a wake-up is always possible: whenever the watch waits, up to 14 records can be read, whatever other processes do
during the read. (With the stop signal in it, exactly if that is readable.) -/
theorem C165_wakes_up (limit : Option Nat) (cfg : Life.Cfg) (E : Env World) (hE : E.inn = Ker.sys) (dirs : List Str)
    (hs : List Whole.HStep) (c : CS World) (h : Whole.hrun cfg E (Whole.startLim limit cfg dirs) hs = .ok (some c))
    (hw : ∃ second, c.life.w = .aWait second) (n : Nat) (h0 : 0 < n) (hn : n ≤ 14) (during : List (List Op × Bool)) :
    ∃ a c1, (a = .wakeRead n during ∨ a = .wakeBoth true n during) ∧ Whole.hstep cfg E c a = .ok (some c1) := by
  obtain ⟨a1, a2, a3⟩ := startAcc limit cfg dirs
  obtain ⟨b1, b2, b3⟩ := hrun_came hE hs a1 a2 a3 h
  obtain ⟨sec, hw⟩ := hw
  cases hb : c.back with
  | none w => simp only [HSt, hb, hw] at b2; cases b2.2
  | fa st => simp only [HSt, hb, hw] at b2; cases b2.2
  | inn st =>
    obtain ⟨lim, ds, ms, sc, ss, e4⟩ := b3 st hb
    have hf := C162_read_returns lim ds ms sc ss st e4 n h0 hn during
    simp only [returns, Bool.and_eq_true, decide_eq_true_eq] at hf
    have hf : (Whole.bytesOf st.sys n).length ≤ 4096 := hf.2
    simp only [HSt, hb] at b2
    obtain ⟨⟨L0, hL⟩, _⟩ := b2
    obtain ⟨st1, L1, h3, _⟩ := recv_read hL n during hf (fun h => by cases h) (fun h => by cases h)
    have hr : recv E (.inn { st with sys := Whole.taken st.sys n during }) (.data (Whole.bytesOf st.sys n)) =
        .ok (.inn st1, st1.out.drop st.out.length, .pending) := by
      simp only [recv, hE, h3]; rfl
    have hm : (st1.out.drop st.out.length).all Life.isMid = true :=
      (recv_ok E _ _ _ _ _ (fun w h => by cases h) hr).2.1
    by_cases hc : c.life.sb.count > 0
    · refine ⟨.wakeBoth true n during, ⟨{ c.life with w := .aItems sec .pending [.il, .ke (st1.out.drop st.out.length) .pending] }, .inn st1⟩,
        .inr rfl, ?_⟩
      simp only [Whole.hstep, Whole.wakeWith, hb, Back.world]
      rw [if_pos hf]
      simp only [cstep, hw, Back.setWorld, Whole.entries, recvAll, hr, Outcome.bind_ok, Outcome.pure_eq, Life.step]
      rw [if_pos (by simp [Life.itemsOk, Life.hasIl, hm, Life.isRecvResult, hc])]
      rfl
    · refine ⟨.wakeRead n during, ⟨{ c.life with w := .aItems sec .pending [.ke (st1.out.drop st.out.length) .pending] }, .inn st1⟩,
        .inl rfl, ?_⟩
      simp only [Whole.hstep, Whole.wakeWith, hb, Back.world]
      rw [if_pos hf]
      simp only [cstep, hw, Back.setWorld, Whole.entries, recvAll, hr, Outcome.bind_ok, Outcome.pure_eq, Life.step]
      rw [if_pos (by simp [Life.itemsOk, Life.hasIl, hm, Life.isRecvResult, hc])]
      rfl

/-! ## A watch to which this happens -/

private def cfgW : Life.Cfg := { path := b!"/r", dirOk := true, fdOk := true }
private def envW : Env World where
  fa := { realpath := fun w _ => (none, w), isDir := fun w _ => (false, w), mark := fun w _ => (false, w),
          openByHandle := fun w _ => ((-1, 116), w), readlink := fun w _ => (none, w), rightFirst := false }
  inn := Ker.sys

private theorem ranW {o : Outcome (Option (CS World))} {p : CS World → Prop} [DecidablePred p]
    (h : (match o with | .ok (some a) => decide (p a) | _ => false) = true) : ∃ a, o = .ok (some a) ∧ p a := by
  cases o with
  | ok a =>
    cases a with
    | none => cases h
    | some a => exact ⟨a, rfl, by simpa using h⟩
  | ub => cases h

/-- The watch begins, and a file is made and written. -/
private def made : List Whole.HStep :=
  [.thread .w, .thread .w, .thread .w, .thread .cbReturn, .noFanotify false, .thread .w, .thread .w, .thread .w,
   .openInotify ⟨false, 5, [b!"/r"], ⟨6, true, true⟩⟩ [], .thread .w, .thread .w, .op (.create b!"/r" b!"a"), .op (.modify b!"/r" b!"a")]

/-- Two wake-ups that read one record each; meanwhile others go on making files. -/
private def later : List Whole.HStep :=
  [.op (.create b!"/r" b!"b"), .wakeRead 1 [], .thread .w, .thread .w, .thread .cbReturn, .thread .w, .thread .w, .op (.create b!"/r" b!"c"),
   .wakeRead 1 [], .thread .w, .thread .w, .thread .cbReturn, .thread .w, .thread .w]

/-- The file and what was written to it have been told; the later files wait. -/
example : ∃ c, Whole.hrun cfgW envW (Whole.startLim none cfgW [b!"/r"]) made = .ok (some c) ∧
    c.life.w = .aWait true ∧ c.back.world.k.queue.length = 2 ∧ c.back.world.k.log.length = 2 := ranW (by decide +kernel)

example : wakes later = 2 ∧ ∃ c, Whole.hrun cfgW envW (Whole.startLim none cfgW [b!"/r"]) (made ++ later) = .ok (some c) ∧
    c.life.w = .aWait true ∧ fileEvents (callbacks c.life.log) = [⟨b!"/r/a", .create, .file, none⟩, ⟨b!"/r/a", .modify, .file, none⟩] ∧
    c.back.world.k.log.length = 4 := ⟨rfl, ranW (by decide +kernel)⟩

end Verif.Props
