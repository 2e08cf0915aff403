import Verif.Lemmas.Adapter3
/-! A history of a whole watch with inotify contains a history of the back end. -/
namespace Verif.Lemmas.Ad
open Verif Verif.Model Verif.Model.Ad Verif.Model.Life Verif.Model.Ker Verif.Spec Verif.Spec.Whole Verif.Lemmas.Life

/-- What a step is for the back end. -/
def backSteps : HStep → List Ker.Step
  | .op o => [.op o]
  | .wakeRead n sched => [.read n sched]
  | .wakeBoth _ n sched => [.read n sched]
  | _ => []

theorem wakeWith_back {cfg : Cfg} {E : Env World} (hE : E.inn = Model.Ker.sys) {c c' : CS World} (hH : HSt false c) {st : In.St World}
    (hb : c.back = .inn st) {stop : Option Bool} {n : Nat} {sched : List (List Op × Bool)}
    (h : wakeWith cfg E c stop n sched = .ok (some c')) :
    (bytesOf st.sys n).length ≤ 4096 ∧ ∃ st', c'.back = .inn st' ∧ execs st [.read n sched] = .ok st' := by
  unfold wakeWith at h
  split at h
  · rename_i hf
    simp only [hb, Back.world] at hf
    refine ⟨hf, ?_⟩
    simp only [HSt, hb] at hH
    obtain ⟨⟨L0, hL⟩, _⟩ := hH
    obtain ⟨st1, L1, h3, h4⟩ := recv_read hL n sched hf (fun h => by cases h) (fun h => by cases h)
    have hr : recv E (.inn { st with sys := taken st.sys n sched }) (.data (bytesOf st.sys n)) =
        .ok (.inn st1, st1.out.drop st.out.length, .pending) := by
      simp only [recv, hE, h3]; rfl
    have hall : ∃ items, recvAll E (.inn { st with sys := taken st.sys n sched }) (entries stop (bytesOf st.sys n)) = .ok (.inn st1, items) := by
      cases stop with
      | none => exact ⟨_, by simp only [entries, recvAll, hr]; rfl⟩
      | some b => cases b <;> exact ⟨_, by simp only [entries, recvAll, hr]; rfl⟩
    obtain ⟨items, hall⟩ := hall
    refine ⟨st1, ?_, ?_⟩
    · simp only [cstep, hb, Back.setWorld, Back.world, hall] at h
      split at h
      · simp only [Outcome.bind_ok, Outcome.pure_eq, Outcome.ok.injEq, Option.map_eq_some_iff] at h
        obtain ⟨l, _, rfl⟩ := h
        rfl
      · cases h
    · simp only [execs, exec]
      rw [if_pos (show (batch (st.sys.k.queue.take n)).length ≤ In.bufLen from hf)]
      have : In.doEvRecv Model.Ker.sys (.data (batch (st.sys.k.queue.take n)))
          { st with sys := { k := { st.sys.k with queue := st.sys.k.queue.drop n }, sched := sched } } = .ok (st1, .pending) := h3
      rw [this]
      simp only [Outcome.bind_ok]
      rw [if_pos (by decide)]
      rfl
  · cases h

/-- A step of the whole is one of the back end, or none. -/
theorem hstep_back {cfg : Cfg} {E : Env World} (hE : E.inn = Model.Ker.sys) {c c' : CS World} (hH : HSt false c) {st : In.St World}
    (hb : c.back = .inn st) {a : HStep} (h : hstep cfg E c a = .ok (some c')) :
    ∃ st', c'.back = .inn st' ∧ execs st (backSteps a) = .ok st' := by
  have hlate : Late c.life.w := by simp only [HSt, hb] at hH; exact hH.2
  cases a with
  | thread a =>
    simp only [hstep, cstep] at h
    split at h
    · injection h with h
      rw [Option.map_eq_some_iff] at h
      obtain ⟨l, _, rfl⟩ := h
      exact ⟨st, hb, rfl⟩
    · cases h
  | noFanotify root =>
    simp only [hstep] at h
    split at h
    · rename_i hw; rw [hw] at hlate; cases hlate
    · cases h
  | openInotify a sched =>
    simp only [hstep] at h
    split at h
    · rename_i hw; rw [hw] at hlate; cases hlate
    · cases h
  | op o =>
    simp only [hstep, cstep, Outcome.ok.injEq, Option.some.injEq] at h
    subst h
    exact ⟨{ st with sys := { st.sys with k := apply st.sys.k o } }, by simp only [hb, Back.setWorld, Back.world], rfl⟩
  | wakeStop =>
    simp only [hstep, cstep] at h
    split at h
    · simp only [recvAll, Outcome.bind_ok, Outcome.pure_eq, Outcome.ok.injEq, Option.map_eq_some_iff] at h
      obtain ⟨l, _, rfl⟩ := h
      exact ⟨st, hb, rfl⟩
    · cases h
  | wakeRead n sched => exact (wakeWith_back hE hH hb h).2
  | wakeBoth f n sched => exact (wakeWith_back hE hH hb h).2

theorem execs_append (ss ts : List Ker.Step) : ∀ {st st1 st2 : In.St World}, execs st ss = .ok st1 → execs st1 ts = .ok st2 → execs st (ss ++ ts) = .ok st2 := by
  induction ss with
  | nil => intro st st1 st2 h1 h2; cases h1; exact h2
  | cons s ss ih =>
    intro st st1 st2 h1 h2
    rw [execs] at h1
    obtain ⟨st3, h3, h4⟩ := bind_ok_inv h1
    rw [List.cons_append, execs, h3]
    exact ih h4 h2

/-- The same for histories. -/
theorem hrun_back {cfg : Cfg} {E : Env World} (hE : E.inn = Model.Ker.sys) : ∀ (hs : List HStep) {c c' : CS World} {st : In.St World},
    Acc cfg c.life.w (callbacks c.life.log) c.back → HSt false c → c.back = .inn st → hrun cfg E c hs = .ok (some c') →
    ∃ st', c'.back = .inn st' ∧ execs st (hs.flatMap backSteps) = .ok st' := by
  intro hs
  induction hs with
  | nil => intro c c' st _ _ hb h; cases h; exact ⟨st, hb, rfl⟩
  | cons a as ih =>
    intro c c' st hA hH hb h
    rw [hrun] at h
    obtain ⟨o, h1, h2⟩ := bind_ok_inv h
    cases o with
    | none => cases h2
    | some c1 =>
      obtain ⟨st1, g1, g2⟩ := hstep_back hE hH hb h1
      obtain ⟨o, k1, k2⟩ := hstep_ok (g := false) hE a hA hH (fun h => by cases h)
      rw [h1] at k1
      injection k1 with k1
      obtain ⟨k3, k4⟩ := k2 c1 k1.symm
      obtain ⟨st2, g3, g4⟩ := ih k4 k3 g1 h2
      exact ⟨st2, g3, by rw [List.flatMap_cons]; exact execs_append _ _ g2 g4⟩

/-- The back end has come from opening a watch on some tree. -/
def Came (c : CS World) : Prop :=
  ∀ st, c.back = .inn st → ∃ lim ds ms sc ss, execs (openedLim lim ds ms sc) ss = .ok st

theorem hstep_came {cfg : Cfg} {E : Env World} (hE : E.inn = Model.Ker.sys) {c c' : CS World} (hH : HSt false c) (hc : Came c)
    {a : HStep} (h : hstep cfg E c a = .ok (some c')) : Came c' := by
  by_cases hb : ∃ st, c.back = .inn st
  · obtain ⟨st, hb⟩ := hb
    obtain ⟨st', h1, h2⟩ := hstep_back hE hH hb h
    obtain ⟨lim, ds, ms, sc, ss, h3⟩ := hc st hb
    intro st2 h4
    rw [h1] at h4; injection h4 with h4; subst h4
    exact ⟨lim, ds, ms, sc, ss ++ backSteps a, execs_append _ _ h3 h2⟩
  · have hno : ∀ st, c.back ≠ .inn st := fun st h => hb ⟨st, h⟩
    have hset : ∀ w st, c.back.setWorld w ≠ .inn st := by
      intro w st h
      cases hx : c.back with
      | none w => rw [hx] at h; cases h
      | fa st => rw [hx] at h; cases h
      | inn st => exact hno st hx
    have hnowake : ∀ sec, c.life.w ≠ .aWait sec := by
      intro sec hw
      cases hx : c.back with
      | none w => simp only [HSt, hx, hw] at hH; cases hH.2
      | fa st => simp only [HSt, hx, hw] at hH; cases hH.2
      | inn st => exact hno st hx
    cases a with
    | thread a =>
      simp only [hstep, cstep] at h
      split at h
      · injection h with h
        rw [Option.map_eq_some_iff] at h
        obtain ⟨l, _, rfl⟩ := h
        intro st h; exact absurd h (hno st)
      · cases h
    | noFanotify root =>
      simp only [hstep] at h
      split at h
      · rename_i hw
        simp only [cstep, Bool.false_and, Bool.false_eq_true, if_false, hw, Outcome.ok.injEq, Option.map_eq_some_iff] at h
        obtain ⟨l, _, rfl⟩ := h
        intro st h; cases h
      · cases h
    | openInotify a sched =>
      simp only [hstep] at h
      split at h
      · rename_i hw
        obtain ⟨st0, hb, ds, lim, hf⟩ : ∃ st, c.back = .fa st ∧ Fresh st.sys := by
          cases hb : c.back with
          | none w => simp only [HSt, hb, hw] at hH; cases hH.2
          | fa st => simp only [HSt, hb] at hH; exact ⟨st, rfl, hH.1⟩
          | inn st => exact absurd hb (hno st)
        have hwd : (c.back.setWorld { c.back.world with sched := sched }).world = { k := { dirs := ds, limit := lim }, sched := sched } := by
          rw [hb]; simp only [Back.setWorld, Back.world, hf]
        simp only [cstep, hw] at h
        split at h
        · cases h
        · injection h with h
          rw [Option.map_eq_some_iff] at h
          obtain ⟨l, hl, rfl⟩ := h
          intro st h
          rw [hwd, hE] at h
          unfold openIn at h
          simp only at h
          split at h
          · injection h with h; subst h
            exact ⟨lim, ds, [], sched, [], rfl⟩
          · injection h with h; subst h
            exact ⟨lim, ds, a.dirs, sched, [], rfl⟩
      · cases h
    | op o =>
      simp only [hstep, cstep, Outcome.ok.injEq, Option.some.injEq] at h
      subst h
      intro st h; exact absurd h (hset _ st)
    | wakeStop =>
      simp [hstep, cstep, hnowake] at h
    | wakeRead n sched =>
      simp only [hstep, wakeWith, cstep] at h
      split at h
      · cases h
      · cases h
    | wakeBoth f n sched =>
      simp only [hstep, wakeWith, cstep] at h
      split at h
      · cases h
      · cases h

theorem hrun_came {cfg : Cfg} {E : Env World} (hE : E.inn = Model.Ker.sys) : ∀ (hs : List HStep) {c c' : CS World},
    Acc cfg c.life.w (callbacks c.life.log) c.back → HSt false c → Came c → hrun cfg E c hs = .ok (some c') →
    Acc cfg c'.life.w (callbacks c'.life.log) c'.back ∧ HSt false c' ∧ Came c' := by
  intro hs
  induction hs with
  | nil => intro c c' hA hH hC h; cases h; exact ⟨hA, hH, hC⟩
  | cons a as ih =>
    intro c c' hA hH hC h
    rw [hrun] at h
    obtain ⟨o, h1, h2⟩ := bind_ok_inv h
    cases o with
    | none => cases h2
    | some c1 =>
      obtain ⟨o, k1, k2⟩ := hstep_ok (g := false) hE a hA hH (fun h => by cases h)
      rw [h1] at k1
      injection k1 with k1
      obtain ⟨k3, k4⟩ := k2 c1 k1.symm
      exact ih k4 k3 (hstep_came hE hH hC h1) h2

end Verif.Lemmas.Ad
