import Verif.Lemmas.FWhole
/-! Whole histories of a Linux watch that uses fanotify and keeps up. -/
namespace Verif.Lemmas.AdF
open Verif Verif.Model Verif.Model.Ad Verif.Model.Life Verif.Model.FKer Verif.Spec Verif.Spec.FKer Verif.Spec.WholeF
  Verif.Lemmas.Life Verif.Lemmas.Ad Verif.Lemmas.FKer

variable {rf : Bool}

/-- The operations to come are possible. -/
structure Ready (past : List (Handle × Str)) (rest : List Do) : Prop where
  nodup : (newHandles rest).Nodup
  fresh : ∀ h ∈ newHandles rest, h ∉ past.map (·.1) ∧ h.length ≤ 128
  small : ∀ x ∈ rest, x.who.extra.length ≤ 200

/-- Everything has been read; with the events still to come, `goal` will have been told. -/
structure Synced (goal : List Ev) (rest : List Do) (st : Model.Fa.St World) : Prop where
  idle : Idle st
  due : fileEvents (st.out.map Prod.fst) ++ actualAll (treeOf st.sys.k) rest = goal
  ready : Ready st.sys.k.past rest

/-- The same, or it will be so after the next read. -/
def Nearly (rf : Bool) (goal : List Ev) (rest : List Do) (st : Model.Fa.St World) : Prop :=
  Synced goal rest st ∨ (st.buf.length = 4096 ∧ ∃ st', calmRead rf st = .ok st' ∧ Synced goal rest st')

theorem nearly_empty {goal rest} {st : Model.Fa.St World} (h : Nearly rf goal rest st) (hq : st.sys.k.queue = []) : Synced goal rest st := by
  rcases h with h | ⟨hb, st', h1, h2⟩
  · exact h
  · obtain ⟨st1, g1, g2, g3, g4, g5⟩ := read_none (rf := rf) hb hq
    rw [h1] at g1
    cases g1
    have hk : st'.sys.k = st.sys.k := by
      rw [g2]
      cases hk : st.sys.k with
      | mk d m p q l => rw [hk] at hq; simp only at hq; subst hq; rfl
    have hr := h2.ready
    have hd := h2.due
    rw [hk, g4] at hd
    rw [hk] at hr
    exact ⟨⟨by rw [← hk]; exact h2.idle.inv, hq, hb⟩, hd, hr⟩

theorem nearly_read {goal rest} {st : Model.Fa.St World} (h : Nearly rf goal rest st) : ∃ st', calmRead rf st = .ok st' ∧ Synced goal rest st' := by
  rcases h with h | ⟨hb, h⟩
  · obtain ⟨st1, g1, g2, g3, g4, g5⟩ := read_none (rf := rf) h.idle.buf h.idle.queue
    refine ⟨st1, g1, ⟨?_, by rw [g2], g5⟩, ?_, ?_⟩
    · rw [g2]; exact h.idle.inv.same ⟨rfl, rfl, rfl⟩
    · rw [g4, g2]; exact h.due
    · rw [g2]; exact h.ready
  · exact h

theorem nearly_recv {goal rest} {st : Model.Fa.St World} (h : Nearly rf goal rest st) (n : Nat) (hn : st.sys.k.queue.length ≤ n)
    (hf : (bytesOf st.sys n).length ≤ 4096) :
    ∃ st' r, Model.Fa.doEvRecv (Model.FKer.sys rf) (.data (bytesOf st.sys n)) { st with sys := taken st.sys n [] } = .ok (st', r) ∧
      Synced goal rest st' := by
  obtain ⟨st', h1, h2⟩ := nearly_read h
  unfold calmRead exec at h1
  have ht : st.sys.k.queue.take n = st.sys.k.queue := List.take_of_length_le hn
  have hd : st.sys.k.queue.drop n = [] := List.drop_of_length_le hn
  simp only [List.take_length, List.drop_length] at h1
  have hf' : (fbatch st.sys.k.queue).length ≤ Model.Fa.bufLen := by
    have := hf; unfold bytesOf at this; rw [ht] at this; exact this
  rw [if_pos hf'] at h1
  obtain ⟨⟨st1, r⟩, h3, h4⟩ := bind_ok_inv h1
  simp only at h4
  split at h4
  · simp only [Outcome.pure_eq, Outcome.ok.injEq] at h4
    subst h4
    refine ⟨st1, r, ?_, h2⟩
    unfold bytesOf taken
    rw [ht, hd]
    exact h3
  · cases h4

theorem synced_op {goal : List Ev} {x : Do} {rest : List Do} {st : Model.Fa.St World} (h : Synced goal (x :: rest) st) :
    Nearly rf goal rest { st with sys := { st.sys with k := doIt st.sys.k x } } := by
  have hn := h.ready.nodup
  have hh := h.ready.fresh
  have he := h.ready.small
  rw [newHandles_cons] at hn hh
  rw [List.nodup_append] at hn
  obtain ⟨st', a, b, c, d, e⟩ := step_ok (rf := rf) h.idle x (he x List.mem_cons_self) (fun h hx => hh h (List.mem_append_left _ hx))
  refine .inr ⟨h.idle.buf, st', ?_, b, ?_, ?_⟩
  · simp only [doIt, if_pos (he x List.mem_cons_self)]
    exact a
  · have := h.due
    simp only [actualAll] at this
    rw [d, c, List.append_assoc]
    exact this
  · refine ⟨hn.2.1, ?_, fun y hy => he y (List.mem_cons_of_mem _ hy)⟩
    intro h hm
    refine ⟨?_, (hh h (List.mem_append_right _ hm)).2⟩
    intro hx
    rcases e h hx with hx | hx
    · exact (hh h (List.mem_append_right _ hm)).1 hx
    · exact hn.2.2 h hx h hm rfl

/-- The state of such a history, with what is to come. -/
def USt (rf : Bool) (dirs : List (Handle × Str)) (goal : List Ev) (hs : List HStep) (c : CS World) : Prop :=
  match c.back with
  | .none w => w = { k := { dirs := dirs, past := dirs } } ∧ Early c.life.w ∧ Ready dirs (opsOf hs) ∧
      goal = actualAll (dirs.map (fun e => (e.2, (marksOf hs).contains e.2))) (opsOf hs)
  | .fa st => Nearly rf goal (opsOf hs) st ∧ LateF c.life.w
  | .inn _ => False

theorem wakeWith_ust {cfg : Cfg} {E : Env World} (hE : E.fa = Model.FKer.sys rf) {dirs goal} {hs hs' : List HStep} {c : CS World}
    (ho : opsOf hs = opsOf hs') (hH : USt rf dirs goal hs c) (stop : Option Bool) (n : Nat) (hn : c.back.world.k.queue.length ≤ n) :
    ∃ o, wakeWith cfg E c stop n [] = .ok o ∧ ∀ c', o = some c' → USt rf dirs goal hs' c' := by
  by_cases hw : ∃ sec, c.life.w = .aWait sec
  · obtain ⟨sec, hw⟩ := hw
    by_cases hf : (bytesOf c.back.world n).length ≤ 4096
    · unfold wakeWith
      rw [if_pos hf]
      obtain ⟨st, hb, hP⟩ : ∃ st, c.back = .fa st ∧ Nearly rf goal (opsOf hs) st := by
        cases hb : c.back with
        | none w => simp only [USt, hb, hw] at hH; cases hH.2.1
        | inn st => simp only [USt, hb] at hH
        | fa st => simp only [USt, hb] at hH; exact ⟨st, rfl, hH.1⟩
      have hS : sec = false := by simp only [USt, hb, hw] at hH; exact hH.2
      simp only [hb, Back.world] at hf hn
      obtain ⟨st', r, hd, hx⟩ := nearly_recv hP n hn hf
      have hr : recv E (.fa { st with sys := taken st.sys n [] }) (.data (bytesOf st.sys n)) =
          .ok (.fa st', (st'.out.drop st.out.length).map (·.1), r) := by
        simp only [recv, hE, hd]; rfl
      have hall : ∃ items, recvAll E (.fa { st with sys := taken st.sys n [] }) (Whole.entries stop (bytesOf st.sys n)) = .ok (.fa st', items) := by
        cases stop with
        | none => exact ⟨_, by simp only [Whole.entries, recvAll, hr]; rfl⟩
        | some b => cases b <;> exact ⟨_, by simp only [Whole.entries, recvAll, hr]; rfl⟩
      obtain ⟨items, hall⟩ := hall
      have hstep : cstep cfg E { c with back := c.back.setWorld (taken c.back.world n []) }
          (.wake (Whole.entries stop (bytesOf c.back.world n))) =
          .ok ((step cfg c.life (.wWake items)).map fun l => ⟨l, .fa st'⟩) := by
        simp only [cstep, hw, hb, Back.setWorld, Back.world, hall]; rfl
      refine ⟨_, hstep, ?_⟩
      intro c' hc
      rw [Option.map_eq_some_iff] at hc
      obtain ⟨l, hl, rfl⟩ := hc
      refine ⟨.inl (by rw [← ho]; exact hx), ?_⟩
      simp only [step, hw] at hl
      split at hl
      · rename_i hi
        rw [Bool.and_eq_true] at hi
        cases hl; exact ⟨hS, by decide, hi.1⟩
      · cases hl
    · unfold wakeWith
      rw [if_neg hf]
      exact ⟨_, rfl, fun c' h => by cases h⟩
  · have : wakeWith cfg E c stop n [] = .ok none := by
      unfold wakeWith
      split
      · simp only [cstep]
        split
        · rename_i sec h; exact absurd ⟨sec, h⟩ hw
        · rfl
      · rfl
    exact ⟨_, this, fun c' h => by cases h⟩

theorem hstep_ust {cfg : Cfg} {E : Env World} (hE : E.fa = Model.FKer.sys rf) {dirs goal} (hg : GoodTree dirs) {a : HStep} {as : List HStep} {c : CS World}
    (hH : USt rf dirs goal (a :: as) c) (hc : calm c a) :
    ∃ o, hstep cfg E c a = .ok o ∧ ∀ c', o = some c' → USt rf dirs goal as c' := by
  cases a with
  | thread a =>
    simp only [hstep, cstep]
    split
    · rename_i hpl
      refine ⟨_, rfl, ?_⟩
      intro c' h
      rw [Option.map_eq_some_iff] at h
      obtain ⟨l, hl, rfl⟩ := h
      cases hb : c.back with
      | none w => simp only [USt, hb] at hH ⊢; exact ⟨hH.1, early_step hpl hH.2.1 hl, hH.2.2⟩
      | fa st => simp only [USt, hb] at hH ⊢; exact ⟨hH.1, lateF_step hpl hH.2 hl⟩
      | inn st => simp only [USt, hb] at hH
    · exact ⟨_, rfl, fun _ h => by cases h⟩
  | openFanotify a sched =>
    have hc : sched = [] := hc
    subst hc
    simp only [hstep]
    split
    · rename_i ha
      rw [Bool.and_eq_true, decide_eq_true_eq] at ha
      have htot : ∃ o, cstep cfg E { c with back := c.back.setWorld { c.back.world with sched := [] } } (.openBack a) = .ok o := by
        simp only [cstep]
        split
        · exact ⟨_, rfl⟩
        · split <;> exact ⟨_, rfl⟩
      obtain ⟨o, htot⟩ := htot
      refine ⟨o, htot, ?_⟩
      intro c' h
      subst h
      simp only [cstep] at htot
      split at htot
      · cases htot
      · split at htot
        · rename_i hw
          injection htot with h
          rw [Option.map_eq_some_iff] at h
          obtain ⟨l, hl, rfl⟩ := h
          obtain ⟨w, hb, hW, hR, hG⟩ : ∃ w, c.back = .none w ∧ w = { k := { dirs := dirs, past := dirs } } ∧ Ready dirs (opsOf as) ∧
              goal = actualAll (dirs.map (fun e => (e.2, a.dirs.contains e.2))) (opsOf as) := by
            cases hb : c.back with
            | none w => simp only [USt, hb] at hH; exact ⟨w, rfl, hH.1, hH.2.2.1, hH.2.2.2⟩
            | fa st => simp only [USt, hb, hw] at hH; cases hH.2
            | inn st => simp only [USt, hb] at hH
          subst hW
          simp only [hb, Back.setWorld, Back.world] at hl ⊢
          have hO : openFa E.fa a { k := { dirs := dirs, past := dirs } } = (opened rf dirs a.dirs [], (Fds.faMake a.initFd a.ep).1.ok) := by
            unfold openFa opened
            simp only [ha.1, Bool.not_true, Bool.false_eq_true, if_false]
            rw [if_neg (by omega), hE]
          rw [hO] at hl ⊢
          obtain ⟨st, g1, g2, g3, g4, g5⟩ := opened_ok (rf := rf) hg a.dirs
          refine ⟨.inl ?_, ?_⟩
          · simp only
            rw [g1]
            refine ⟨g2, ?_, by rw [g3]; exact hR⟩
            rw [g4, g5, List.nil_append, hG]
          · simp only [step, hw] at hl
            split at hl
            · cases hl; exact ⟨rfl, faMake_ne ha.2 _, rfl⟩
            · cases hl
        · rename_i hw
          exfalso
          cases hb : c.back with
          | none w => simp only [USt, hb, hw] at hH; cases hH.2.1
          | fa st => simp only [USt, hb, hw] at hH; cases hH.2
          | inn st => simp only [USt, hb] at hH
        · cases htot
    · exact ⟨_, rfl, fun _ h => by cases h⟩
  | op x =>
    obtain ⟨⟨st, hb⟩, hq⟩ := hc
    refine ⟨_, rfl, ?_⟩
    intro c' h
    cases h
    simp only [USt, hb, Back.setWorld, Back.world, opsOf] at hH hq ⊢
    exact ⟨synced_op (nearly_empty hH.1 hq), hH.2⟩
  | wakeStop =>
    simp only [hstep, cstep]
    split
    · rename_i sec hw
      refine ⟨_, rfl, ?_⟩
      intro c' h
      rw [Option.map_eq_some_iff] at h
      obtain ⟨l, hl, rfl⟩ := h
      cases hb : c.back with
      | none w => simp only [USt, hb, hw] at hH; cases hH.2.1
      | inn st => simp only [USt, hb] at hH
      | fa st =>
        simp only [USt, hb, hw] at hH ⊢
        refine ⟨hH.1, ?_⟩
        simp only [step, hw] at hl
        split at hl
        · cases hl; exact ⟨hH.2, by decide, rfl⟩
        · cases hl
    · exact ⟨_, rfl, fun _ h => by cases h⟩
  | wakeRead n sched =>
    obtain ⟨hs, hn⟩ := hc
    subst hs
    exact wakeWith_ust hE rfl hH none n hn
  | wakeBoth first n sched =>
    obtain ⟨hs, hn⟩ := hc
    subst hs
    exact wakeWith_ust hE rfl hH (some first) n hn

theorem hrun_ust {cfg : Cfg} {E : Env World} (hE : E.fa = Model.FKer.sys rf) {dirs goal} (hg : GoodTree dirs) :
    ∀ (hs : List HStep) (c : CS World), USt rf dirs goal hs c → KeepsUp cfg E c hs →
    ∃ o, hrun cfg E c hs = .ok o ∧ ∀ c', o = some c' → USt rf dirs goal [] c' := by
  intro hs
  induction hs with
  | nil => intro c h _; exact ⟨_, rfl, fun c' hc => by cases hc; exact h⟩
  | cons a as ih =>
    intro c h hk
    obtain ⟨o, h1, h2⟩ := hstep_ust (cfg := cfg) hE hg h hk.1
    cases o with
    | none => exact ⟨none, by simp only [hrun, h1]; rfl, fun _ h => by cases h⟩
    | some c1 =>
      obtain ⟨o, h3, h4⟩ := ih c1 (h2 c1 rfl) (hk.2 c1 h1)
      exact ⟨o, by simp only [hrun, h1, Outcome.bind_ok]; exact h3, h4⟩

end Verif.Lemmas.AdF
