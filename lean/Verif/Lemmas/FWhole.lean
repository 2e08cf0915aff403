import Verif.Lemmas.Adapter3
import Verif.Lemmas.FKernel5
import Verif.Spec.FWhole
/-! Whole histories of a Linux watch that uses fanotify. -/
namespace Verif.Lemmas.AdF
open Verif Verif.Model Verif.Model.Ad Verif.Model.Life Verif.Model.FKer Verif.Spec Verif.Spec.FKer Verif.Spec.WholeF
  Verif.Lemmas.Life Verif.Lemmas.Ad Verif.Lemmas.FKer

/-- After opening fanotify. -/
def LateF : WPc → Prop
  | .aEvs sec _ r items => sec = false ∧ r ≠ .eFanotify ∧ itemsOk items = true
  | .aItems sec r items => sec = false ∧ r ≠ .eFanotify ∧ itemsOk items = true
  | .aWait sec => sec = false
  | .aDone sec r => sec = false ∧ r ≠ .eFanotify
  | .die _ _ | .setFut _ | .finished => True
  | .inCb n | .selfClose _ n => LateF n
  | _ => False

theorem lateF_step {cfg : Cfg} {s s' : Life.St} {a : Act} (hp : plainAct a = true)
    (h : LateF s.w) (hs : step cfg s a = some s') : LateF s'.w := by
  cases a with
  | w =>
    simp only [step, wStep] at hs
    split at hs
    · rename_i hw; rw [hw] at h; cases h
    · rename_i hw; rw [hw] at h; cases h
    · rename_i hw; rw [hw] at h; cases h
    · rename_i hw; rw [hw] at h; cases h
    · rename_i hw; rw [hw] at h; cases h
    · rename_i hw; rw [hw] at h; simp at hs; subst hs; exact h
    · rename_i hw; rw [hw] at h; simp at hs; subst hs; exact h
    · rename_i hw; rw [hw] at h; simp at hs; subst hs; simp only; split
      · exact h.1
      · exact ⟨h.1, h.2.1⟩
    · rename_i hw; rw [hw] at h; simp at hs; subst hs; exact ⟨h.1, by decide, h.2.2⟩
    · rename_i hw; rw [hw] at h; simp at hs; subst hs
      have h3 := h.2.2
      simp only [itemsOk, Bool.and_eq_true] at h3
      exact ⟨h.1, recvNot _ h3.1.2, h3.2⟩
    · rename_i hw; rw [hw] at h; simp at hs; subst hs; exact ⟨h.1, by decide, h.2.2⟩
    · rename_i sec r hw; rw [hw] at h
      obtain ⟨rfl, h2⟩ := h
      simp only [Bool.not_false, Bool.true_and, h2, decide_false, Bool.false_eq_true, if_false] at hs
      split at hs <;> (simp at hs; subst hs; trivial)
    · rename_i hw; simp at hs; subst hs; trivial
    · rename_i hw; simp at hs; subst hs; trivial
    · rename_i c next hw
      rw [hw] at h
      split at hs
      · simp at hs
      · simp at hs; subst hs; exact h
      · simp at hs; subst hs; exact h
    · simp at hs
  | wOpen evs r => cases hp
  | wWake items => cases hp
  | wWakeErr =>
    simp only [step] at hs
    split at hs <;> try simp at hs
    rename_i sec hw
    rw [hw] at h; subst hs; exact ⟨h, by decide, rfl⟩
  | cbReturn =>
    simp only [step] at hs
    split at hs <;> try simp at hs
    rename_i n hw
    rw [hw] at h
    subst hs; exact h
  | cbClose =>
    simp only [step] at hs
    split at hs <;> try simp at hs
    rename_i n hw
    rw [hw] at h
    subst hs; exact h
  | o =>
    simp only [step, oStep] at hs
    split at hs
    · split at hs
      · simp at hs
      · rename_i hc; simp at hs; subst hs; rw [← (closeStep_frame hc).2.1] at h; exact h
      · rename_i hc; simp at hs; subst hs; rw [← (closeStep_frame hc).2.1] at h; exact h
    · split at hs
      · simp at hs
      · rename_i hc; simp at hs; subst hs; rw [← (closeStep_frame hc).2.1] at h; exact h
      · rename_i hc; simp at hs; subst hs; rw [← (closeStep_frame hc).2.1] at h; exact h
    · split at hs
      · split at hs <;> simp at hs; subst hs; exact h
      · simp at hs; subst hs; exact h
    · simp at hs; subst hs; exact h
    · simp at hs
  | oClose =>
    simp only [step] at hs
    split at hs <;> simp at hs
    subst hs; exact h
  | oDtor =>
    simp only [step] at hs
    split at hs <;> simp at hs
    subst hs; exact h

/-- A property `W` of the world before opening and one `P` of the back end afterwards that histories keep.
`tot`: reads that satisfy `R` are also safe. -/
structure Keeps (rf : Bool) (p : Do → Bool) (R : K → List FRec → List (List Do × Bool) → Prop) (tot : Bool) (W : World → Prop) (P : Model.Fa.St World → Prop) : Prop where
  opW : ∀ (w : World) (x : Do), W w → p x = true → W { w with k := doIt w.k x }
  opP : ∀ (st : Model.Fa.St World) (x : Do), P st → p x = true → P { st with sys := { st.sys with k := doIt st.sys.k x } }
  openP : ∀ (w : World) (marks : List Str) (sched : List (List Do × Bool)), W w → allSched p sched = true →
    P (marks.foldl (fun st d => (Model.Fa.doMark (Model.FKer.sys rf) d st).1) { buf := List.replicate Model.Fa.bufLen 0, sys := { w with sched := sched } })
  recvP : ∀ (st : Model.Fa.St World) (n : Nat) (sched : List (List Do × Bool)) (st' : Model.Fa.St World) (r : Result), P st → allSched p sched = true → (bytesOf st.sys n).length ≤ 4096 → R st.sys.k (st.sys.k.queue.take n) sched →
    Model.Fa.doEvRecv (Model.FKer.sys rf) (.data (bytesOf st.sys n)) { st with sys := taken st.sys n sched } = .ok (st', r) → P st'
  safe : tot = true → ∀ (st : Model.Fa.St World) (n : Nat) (sched : List (List Do × Bool)), P st → allSched p sched = true → (bytesOf st.sys n).length ≤ 4096 → R st.sys.k (st.sys.k.queue.take n) sched →
    ∃ x, Model.Fa.doEvRecv (Model.FKer.sys rf) (.data (bytesOf st.sys n)) { st with sys := taken st.sys n sched } = .ok x

/-- The state of a history. -/
def FSt (W : World → Prop) (P : Model.Fa.St World → Prop) (c : CS World) : Prop :=
  match c.back with
  | .none w => W w ∧ Early c.life.w
  | .fa st => P st ∧ LateF c.life.w
  | .inn _ => False

variable {rf : Bool} {p : Do → Bool} {R : K → List FRec → List (List Do × Bool) → Prop} {tot : Bool} {W : World → Prop} {P : Model.Fa.St World → Prop}

theorem faMake_ne {fd : Int} (h : 1 ≤ fd) (e : Fds.EpAns) : (Fds.faMake fd e).1.ok ≠ .eFanotify := by
  unfold Fds.faMake
  rw [if_neg (by omega)]
  simp only
  split <;> (intro h; cases h)

theorem wakeWith_fst {cfg : Cfg} {E : Env World} (hE : E.fa = Model.FKer.sys rf) (K : Keeps rf p R tot W P) {c : CS World}
    (hH : FSt W P c) (stop : Option Bool) (n : Nat) (sched : List (List Do × Bool)) (hp : allSched p sched = true)
    (hR : R c.back.world.k (c.back.world.k.queue.take n) sched) :
    (tot = true → ∃ o, wakeWith cfg E c stop n sched = .ok o) ∧
    ∀ c', wakeWith cfg E c stop n sched = .ok (some c') → FSt W P c' := by
  by_cases hw : ∃ sec, c.life.w = .aWait sec
  · obtain ⟨sec, hw⟩ := hw
    by_cases hf : (bytesOf c.back.world n).length ≤ 4096
    · unfold wakeWith
      rw [if_pos hf]
      obtain ⟨st, hb, hP⟩ : ∃ st, c.back = .fa st ∧ P st := by
        cases hb : c.back with
        | none w => simp only [FSt, hb, hw] at hH; cases hH.2
        | inn st => simp only [FSt, hb] at hH
        | fa st => simp only [FSt, hb] at hH; exact ⟨st, rfl, hH.1⟩
      have hS : sec = false := by simp only [FSt, hb, hw] at hH; exact hH.2
      simp only [hb, Back.world] at hf hR
      cases hd : Model.Fa.doEvRecv (Model.FKer.sys rf) (.data (bytesOf st.sys n)) { st with sys := taken st.sys n sched } with
      | ub m =>
        have hr : recv E (.fa { st with sys := taken st.sys n sched }) (.data (bytesOf st.sys n)) = .ub m := by
          simp only [recv, hE, hd]; rfl
        refine ⟨fun ht => ?_, ?_⟩
        · obtain ⟨x, hx⟩ := K.safe ht st n sched hP hp hf hR
          rw [hd] at hx; cases hx
        · intro c' hc
          exfalso
          have : ∃ m', recvAll E (.fa { st with sys := taken st.sys n sched }) (Whole.entries stop (bytesOf st.sys n)) = .ub m' := by
            cases stop with
            | none => exact ⟨_, by simp only [Whole.entries, recvAll, hr]; rfl⟩
            | some b => cases b <;> exact ⟨_, by simp only [Whole.entries, recvAll, hr]; rfl⟩
          obtain ⟨m', hm⟩ := this
          simp only [cstep, hw, hb, Back.setWorld, Back.world, hm] at hc
          cases hc
      | ok x =>
        obtain ⟨st', r⟩ := x
        have hr : recv E (.fa { st with sys := taken st.sys n sched }) (.data (bytesOf st.sys n)) =
            .ok (.fa st', (st'.out.drop st.out.length).map (·.1), r) := by
          simp only [recv, hE, hd]; rfl
        have hall : ∃ items, recvAll E (.fa { st with sys := taken st.sys n sched }) (Whole.entries stop (bytesOf st.sys n)) = .ok (.fa st', items) := by
          cases stop with
          | none => exact ⟨_, by simp only [Whole.entries, recvAll, hr]; rfl⟩
          | some b => cases b <;> exact ⟨_, by simp only [Whole.entries, recvAll, hr]; rfl⟩
        obtain ⟨items, hall⟩ := hall
        have hstep : cstep cfg E { c with back := c.back.setWorld (taken c.back.world n sched) }
            (.wake (Whole.entries stop (bytesOf c.back.world n))) =
            .ok ((step cfg c.life (.wWake items)).map fun l => ⟨l, .fa st'⟩) := by
          simp only [cstep, hw, hb, Back.setWorld, Back.world, hall]; rfl
        refine ⟨fun _ => ⟨_, hstep⟩, ?_⟩
        intro c' hc
        rw [hstep] at hc
        injection hc with hc
        rw [Option.map_eq_some_iff] at hc
        obtain ⟨l, hl, rfl⟩ := hc
        refine ⟨K.recvP st n sched st' r hP hp hf hR hd, ?_⟩
        simp only [step, hw] at hl
        split at hl
        · rename_i hi
          rw [Bool.and_eq_true] at hi
          cases hl; exact ⟨hS, by decide, hi.1⟩
        · cases hl
    · unfold wakeWith
      rw [if_neg hf]
      exact ⟨fun _ => ⟨_, rfl⟩, fun c' h => by cases h⟩
  · have : wakeWith cfg E c stop n sched = .ok none := by
      unfold wakeWith
      split
      · simp only [cstep]
        split
        · rename_i sec h; exact absurd ⟨sec, h⟩ hw
        · rfl
      · rfl
    exact ⟨fun _ => ⟨_, this⟩, fun c' h => by rw [this] at h; cases h⟩

theorem hstep_fst {cfg : Cfg} {E : Env World} (hE : E.fa = Model.FKer.sys rf) (K : Keeps rf p R tot W P) {c : CS World} (a : HStep)
    (hH : FSt W P c) (hp : allDo p a = true) (hR : readOk R c a) :
    (tot = true → ∃ o, hstep cfg E c a = .ok o) ∧ ∀ c', hstep cfg E c a = .ok (some c') → FSt W P c' := by
  cases a with
  | thread a =>
    simp only [hstep, cstep]
    split
    · rename_i hpl
      refine ⟨fun _ => ⟨_, rfl⟩, ?_⟩
      intro c' h
      injection h with h
      rw [Option.map_eq_some_iff] at h
      obtain ⟨l, hl, rfl⟩ := h
      cases hb : c.back with
      | none w => simp only [FSt, hb] at hH ⊢; exact ⟨hH.1, early_step hpl hH.2 hl⟩
      | fa st => simp only [FSt, hb] at hH ⊢; exact ⟨hH.1, lateF_step hpl hH.2 hl⟩
      | inn st => simp only [FSt, hb] at hH
    · exact ⟨fun _ => ⟨_, rfl⟩, fun _ h => by cases h⟩
  | openFanotify a sched =>
    simp only [hstep]
    split
    · rename_i ha
      rw [Bool.and_eq_true, decide_eq_true_eq] at ha
      have htot : ∃ o, cstep cfg E { c with back := c.back.setWorld { c.back.world with sched := sched } } (.openBack a) = .ok o := by
        simp only [cstep]
        split
        · exact ⟨_, rfl⟩
        · split <;> exact ⟨_, rfl⟩
      refine ⟨fun _ => htot, ?_⟩
      intro c' h
      simp only [cstep] at h
      split at h
      · cases h
      · split at h
        · rename_i hw
          injection h with h
          rw [Option.map_eq_some_iff] at h
          obtain ⟨l, hl, rfl⟩ := h
          obtain ⟨w, hb, hW⟩ : ∃ w, c.back = .none w ∧ W w := by
            cases hb : c.back with
            | none w => simp only [FSt, hb] at hH; exact ⟨w, rfl, hH.1⟩
            | fa st => simp only [FSt, hb, hw] at hH; cases hH.2
            | inn st => simp only [FSt, hb] at hH
          simp only [hb, Back.setWorld, Back.world] at hl ⊢
          have ho : openFa E.fa a { w with sched := sched } =
              (a.dirs.foldl (fun st d => (Model.Fa.doMark (Model.FKer.sys rf) d st).1)
                { buf := List.replicate Model.Fa.bufLen 0, sys := { w with sched := sched } }, (Fds.faMake a.initFd a.ep).1.ok) := by
            unfold openFa
            simp only [ha.1, Bool.not_true, Bool.false_eq_true, if_false]
            rw [if_neg (by omega), hE]
          rw [ho] at hl ⊢
          refine ⟨K.openP w a.dirs sched hW hp, ?_⟩
          simp only [step, hw] at hl
          split at hl
          · cases hl; exact ⟨rfl, faMake_ne ha.2 _, rfl⟩
          · cases hl
        · rename_i hw
          exfalso
          cases hb : c.back with
          | none w => simp only [FSt, hb, hw] at hH; cases hH.2
          | fa st => simp only [FSt, hb, hw] at hH; cases hH.2
          | inn st => simp only [FSt, hb] at hH
        · cases h
    · exact ⟨fun _ => ⟨_, rfl⟩, fun _ h => by cases h⟩
  | op o =>
    refine ⟨fun _ => ⟨_, rfl⟩, ?_⟩
    intro c' h
    cases h
    cases hb : c.back with
    | none w => simp only [FSt, hb, Back.setWorld, Back.world] at hH ⊢; exact ⟨K.opW _ _ hH.1 hp, hH.2⟩
    | fa st => simp only [FSt, hb, Back.setWorld, Back.world] at hH ⊢; exact ⟨K.opP _ _ hH.1 hp, hH.2⟩
    | inn st => simp only [FSt, hb] at hH
  | wakeStop =>
    simp only [hstep, cstep]
    split
    · rename_i sec hw
      refine ⟨fun _ => ⟨_, rfl⟩, ?_⟩
      intro c' h
      have h : .ok ((step cfg c.life (.wWake [.il])).map fun l => (⟨l, c.back⟩ : CS World)) = Outcome.ok (some c') := h
      injection h with h
      rw [Option.map_eq_some_iff] at h
      obtain ⟨l, hl, rfl⟩ := h
      cases hb : c.back with
      | none w => simp only [FSt, hb, hw] at hH; cases hH.2
      | inn st => simp only [FSt, hb] at hH
      | fa st =>
        simp only [FSt, hb, hw] at hH ⊢
        refine ⟨hH.1, ?_⟩
        simp only [step, hw] at hl
        split at hl
        · cases hl; exact ⟨hH.2, by decide, rfl⟩
        · cases hl
    · exact ⟨fun _ => ⟨_, rfl⟩, fun _ h => by cases h⟩
  | wakeRead n sched => exact wakeWith_fst hE K hH none n sched hp hR
  | wakeBoth first n sched => exact wakeWith_fst hE K hH (some first) n sched hp hR

theorem hrun_fst {cfg : Cfg} {E : Env World} (hE : E.fa = Model.FKer.sys rf) (K : Keeps rf p R tot W P) :
    ∀ (hs : List HStep) (c : CS World), FSt W P c → hs.all (allDo p) = true → ReadsOk R cfg E c hs →
    (tot = true → ∃ o, hrun cfg E c hs = .ok o) ∧ ∀ c', hrun cfg E c hs = .ok (some c') → FSt W P c' := by
  intro hs
  induction hs with
  | nil => intro c h _ _; exact ⟨fun _ => ⟨_, rfl⟩, fun c' hc => by cases hc; exact h⟩
  | cons a as ih =>
    intro c h hp hR
    rw [List.all_cons, Bool.and_eq_true] at hp
    obtain ⟨h1, h2⟩ := hstep_fst (cfg := cfg) hE K a h hp.1 hR.1
    cases hs : hstep cfg E c a with
    | ub m =>
      refine ⟨fun ht => ?_, ?_⟩
      · obtain ⟨o, ho⟩ := h1 ht; rw [hs] at ho; cases ho
      · intro c' hc; simp only [hrun, hs] at hc; cases hc
    | ok o =>
      cases o with
      | none =>
        refine ⟨fun _ => ⟨none, by simp only [hrun, hs]; rfl⟩, ?_⟩
        intro c' hc; simp only [hrun, hs] at hc; cases hc
      | some c1 =>
        have := ih c1 (h2 c1 hs) hp.2 (hR.2 c1 hs)
        simp only [hrun, hs, Outcome.bind_ok]
        exact this

/-- A history is a schedule of the general model. -/
theorem hrun_reach {cfg : Cfg} {E : Env World} {hs : List HStep} {c c' : CS World} (h : CReach cfg E c)
    (hr : hrun cfg E c hs = .ok (some c')) : CReach cfg E c' := by
  have one : ∀ (c c' : CS World) (a : CAct World), CReach cfg E c → cstep cfg E c a = .ok (some c') → CReach cfg E c' := by
    intro c c' a ⟨w, acts, h⟩ hs
    refine ⟨w, acts ++ [a], ?_⟩
    have : ∀ (acts : List (CAct World)) (c0 : CS World), crun cfg E c0 acts = .ok (some c) →
        crun cfg E c0 (acts ++ [a]) = .ok (some c') := by
      intro acts
      induction acts with
      | nil => intro c0 h; cases h; simp only [List.nil_append, crun, hs, Outcome.bind_ok]
      | cons x xs ih =>
        intro c0 h
        simp only [crun] at h
        obtain ⟨o, h1, h2⟩ := bind_ok_inv h
        cases o with
        | none => cases h2
        | some c1 => simp only [List.cons_append, crun, h1, Outcome.bind_ok]; exact ih c1 h2
    exact this acts _ h
  have wd : ∀ (c : CS World) (w : World), CReach cfg E c → CReach cfg E { c with back := c.back.setWorld w } :=
    fun c w h => one c _ (.world w) h rfl
  have ww : ∀ (c c' : CS World) stop n sched, CReach cfg E c → wakeWith cfg E c stop n sched = .ok (some c') → CReach cfg E c' := by
    intro c c' stop n sched hc h
    unfold wakeWith at h
    split at h
    · exact one _ _ _ (wd c _ hc) h
    · cases h
  induction hs generalizing c with
  | nil => cases hr; exact h
  | cons a as ih =>
    simp only [hrun] at hr
    obtain ⟨o, h1, h2⟩ := bind_ok_inv hr
    cases o with
    | none => cases h2
    | some c1 =>
      refine ih ?_ h2
      cases a with
      | thread a => simp only [hstep] at h1; exact one _ _ _ h h1
      | openFanotify a sched =>
        simp only [hstep] at h1
        split at h1
        · exact one _ _ _ (wd c _ h) h1
        · cases h1
      | op o => simp only [hstep] at h1; exact one _ _ _ h h1
      | wakeStop => simp only [hstep] at h1; exact one _ _ _ h h1
      | wakeRead n sched => exact ww _ _ _ _ _ h h1
      | wakeBoth f n sched => exact ww _ _ _ _ _ h h1

/-! ### What histories keep -/

theorem foldMarks_hinv (ms : List Str) : ∀ (st : Model.Fa.St World), FKer.HInv st →
    FKer.HInv (ms.foldl (fun st d => (Model.Fa.doMark (Model.FKer.sys rf) d st).1) st) := by
  induction ms with
  | nil => intro st h; exact h
  | cons m ms ih => intro st h; exact ih _ (doMark_hinv h m)

theorem keeps_hinv (rf : Bool) : Keeps rf (fun _ => true) (fun _ _ _ => True) false (fun w => KInv w.k) FKer.HInv where
  opW := fun w x h _ => (doIt_kinv h x).1
  opP := fun st x h _ => exec_hinv (rf := rf) h (.op x) rfl
  openP := fun w marks sched h _ => foldMarks_hinv marks _ ⟨h, fun e he => by cases he⟩
  recvP := by
    intro st n sched st' r h _ hfit _ h1
    have hk0 := take_kinv h.k n
    have hcov : ∀ r ∈ st.sys.k.queue.take n, Cov st.sys.k.log st.sys.k.past r := fun r hr => h.k.queue r (List.mem_of_mem_take hr)
    obtain ⟨new, o1, o2, o3⟩ := Fa.recv_drawn (Model.FKer.sys rf) (sound rf) _ ⟨fun r hr => (hcov r hr).wf, hfit⟩ _ _ _ h1
    have hg := drawn_genuine (rf := rf) (w0 := taken st.sys n sched) hk0 o3 (fun r p hn hw c => wasAt_near hk0 hn hw) hcov o2
    have hkk := later_kinv (rf := rf) (w0 := taken st.sys n sched) hk0 o3
    refine ⟨hkk.1, ?_⟩
    intro e hm
    rw [o1, List.map_append, fileEvents_append] at hm
    rcases List.mem_append.1 hm with hm | hm
    · exact Genuine.mono hkk.2.log (fun _ _ => Near.mono hkk.2.past) (h.out e hm)
    · exact hg e hm
  safe := fun h => by cases h

theorem foldMarks_w {need : Handle → Prop} {m : Bool} {seen : List Change} : ∀ (ms : List Str) (st : Model.Fa.St World), WInvN need m seen st.sys →
    st.buf.length = 4096 → fileEvents (st.out.map Prod.fst) = [] →
    WInvN need m seen (ms.foldl (fun st d => (Model.Fa.doMark (Model.FKer.sys rf) d st).1) st).sys ∧
    (ms.foldl (fun st d => (Model.Fa.doMark (Model.FKer.sys rf) d st).1) st).buf.length = 4096 ∧
    fileEvents ((ms.foldl (fun st d => (Model.Fa.doMark (Model.FKer.sys rf) d st).1) st).out.map Prod.fst) = [] := by
  intro ms
  induction ms with
  | nil => intro st a b c; exact ⟨a, b, c⟩
  | cons p ms ih =>
    intro st a b c
    rw [List.foldl_cons]
    have hm := markSpec_w (rf := rf) a p
    rw [doMark_markSpec]
    refine ih _ hm.1 b ?_
    simp only
    rw [List.map_append, fileEvents_append, c, hm.2.2]
    rfl

/-- What happens during reads satisfies `p`. -/
def During (p : Do → Bool) : K → List FRec → List (List Do × Bool) → Prop := fun _ _ sched => allSched p sched = true

theorem keeps_sinv (rf : Bool) : Keeps rf (fun _ => true) (During keeps) false (fun w => KInv w.k) SInv where
  opW := fun w x h _ => (doIt_kinv h x).1
  opP := fun st x h _ => exec_sinv (rf := rf) h (.op x) rfl rfl
  openP := by
    intro w marks sched h _
    have hW : WInvN (fun _ => False) false w.k.log { w with sched := sched } :=
      ⟨h, fun _ _ h => h.elim, fun c hc => .inl hc, mild_false _, .inr fun _ h => h⟩
    obtain ⟨h1, _, h2⟩ := foldMarks_w (rf := rf) marks { buf := List.replicate Model.Fa.bufLen 0, sys := { w with sched := sched } } hW List.length_replicate rfl
    refine ⟨h1.k, ?_⟩
    rw [h2]; intro e he; cases he
  recvP := by
    intro st n sched st' r h _ hfit hs h1
    have hk0 := take_kinv h.k n
    have hw : Calm (taken st.sys n sched) := ⟨hk0, hs⟩
    have hcov : ∀ r ∈ st.sys.k.queue.take n, Cov st.sys.k.log st.sys.k.past r := fun r hr => h.k.queue r (List.mem_of_mem_take hr)
    obtain ⟨new, o1, o2, o3⟩ := Fa.recv_drawn (Model.FKer.sys rf) (sound rf) _ ⟨fun r hr => (hcov r hr).wf, hfit⟩ _ _ _ h1
    have hg := drawn_genuine (rf := rf) (w0 := taken st.sys n sched) hk0 o3 (fun r p hn hx c => wasAt_at hw hn hx) hcov o2
    have hkk := later_kinv (rf := rf) (w0 := taken st.sys n sched) hk0 o3
    refine ⟨hkk.1, ?_⟩
    intro e hm
    rw [o1, List.map_append, fileEvents_append] at hm
    rcases List.mem_append.1 hm with hm | hm
    · exact Genuine.mono hkk.2.log (fun _ _ => At.mono hkk.2.past) (h.out e hm)
    · exact hg e hm
  safe := fun h => by cases h

/-- If no directory is ever removed, all are there. -/
theorem keeps_here (rf : Bool) : Keeps rf keeps (fun _ _ _ => True) false (fun w => KInv w.k ∧ AllHere w.k)
    (fun st => KInv st.sys.k ∧ AllHere st.sys.k) where
  opW := fun w x h hx => ⟨(doIt_kinv h.1 x).1, doIt_here h.2 x hx⟩
  opP := fun st x h hx => ⟨(doIt_kinv h.1 x).1, doIt_here h.2 x hx⟩
  openP := by
    intro w marks sched h hs
    have hW : WInv false w.k.log { w with sched := sched } := ⟨h.1, h.2, fun c hc => .inl hc, mild_false _, .inl hs⟩
    have := (foldMarks_w (rf := rf) marks { buf := List.replicate Model.Fa.bufLen 0, sys := { w with sched := sched } } hW List.length_replicate rfl).1
    exact ⟨this.k, this.here⟩
  recvP := by
    intro st n sched st' r h hs hfit _ h1
    have hcov : ∀ r ∈ st.sys.k.queue.take n, Cov st.sys.k.log st.sys.k.past r := fun r hr => h.1.queue r (List.mem_of_mem_take hr)
    obtain ⟨new, o1, o2, o3⟩ := Fa.recv_drawn (Model.FKer.sys rf) (sound rf) _ ⟨fun r hr => (hcov r hr).wf, hfit⟩ _ _ _ h1
    have hw : WInv false st.sys.k.log (taken st.sys n sched) := ⟨take_kinv h.1 n, h.2, fun c hc => .inl hc, mild_false _, .inl hs⟩
    have := later_w hw o3
    exact ⟨this.k, this.here⟩
  safe := fun h => by cases h

/-- The condition on the reads of a history that tells everything. -/
def Told1 : K → List FRec → List (List Do × Bool) → Prop :=
  fun k rs sched => ((NoSwap rs ∧ Roomy rs) ∧ ∀ r ∈ rs, r.handle ∈ k.dirs.map (·.1)) ∧ allSched keeps sched = true

theorem read_recv {m : Bool} {st : Model.Fa.St World} {seen : List Change} (h : TInv m st seen) (n : Nat) (sched : List (List Do × Bool))
    (hs : allSched (mild m) sched = true) (hf : (bytesOf st.sys n).length ≤ 4096)
    (hR : Told1 st.sys.k (st.sys.k.queue.take n) sched) :
    ∃ st' r seen', Model.Fa.doEvRecv (Model.FKer.sys rf) (.data (bytesOf st.sys n)) { st with sys := taken st.sys n sched } = .ok (st', r) ∧
      exec rf st (.read n sched) = .ok st' ∧ TInv m st' seen' := by
  obtain ⟨st', seen', h1, h2⟩ := read_tinv (rf := rf) h n sched (allowed_and hs hR.2) hR.1.2 hR.1.1.1 hR.1.1.2
  have h1' := h1
  simp only [exec] at h1
  rw [if_pos (show (fbatch (st.sys.k.queue.take n)).length ≤ Model.Fa.bufLen from hf)] at h1
  obtain ⟨⟨st1, r⟩, h3, h4⟩ := bind_ok_inv h1
  simp only at h4
  split at h4
  · simp only [Outcome.pure_eq, Outcome.ok.injEq] at h4
    subst h4
    exact ⟨st1, r, seen', h3, h1', h2⟩
  · cases h4

theorem tinv_open {m : Bool} (w : World) (marks : List Str) (sched : List (List Do × Bool))
    (h : KInv w.k ∧ Kept m [] w.k) (hs : allSched (mild m) sched = true) :
    TInv m (marks.foldl (fun st d => (Model.Fa.doMark (Model.FKer.sys rf) d st).1)
      { buf := List.replicate Model.Fa.bufLen 0, sys := { w with sched := sched } }) [] := by
  obtain ⟨h1, h2, h3⟩ := foldMarks_w (rf := rf) (need := fun _ => False) (m := m) (seen := []) marks
    { buf := List.replicate Model.Fa.bufLen 0, sys := { w with sched := sched } }
    ⟨h.1, fun _ _ h => h.elim, h.2, hs, .inr fun _ h => h⟩ List.length_replicate rfl
  refine ⟨h1.k, h1.kept, h2, ?_⟩
  rw [h3]
  cases m with
  | true => exact Told.nil
  | false => intro c hc; cases hc

theorem keeps_tinv (rf m : Bool) : Keeps rf (mild m) Told1 true
    (fun w => KInv w.k ∧ Kept m [] w.k) (fun st => ∃ seen, TInv m st seen) where
  opW := by
    intro w x h hx
    have := doIts_w (m := m) (seen := []) (need := fun _ => False) [x] h.1 (fun _ _ h => h.elim) h.2 (by simp [hx]) (.inr fun _ h => h)
    exact ⟨this.1, this.2.2.1⟩
  opP := fun st x ⟨seen, h⟩ hx => ⟨seen, op_tinv h x hx⟩
  openP := fun w marks sched h hs => ⟨[], tinv_open w marks sched h hs⟩
  recvP := by
    intro st n sched st' r ⟨seen, h⟩ hs hf hR h1
    obtain ⟨st1, r1, seen1, h2, _, h3⟩ := read_recv (rf := rf) h n sched hs hf hR
    rw [h1] at h2
    cases h2
    exact ⟨seen1, h3⟩
  safe := by
    intro _ st n sched ⟨seen, h⟩ hs hf hR
    obtain ⟨st1, r1, seen1, h2, _, h3⟩ := read_recv (rf := rf) h n sched hs hf hR
    exact ⟨_, h2⟩

theorem plain_reads {st : Model.Fa.St World} (h : QInv st) (n : Nat) : NoSwap (st.sys.k.queue.take n) ∧ Roomy (st.sys.k.queue.take n) := by
  have hr : ∀ r ∈ st.sys.k.queue.take n, r.movedFrom = false ∧ r.movedTo = false :=
    fun r hr => unmoved_rec h.u (h.h.k.queue r (List.mem_of_mem_take hr))
  exact ⟨noswap_plain _ hr, roomy_plain hr⟩

theorem here_reads {k : K} (hk : KInv k) (hh : AllHere k) (n : Nat) : ∀ r ∈ k.queue.take n, r.handle ∈ k.dirs.map (·.1) := by
  intro r hr
  obtain ⟨e, h1, h2⟩ := List.mem_map.1 (hk.queue r (List.mem_of_mem_take hr)).known
  rw [← h2]
  exact hh e h1 trivial

theorem plain_allowed {x : Do} (h : (plain x && apart x) = true) : mild true x = true := by
  rw [Bool.and_eq_true] at h
  exact mild_true h.2

theorem plain_kept {x : Do} (h : (plain x && apart x) = true) : keeps x = true := by
  rw [Bool.and_eq_true] at h
  exact plain_keeps h.1

theorem plain_only {x : Do} (h : (plain x && apart x) = true) : plain x = true := by
  rw [Bool.and_eq_true] at h; exact h.1

theorem keeps_plain (rf : Bool) : Keeps rf (fun x => plain x && apart x) (fun _ _ _ => True) true
    (fun w => (KInv w.k ∧ Kept true [] w.k) ∧ AllHere w.k ∧ Unmoved w.k)
    (fun st => (∃ seen, TInv true st seen) ∧ AllHere st.sys.k ∧ QInv st) where
  opW := fun w x h hx => ⟨(keeps_tinv rf true).opW w x h.1 (plain_allowed hx), doIt_here h.2.1 x (plain_kept hx), doIt_unmoved h.2.2 x (plain_only hx)⟩
  opP := fun st x h hx => ⟨(keeps_tinv rf true).opP st x h.1 (plain_allowed hx), doIt_here h.2.1 x (plain_kept hx),
    exec_plain (rf := rf) h.2.2 (.op x) (plain_only hx) rfl⟩
  openP := by
    intro w marks sched h hs
    refine ⟨(keeps_tinv rf true).openP w marks sched h.1 (allSched_congr (fun x hx => plain_allowed hx) hs),
      ((keeps_here rf).openP w marks sched ⟨h.1.1, h.2.1⟩ (allSched_congr (fun x hx => plain_kept hx) hs)).2, ?_, ?_⟩
    · exact foldMarks_hinv marks _ ⟨h.1.1, fun e he => by cases he⟩
    · have key : ∀ (ms : List Str) (st : Model.Fa.St World), PInv st.sys →
          PInv (ms.foldl (fun st d => (Model.Fa.doMark (Model.FKer.sys rf) d st).1) st).sys := by
        intro ms
        induction ms with
        | nil => intro st a; exact a
        | cons p ms ih => intro st a; exact ih _ (later_plain a (Fa.mark_later (Model.FKer.sys rf) p st .now))
      exact (key marks _ ⟨h.2.2, allSched_congr (fun x hx => plain_only hx) hs⟩).k
  recvP := by
    intro st n sched st' r ⟨⟨seen, h⟩, hh, hq⟩ hs hf _ h1
    have hs2 : allSched keeps sched = true := allSched_congr (fun x hx => plain_kept hx) hs
    have hR := plain_reads hq n
    obtain ⟨st1, r1, seen1, h2, h4, h3⟩ := read_recv (rf := rf) h n sched (allSched_congr (fun x hx => plain_allowed hx) hs) hf
      ⟨⟨hR, here_reads h.k hh n⟩, hs2⟩
    rw [h1] at h2
    cases h2
    exact ⟨⟨seen1, h3⟩, ((keeps_here rf).recvP st n sched st' r ⟨h.k, hh⟩ hs2 hf trivial h1).2,
      exec_plain (rf := rf) hq (.read n sched) (allSched_congr (fun x hx => plain_only hx) hs) h4⟩
  safe := by
    intro _ st n sched ⟨⟨seen, h⟩, hh, hq⟩ hs hf _
    have hR := plain_reads hq n
    obtain ⟨st1, r1, seen1, h2, _, h3⟩ := read_recv (rf := rf) h n sched (allSched_congr (fun x hx => plain_allowed hx) hs) hf
      ⟨⟨hR, here_reads h.k hh n⟩, allSched_congr (fun x hx => plain_kept hx) hs⟩
    exact ⟨_, h2⟩

theorem readsOk_true {cfg : Cfg} {E : Env World} : ∀ (hs : List HStep) (c : CS World), ReadsOk (fun _ _ _ => True) cfg E c hs := by
  intro hs
  induction hs with
  | nil => intro c; trivial
  | cons a as ih => intro c; exact ⟨by cases a <;> trivial, fun c' _ => ih c'⟩

theorem readsOk_during {cfg : Cfg} {E : Env World} {p : Do → Bool} : ∀ (hs : List HStep) (c : CS World), hs.all (allWakes p) = true →
    ReadsOk (During p) cfg E c hs := by
  intro hs
  induction hs with
  | nil => intro c _; trivial
  | cons a as ih =>
    intro c h
    rw [List.all_cons, Bool.and_eq_true] at h
    exact ⟨by cases a <;> first | exact h.1 | trivial, fun c' _ => ih c' h.2⟩

theorem readsOk_and {cfg : Cfg} {E : Env World} {R Q S : K → List FRec → List (List Do × Bool) → Prop} (hS : ∀ k rs s, R k rs s → Q k rs s → S k rs s) :
    ∀ (hs : List HStep) (c : CS World), ReadsOk R cfg E c hs → ReadsOk Q cfg E c hs → ReadsOk S cfg E c hs := by
  intro hs
  induction hs with
  | nil => intro c _ _; trivial
  | cons a as ih =>
    intro c h1 h2
    refine ⟨?_, fun c' hc => ih c' (h1.2 c' hc) (h2.2 c' hc)⟩
    have a1 := h1.1
    have a2 := h2.1
    cases a <;> first | exact hS _ _ _ a1 a2 | trivial

/-- The three conditions together. -/
theorem told1_of {cfg : Cfg} {E : Env World} {hs : List HStep} {c : CS World} (hf : FineReads cfg E c hs) (hp : PresentReads cfg E c hs)
    (hk : hs.all (allWakes keeps) = true) : ReadsOk Told1 cfg E c hs :=
  readsOk_and (R := fun k rs _ => (NoSwap rs ∧ Roomy rs) ∧ ∀ r ∈ rs, r.handle ∈ k.dirs.map (·.1)) (fun _ _ _ a b => ⟨a, b⟩) hs c
    (readsOk_and (fun _ _ _ a b => ⟨a, b⟩) hs c hf hp) (readsOk_during hs c hk)

theorem allWakes_of {p : Do → Bool} {hs : List HStep} (h : hs.all (allDo p) = true) : hs.all (allWakes p) = true := by
  rw [List.all_eq_true] at h ⊢
  intro a ha
  have := h a ha
  cases a <;> first | exact this | rfl

theorem allDo_congr {p q : Do → Bool} (h : ∀ x, p x = true → q x = true) {hs : List HStep} (hs' : hs.all (allDo p) = true) :
    hs.all (allDo q) = true := by
  rw [List.all_eq_true] at hs' ⊢
  intro a ha
  have := hs' a ha
  cases a with
  | op o => exact h o this
  | openFanotify a sched => exact allSched_congr h this
  | wakeRead n sched => exact allSched_congr h this
  | wakeBoth f n sched => exact allSched_congr h this
  | _ => rfl

theorem presentReads_of_keeps {cfg : Cfg} {E : Env World} (hE : E.fa = Model.FKer.sys rf) : ∀ (hs : List HStep) (c : CS World),
    FSt (fun w => KInv w.k ∧ AllHere w.k) (fun st => KInv st.sys.k ∧ AllHere st.sys.k) c → hs.all (allDo keeps) = true → PresentReads cfg E c hs := by
  intro hs
  induction hs with
  | nil => intro c _ _; trivial
  | cons a as ih =>
    intro c h hk
    rw [List.all_cons, Bool.and_eq_true] at hk
    have hw : KInv c.back.world.k ∧ AllHere c.back.world.k := by
      cases hb : c.back with
      | none w => simp only [FSt, hb] at h; exact h.1
      | inn st => simp only [FSt, hb] at h
      | fa st => simp only [FSt, hb] at h; exact h.1
    refine ⟨?_, fun c' hc => ih c' ((hstep_fst hE (keeps_here rf) a h hk.1 (by cases a <;> trivial)).2 c' hc) hk.2⟩
    cases a <;> first | exact here_reads hw.1 hw.2 _ | trivial

end Verif.Lemmas.AdF
