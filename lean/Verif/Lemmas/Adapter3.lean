import Verif.Lemmas.Adapter2
import Verif.Lemmas.Inotify2
import Verif.Lemmas.Fanotify4
import Verif.Lemmas.Kernel3
import Verif.Spec.Adapter
/-! Memory safety and whole histories of the Linux watch. -/
namespace Verif.Lemmas.Ad
open Verif Verif.Model Verif.Model.Ad Verif.Model.Life Verif.Spec Verif.Lemmas.Life

/-! ### Safety -/

theorem fa_doMark_buf {σ} (S : Model.Fa.Sys σ) (d : Str) (st : Model.Fa.St σ) : (Model.Fa.doMark S d st).1.buf = st.buf := by
  unfold Model.Fa.doMark
  rcases h1 : S.realpath st.sys d with ⟨_ | real, w⟩
  · rfl
  · simp only
    rcases h2 : S.isDir w real with ⟨_ | _, w2⟩
    · rfl
    · simp only
      rcases h3 : S.mark w2 real with ⟨_ | _, w3⟩ <;> rfl

theorem fa_loop_buf {σ} (S : Model.Fa.Sys σ) (left : Nat) (o : Option Nat) (len : Int) (st st' : Model.Fa.St σ)
    (r : Result) (h : Model.Fa.loop S left o len st = .ok (st', r)) : st'.buf = st.buf := by
  induction left generalizing o len st with
  | zero =>
    cases o with
    | none => rw [Model.Fa.loop.eq_def] at h; cases h; rfl
    | some o =>
      rw [Model.Fa.loop.eq_def] at h
      obtain ⟨ok, _, h⟩ := bind_ok_inv h
      cases ok <;> (simp at h; obtain ⟨rfl, rfl⟩ := h; rfl)
  | succ left ih =>
    cases o with
    | none => rw [Model.Fa.loop.eq_def] at h; cases h; rfl
    | some o =>
      rw [Model.Fa.loop.eq_def] at h
      obtain ⟨ok, _, h⟩ := bind_ok_inv h
      split at h
      · cases h; rfl
      · simp only at h
        obtain ⟨vers, _, h⟩ := bind_ok_inv h
        split at h
        · cases h; rfl
        · obtain ⟨fd, _, h⟩ := bind_ok_inv h
          split at h
          · cases h; rfl
          · obtain ⟨mask, _, h⟩ := bind_ok_inv h
            split at h
            · cases h; rfl
            · obtain ⟨it, _, h⟩ := bind_ok_inv h
              split at h
              · cases h; rfl
              · obtain ⟨⟨p, ec, w⟩, hp, h⟩ := bind_ok_inv h
                simp only at h
                split at h
                · cases h; rfl
                · rw [ih _ _ _ h]
                  show (Model.Fa.doMarkIfNewdir S p.ev { st with sys := w }).buf = st.buf
                  unfold Model.Fa.doMarkIfNewdir
                  split
                  · exact fa_doMark_buf S _ _
                  · rfl

/-- The memory of the back end is in order. -/
def Sane {σ} : Back σ → Prop
  | .none _ => True
  | .fa st => st.buf.length = 4096
  | .inn st => SoundTable st.dm

theorem sane_setWorld {σ} (b : Back σ) (w : σ) (h : Sane b) : Sane (b.setWorld w) := by cases b <;> exact h

theorem sane_openFa {σ} (S : Model.Fa.Sys σ) (a : OpenAns) (w : σ) : (openFa S a w).1.buf.length = 4096 := by
  have hg : ∀ (ds : List Str) (st : Model.Fa.St σ),
      (ds.foldl (fun st d => (Model.Fa.doMark S d st).1) st).buf = st.buf := by
    intro ds
    induction ds with
    | nil => intro st; rfl
    | cons d ds ih => intro st; rw [List.foldl_cons, ih, fa_doMark_buf]
  unfold openFa
  simp only
  split
  · exact List.length_replicate
  · split
    · exact List.length_replicate
    · simp only; rw [hg]; exact List.length_replicate

theorem sane_openIn {σ} (S : In.Sys σ) (hS : SoundSys S) (a : OpenAns) (w : σ) : SoundTable (openIn S a w).1.dm := by
  have hg : ∀ (ds : List Str) (st : In.St σ), SoundTable st.dm →
      SoundTable (ds.foldl (fun st d => (In.doMark S d st).1) st).dm := by
    intro ds
    induction ds with
    | nil => intro st h; exact h
    | cons d ds ih =>
      intro st h
      rw [List.foldl_cons]
      refine ih _ ?_
      rw [Lemmas.In.doMark_eq]
      exact Lemmas.In.markSpec_sound S hS d _ _ h
  unfold openIn
  simp only
  split
  · intro e he; cases he
  · exact hg _ _ (fun e he => by cases he)

theorem recv_sane {σ} (E : Env σ) (hF : Fa.Sound E.fa) (hI : SoundSys E.inn) (b : Back σ) (r : In.ReadAns)
    (hs : Sane b) (hr : KernelRead Roomy b r) :
    ∃ b' evs res, recv E b r = .ok (b', evs, res) ∧ Sane b' ∧ (∀ sec, kindOk sec b → kindOk sec b') := by
  cases b with
  | none w => exact ⟨_, _, _, rfl, hs, fun _ h => h⟩
  | inn st =>
    rcases hr with ⟨e, rfl⟩ | ⟨rs, hb, rfl⟩
    · cases e <;> exact ⟨_, _, _, rfl, hs, fun _ h => h⟩
    · have h1 := Lemmas.In.recv_eq E.inn hI rs hb st hs
      have h2 : recv E (.inn st) (.data (batch rs)) = .ok (.inn ⟨without (report E.inn rs st.dm st.sys).2.1 (gone rs), [],
          (report E.inn rs st.dm st.sys).2.2, st.out ++ (report E.inn rs st.dm st.sys).1⟩,
          (st.out ++ (report E.inn rs st.dm st.sys).1).drop st.out.length, .pending) := by
        simp only [recv, h1]; rfl
      refine ⟨_, _, _, h2, ?_, fun _ h => h⟩
      intro e he
      have := Lemmas.In.report_sound E.inn hI _ rs (Nat.le_refl _) st.dm st.sys hs
      exact this e ((List.mem_filter.1 he).1)
  | fa st =>
    rcases hr with ⟨e, rfl⟩ | ⟨rs, hb, h4, rfl⟩
    · cases e <;> exact ⟨_, _, _, rfl, hs, fun _ h => h⟩
    · obtain ⟨st', res, h1, _, _⟩ := Lemmas.Fa.recv_safe E.fa hF rs hb h4 st hs
      refine ⟨.fa st', _, res, by simp only [recv, h1]; rfl, ?_, fun _ h => h⟩
      have := fa_loop_buf _ _ _ _ _ _ _ h1
      show st'.buf.length = 4096
      rw [this]
      have hs : st.buf.length = 4096 := hs
      simp only [List.length_append, List.length_drop, hs]
      have := hb.fits
      omega

theorem kernelRead_kind {σ} {b b' : Back σ} {sec : Bool} {r : In.ReadAns} (h : kindOk sec b) (h' : kindOk sec b')
    (hr : KernelRead Roomy b r) : KernelRead Roomy b' r := by
  cases b <;> cases b' <;> simp only [kindOk] at h h' <;> first | exact hr | (subst h; cases h')

theorem recvAll_sane {σ} (E : Env σ) (hF : Fa.Sound E.fa) (hI : SoundSys E.inn) (sec : Bool) :
    ∀ (ws : List Waked) (b : Back σ), Sane b → kindOk sec b → (∀ r, Waked.ke r ∈ ws → KernelRead Roomy b r) →
    ∃ b' items, recvAll E b ws = .ok (b', items) ∧ Sane b' := by
  intro ws
  induction ws with
  | nil => intro b hs _ _; exact ⟨b, [], rfl, hs⟩
  | cons x ws ih =>
    intro b hs hk hr
    have hr' : ∀ r, Waked.ke r ∈ ws → KernelRead Roomy b r := fun r h => hr r (List.mem_cons_of_mem _ h)
    cases x with
    | il =>
      obtain ⟨b', is, h1, h2⟩ := ih b hs hk hr'
      exact ⟨b', .il :: is, by simp only [recvAll, h1]; rfl, h2⟩
    | unknown =>
      obtain ⟨b', is, h1, h2⟩ := ih b hs hk hr'
      exact ⟨b', .unknown :: is, by simp only [recvAll, h1]; rfl, h2⟩
    | ke r =>
      obtain ⟨b1, evs, res, h1, h2, h3⟩ := recv_sane E hF hI b r hs (hr r (by simp))
      obtain ⟨b', is, h4, h5⟩ := ih b1 h2 (h3 _ hk) (fun r h => kernelRead_kind hk (h3 _ hk) (hr' r h))
      exact ⟨b', .ke evs res :: is, by simp only [recvAll, h1, Outcome.bind_ok, h4]; rfl, h5⟩

theorem cstep_sane {σ} {cfg : Cfg} {E : Env σ} (hF : Fa.Sound E.fa) (hI : SoundSys E.inn) {c : CS σ} (a : CAct σ)
    (hA : Acc cfg c.life.w (callbacks c.life.log) c.back) (hs : Sane c.back) (hk : KernelStep Roomy c a) :
    ∃ o, cstep cfg E c a = .ok o ∧ ∀ c', o = some c' → Sane c'.back := by
  cases a with
  | life a =>
    simp only [cstep]
    split
    · refine ⟨_, rfl, ?_⟩
      intro c' h
      cases hl : step cfg c.life a with
      | none => rw [hl] at h; cases h
      | some l => rw [hl] at h; cases h; exact hs
    · exact ⟨_, rfl, fun _ h => by cases h⟩
  | world w => exact ⟨_, rfl, fun c' h => by cases h; exact sane_setWorld _ _ hs⟩
  | openBack a =>
    simp only [cstep]
    split
    · exact ⟨_, rfl, fun _ h => by cases h⟩
    · split
      · refine ⟨_, rfl, ?_⟩
        intro c' h
        rw [Option.map_eq_some_iff] at h
        obtain ⟨l, _, rfl⟩ := h
        exact sane_openFa _ _ _
      · refine ⟨_, rfl, ?_⟩
        intro c' h
        rw [Option.map_eq_some_iff] at h
        obtain ⟨l, _, rfl⟩ := h
        exact sane_openIn _ hI _ _
      · exact ⟨_, rfl, fun _ h => by cases h⟩
  | wake ws =>
    simp only [cstep]
    split
    · rename_i sec hw
      rw [hw] at hA
      obtain ⟨b', items, h1, h2⟩ := recvAll_sane E hF hI sec ws c.back hs hA.2 hk
      refine ⟨_, by simp only [h1, Outcome.bind_ok]; rfl, ?_⟩
      intro c' h
      rw [Option.map_eq_some_iff] at h
      obtain ⟨l, _, rfl⟩ := h
      exact h2
    · exact ⟨_, rfl, fun _ h => by cases h⟩

theorem crun_sane {σ} {cfg : Cfg} {E : Env σ} (hF : Fa.Sound E.fa) (hI : SoundSys E.inn) :
    ∀ (acts : List (CAct σ)) (c : CS σ), Acc cfg c.life.w (callbacks c.life.log) c.back → Sane c.back →
    KernelRun Roomy cfg E c acts → ∃ o, crun cfg E c acts = .ok o := by
  intro acts
  induction acts with
  | nil => intro c _ _ _; exact ⟨_, rfl⟩
  | cons a as ih =>
    intro c hA hs hk
    obtain ⟨o, h1, h2⟩ := cstep_sane hF hI a hA hs hk.1
    simp only [crun, h1, Outcome.bind_ok]
    cases o with
    | none => exact ⟨_, rfl⟩
    | some c' => exact ih c' (cstep_ok hA h1).1 (h2 c' rfl) (hk.2 c' h1)

theorem kernelRun_append {σ} {lim : List FRec → Prop} {cfg : Cfg} {E : Env σ} : ∀ (pre post : List (CAct σ)) (c c1 : CS σ),
    KernelRun lim cfg E c pre → crun cfg E c pre = .ok (some c1) → KernelRun lim cfg E c1 post →
    KernelRun lim cfg E c (pre ++ post) := by
  intro pre
  induction pre with
  | nil => intro post c c1 _ h1 h2; cases h1; exact h2
  | cons a as ih =>
    intro post c c1 h0 h1 h2
    refine ⟨h0.1, ?_⟩
    intro c' hs
    simp only [crun, hs, Outcome.bind_ok] at h1
    exact ih post c' c1 (h0.2 c' hs) h1 h2

theorem kernelRun_nowake {σ} {lim : List FRec → Prop} {cfg : Cfg} {E : Env σ} : ∀ (acts : List (CAct σ)) (c : CS σ),
    (∀ a ∈ acts, ∀ ws, a ≠ .wake ws) → KernelRun lim cfg E c acts := by
  intro acts
  induction acts with
  | nil => intro c _; trivial
  | cons a as ih =>
    intro c h
    refine ⟨?_, fun c' _ => ih c' (fun x hx => h x (List.mem_cons_of_mem _ hx))⟩
    cases a with
    | wake ws => exact absurd rfl (h _ (by simp) ws)
    | _ => trivial

/-! ### Whole histories with inotify -/
open Verif.Spec.Whole Verif.Model.Ker

/-- Nobody watches anything yet. -/
def Fresh (w : World) : Prop := ∃ ds lim, w.k = { dirs := ds, limit := lim }

theorem fresh_apply (ds : List Str) (lim : Option Nat) (o : Op) :
    ∃ ds', apply { dirs := ds, limit := lim } o = ({ dirs := ds', limit := lim } : K) := by
  have hw : ∀ (ds : List Str) (d : Str), wdOf ({ dirs := ds, limit := lim } : K) d = none := by intro ds d; rfl
  have hn : ∀ (ds : List Str) (d n : Str) (k : Kind) (od : Bool),
      notify ({ dirs := ds, limit := lim } : K) d n k od = { dirs := ds, limit := lim } := by
    intro ds d n k od; rfl
  have hb : ∀ (ds : List Str) (p : Str), bury ({ dirs := ds, limit := lim } : K) p = { dirs := ds.filter (· != p), limit := lim } := by
    intro ds p; rfl
  have he : ∀ (ds : List Str) (wd : Int), evictWd ({ dirs := ds, limit := lim } : K) wd = { dirs := ds, limit := lim } := by
    intro ds wd; rfl
  cases o <;> simp only [apply, hn, hb, he, hw]
  all_goals repeat' split
  all_goals exact ⟨_, rfl⟩

/-- Between the two attempts to open a back end. -/
def Falling : WPc → Prop
  | .aEvs sec evs r items => sec = false ∧ evs = [] ∧ r = .eFanotify ∧ items = []
  | .aItems sec r items => sec = false ∧ r = .eFanotify ∧ items = []
  | .aDone sec r => sec = false ∧ r = .eFanotify
  | .aOpen sec => sec = true
  | _ => False

/-- Before opening. -/
def Early : WPc → Prop
  | .start | .stLoad | .stRead | .stStore _ | .live _ => True
  | .aOpen sec => sec = false
  | .die false _ => True
  | .setFut _ | .finished => True
  | .inCb n | .selfClose _ n => Early n
  | _ => False

/-- After opening inotify. -/
def Late : WPc → Prop
  | .aEvs sec _ _ _ | .aItems sec _ _ | .aWait sec | .aDone sec _ => sec = true
  | .die _ _ | .setFut _ | .finished => True
  | .inCb n | .selfClose _ n => Late n
  | _ => False

/-- The state of a history; `g` if no entry moves from one directory to another. -/
def HSt (g : Bool) (c : CS World) : Prop :=
  match c.back with
  | .none w => Fresh w ∧ Early c.life.w
  | .fa st => Fresh st.sys ∧ Falling c.life.w
  | .inn st => (∃ L0, Lemmas.Ker.HInv g g L0 st) ∧ Late c.life.w

theorem early_step {cfg : Cfg} {s s' : Life.St} {a : Act} (hp : plainAct a = true)
    (h : Early s.w) (hs : step cfg s a = some s') : Early s'.w := by
  cases a with
  | w =>
    simp only [step, wStep] at hs
    split at hs
    · rename_i hw; simp at hs; subst hs; simp only; split <;> trivial
    · rename_i hw; simp at hs; subst hs; simp only; split <;> trivial
    · rename_i hw; simp at hs; subst hs; trivial
    · rename_i hw; simp at hs; subst hs; trivial
    · rename_i pre hw; simp at hs; subst hs; cases pre <;> simp [callCb, Early]
    · rename_i hw; rw [hw] at h; cases h
    · rename_i hw; rw [hw] at h; cases h
    · rename_i hw; rw [hw] at h; cases h
    · rename_i hw; rw [hw] at h; cases h
    · rename_i hw; rw [hw] at h; cases h
    · rename_i hw; rw [hw] at h; cases h
    · rename_i hw; rw [hw] at h; cases h
    · rename_i pre post hw; simp at hs; subst hs; trivial
    · rename_i hw; simp at hs; subst hs; trivial
    · rename_i c next hw
      rw [hw] at h
      split at hs
      · simp at hs
      · simp at hs; subst hs; exact h
      · simp at hs; subst hs; exact h
    · simp at hs
  | wOpen evs r => cases hp
  | wWake items => cases hp
  | wWakeErr =>
    simp only [step] at hs
    split at hs <;> try simp at hs
    rename_i sec hw
    rw [hw] at h; cases h
  | cbReturn =>
    simp only [step] at hs
    split at hs <;> try simp at hs
    rename_i n hw
    rw [hw] at h
    subst hs; exact h
  | cbClose =>
    simp only [step] at hs
    split at hs <;> try simp at hs
    rename_i n hw
    rw [hw] at h
    subst hs; exact h
  | o =>
    simp only [step, oStep] at hs
    split at hs
    · split at hs
      · simp at hs
      · rename_i hc; simp at hs; subst hs; rw [← (closeStep_frame hc).2.1] at h; exact h
      · rename_i hc; simp at hs; subst hs; rw [← (closeStep_frame hc).2.1] at h; exact h
    · split at hs
      · simp at hs
      · rename_i hc; simp at hs; subst hs; rw [← (closeStep_frame hc).2.1] at h; exact h
      · rename_i hc; simp at hs; subst hs; rw [← (closeStep_frame hc).2.1] at h; exact h
    · split at hs
      · split at hs <;> simp at hs; subst hs; exact h
      · simp at hs; subst hs; exact h
    · simp at hs; subst hs; exact h
    · simp at hs
  | oClose =>
    simp only [step] at hs
    split at hs <;> simp at hs
    subst hs; exact h
  | oDtor =>
    simp only [step] at hs
    split at hs <;> simp at hs
    subst hs; exact h

theorem falling_step {cfg : Cfg} {s s' : Life.St} {a : Act} (hp : plainAct a = true)
    (h : Falling s.w) (hs : step cfg s a = some s') : Falling s'.w := by
  cases a with
  | w =>
    simp only [step, wStep] at hs
    split at hs
    · rename_i hw; rw [hw] at h; cases h
    · rename_i hw; rw [hw] at h; cases h
    · rename_i hw; rw [hw] at h; cases h
    · rename_i hw; rw [hw] at h; cases h
    · rename_i hw; rw [hw] at h; cases h
    · rename_i hw; rw [hw] at h; simp at hs; subst hs; exact ⟨h.1, h.2.2.1, h.2.2.2⟩
    · rename_i hw; rw [hw] at h; cases h.2.1
    · rename_i hw; rw [hw] at h; simp at hs; subst hs
      have := h.2.1; subst this
      exact ⟨h.1, rfl⟩
    · rename_i hw; rw [hw] at h; cases h.2.2
    · rename_i hw; rw [hw] at h; cases h.2.2
    · rename_i hw; rw [hw] at h; cases h.2.2
    · rename_i sec r hw; rw [hw] at h
      obtain ⟨rfl, rfl⟩ := h
      simp at hs; subst hs; rfl
    · rename_i hw; rw [hw] at h; cases h
    · rename_i hw; rw [hw] at h; cases h
    · rename_i hw; rw [hw] at h; cases h
    · simp at hs
  | wOpen evs r => cases hp
  | wWake items => cases hp
  | wWakeErr =>
    simp only [step] at hs
    split at hs <;> try simp at hs
    rename_i sec hw
    rw [hw] at h; cases h
  | cbReturn =>
    simp only [step] at hs
    split at hs <;> try simp at hs
    rename_i n hw
    rw [hw] at h; cases h
  | cbClose =>
    simp only [step] at hs
    split at hs <;> try simp at hs
    rename_i n hw
    rw [hw] at h; cases h
  | o =>
    simp only [step, oStep] at hs
    split at hs
    · split at hs
      · simp at hs
      · rename_i hc; simp at hs; subst hs; rw [← (closeStep_frame hc).2.1] at h; exact h
      · rename_i hc; simp at hs; subst hs; rw [← (closeStep_frame hc).2.1] at h; exact h
    · split at hs
      · simp at hs
      · rename_i hc; simp at hs; subst hs; rw [← (closeStep_frame hc).2.1] at h; exact h
      · rename_i hc; simp at hs; subst hs; rw [← (closeStep_frame hc).2.1] at h; exact h
    · split at hs
      · split at hs <;> simp at hs; subst hs; exact h
      · simp at hs; subst hs; exact h
    · simp at hs; subst hs; exact h
    · simp at hs
  | oClose =>
    simp only [step] at hs
    split at hs <;> simp at hs
    subst hs; exact h
  | oDtor =>
    simp only [step] at hs
    split at hs <;> simp at hs
    subst hs; exact h

theorem late_step {cfg : Cfg} {s s' : Life.St} {a : Act} (hp : plainAct a = true)
    (h : Late s.w) (hs : step cfg s a = some s') : Late s'.w := by
  cases a with
  | w =>
    simp only [step, wStep] at hs
    split at hs
    · rename_i hw; rw [hw] at h; cases h
    · rename_i hw; rw [hw] at h; cases h
    · rename_i hw; rw [hw] at h; cases h
    · rename_i hw; rw [hw] at h; cases h
    · rename_i hw; rw [hw] at h; cases h
    · rename_i hw; rw [hw] at h; simp at hs; subst hs; exact h
    · rename_i hw; rw [hw] at h; simp at hs; subst hs; exact h
    · rename_i hw; rw [hw] at h; simp at hs; subst hs; simp only; split <;> exact h
    · rename_i hw; rw [hw] at h; simp at hs; subst hs; exact h
    · rename_i hw; rw [hw] at h; simp at hs; subst hs; exact h
    · rename_i hw; rw [hw] at h; simp at hs; subst hs; exact h
    · rename_i sec r hw; rw [hw] at h
      have h : sec = true := h
      subst h
      simp only [Bool.not_true, Bool.false_and, Bool.false_eq_true, if_false] at hs
      split at hs <;> (simp at hs; subst hs; trivial)
    · rename_i hw; simp at hs; subst hs; trivial
    · rename_i hw; simp at hs; subst hs; trivial
    · rename_i c next hw
      rw [hw] at h
      split at hs
      · simp at hs
      · simp at hs; subst hs; exact h
      · simp at hs; subst hs; exact h
    · simp at hs
  | wOpen evs r => cases hp
  | wWake items => cases hp
  | wWakeErr =>
    simp only [step] at hs
    split at hs <;> try simp at hs
    rename_i sec hw
    rw [hw] at h; subst hs; exact h
  | cbReturn =>
    simp only [step] at hs
    split at hs <;> try simp at hs
    rename_i n hw
    rw [hw] at h
    subst hs; exact h
  | cbClose =>
    simp only [step] at hs
    split at hs <;> try simp at hs
    rename_i n hw
    rw [hw] at h
    subst hs; exact h
  | o =>
    simp only [step, oStep] at hs
    split at hs
    · split at hs
      · simp at hs
      · rename_i hc; simp at hs; subst hs; rw [← (closeStep_frame hc).2.1] at h; exact h
      · rename_i hc; simp at hs; subst hs; rw [← (closeStep_frame hc).2.1] at h; exact h
    · split at hs
      · simp at hs
      · rename_i hc; simp at hs; subst hs; rw [← (closeStep_frame hc).2.1] at h; exact h
      · rename_i hc; simp at hs; subst hs; rw [← (closeStep_frame hc).2.1] at h; exact h
    · split at hs
      · split at hs <;> simp at hs; subst hs; exact h
      · simp at hs; subst hs; exact h
    · simp at hs; subst hs; exact h
    · simp at hs
  | oClose =>
    simp only [step] at hs
    split at hs <;> simp at hs
    subst hs; exact h
  | oDtor =>
    simp only [step] at hs
    split at hs <;> simp at hs
    subst hs; exact h

theorem recv_read {g L0} {st : In.St World} (h : Lemmas.Ker.HInv g g L0 st) (n : Nat) (sched : List (List Op × Bool))
    (hf : (bytesOf st.sys n).length ≤ 4096)
    (h1 : g = true → Ker.allSched Ker.local sched = true) (h2 : g = true → Ker.allSched Ker.keepsDirs sched = true) :
    ∃ st' L1, In.doEvRecv Model.Ker.sys (.data (bytesOf st.sys n)) { st with sys := taken st.sys n sched } = .ok (st', .pending) ∧
      Lemmas.Ker.HInv g g L1 st' := by
  obtain ⟨st', L1, h3, h4⟩ := Lemmas.Ker.hinv_exec h (.read n sched) h1 h2
  simp only [exec] at h3
  rw [if_pos (show (batch (st.sys.k.queue.take n)).length ≤ In.bufLen from hf)] at h3
  obtain ⟨⟨st1, r⟩, h5, h6⟩ := bind_ok_inv h3
  have hb : Batch (st.sys.k.queue.take n) :=
    ⟨fun r hr => h.inv.wf r (List.mem_of_mem_take hr), hf, Lemmas.Ker.linked_ordered (h.inv.linked.sublist (List.take_sublist _ _))⟩
  have hr := Lemmas.In.recv_eq Model.Ker.sys Lemmas.Ker.sys_sound (st.sys.k.queue.take n) hb
    { st with sys := taken st.sys n sched } h.sound
  have h5' : In.doEvRecv Model.Ker.sys (.data (bytesOf st.sys n)) { st with sys := taken st.sys n sched } = .ok (st1, r) := h5
  have hp : r = .pending := by
    have := hr.symm.trans h5'
    injection this with this
    injection this with _ this
    exact this.symm
  subst hp
  refine ⟨st', L1, ?_, h4⟩
  simp only at h6
  rw [if_pos (by decide)] at h6
  cases h6
  exact h5'

theorem recvAll_read {g : Bool} {E : Env World} (hE : E.inn = Model.Ker.sys) {L0} {st : In.St World} (h : Lemmas.Ker.HInv g g L0 st)
    (stop : Option Bool) (n : Nat) (sched : List (List Op × Bool)) (hf : (bytesOf st.sys n).length ≤ 4096)
    (h1 : g = true → Ker.allSched Ker.local sched = true) (h2 : g = true → Ker.allSched Ker.keepsDirs sched = true) :
    ∃ st' L1 items, recvAll E (.inn { st with sys := taken st.sys n sched }) (entries stop (bytesOf st.sys n)) = .ok (.inn st', items) ∧
      Lemmas.Ker.HInv g g L1 st' := by
  obtain ⟨st', L1, h3, h4⟩ := recv_read h n sched hf h1 h2
  have hr : recv E (.inn { st with sys := taken st.sys n sched }) (.data (bytesOf st.sys n)) =
      .ok (.inn st', st'.out.drop st.out.length, .pending) := by
    simp only [recv, hE, h3]; rfl
  cases stop with
  | none => exact ⟨st', L1, _, by simp only [entries, recvAll, hr]; rfl, h4⟩
  | some b => cases b <;> exact ⟨st', L1, _, by simp only [entries, recvAll, hr]; rfl, h4⟩

theorem wakeWith_ok {g : Bool} {cfg : Cfg} {E : Env World} (hE : E.inn = Model.Ker.sys) {c : CS World}
    (hA : Acc cfg c.life.w (callbacks c.life.log) c.back) (hH : HSt g c) (stop : Option Bool) (n : Nat)
    (sched : List (List Op × Bool))
    (h1 : g = true → Ker.allSched Ker.local sched = true) (h2 : g = true → Ker.allSched Ker.keepsDirs sched = true) :
    ∃ o, wakeWith cfg E c stop n sched = .ok o ∧ ∀ c', o = some c' → HSt g c' ∧
      Acc cfg c'.life.w (callbacks c'.life.log) c'.back := by
  unfold wakeWith
  split
  · rename_i hf
    have hA' : Acc cfg c.life.w (callbacks c.life.log) (c.back.setWorld (taken c.back.world n sched)) := acc_world _ _ _ _ _ hA
    by_cases hw : ∃ sec, c.life.w = .aWait sec
    · obtain ⟨sec, hw⟩ := hw
      have hk : kindOk sec c.back := by rw [hw] at hA; exact hA.2
      obtain ⟨st, hb⟩ : ∃ st, c.back = .inn st := by
        cases hb : c.back with
        | none w => rw [hb] at hk; cases hk
        | fa st => simp only [HSt, hb, hw] at hH; cases hH.2
        | inn st => exact ⟨st, rfl⟩
      have hL : ∃ L0, Lemmas.Ker.HInv g g L0 st := by simp only [HSt, hb] at hH; exact hH.1
      have hS : sec = true := by simp only [HSt, hb, hw] at hH; exact hH.2
      obtain ⟨L0, hL⟩ := hL
      simp only [hb, Back.world] at hf
      obtain ⟨st', L1, items, h3, h4⟩ := recvAll_read hE hL stop n sched hf h1 h2
      have hstep : cstep cfg E { c with back := c.back.setWorld (taken c.back.world n sched) }
          (.wake (entries stop (bytesOf c.back.world n))) =
          .ok ((step cfg c.life (.wWake items)).map fun l => ⟨l, .inn st'⟩) := by
        simp only [cstep, hw, hb, Back.setWorld, Back.world, h3]; rfl
      refine ⟨_, hstep, ?_⟩
      intro c' h
      rw [h] at hstep
      refine ⟨?_, (cstep_ok (c := { c with back := c.back.setWorld (taken c.back.world n sched) }) hA' hstep).1⟩
      rw [Option.map_eq_some_iff] at h
      obtain ⟨l, hl, rfl⟩ := h
      refine ⟨⟨L1, h4⟩, ?_⟩
      simp only [step, hw] at hl
      split at hl
      · cases hl; exact hS
      · cases hl
    · refine ⟨none, ?_, fun _ h => by cases h⟩
      simp only [cstep]
      split
      · rename_i sec h; exact absurd ⟨sec, h⟩ hw
      · rfl
  · exact ⟨none, rfl, fun _ h => by cases h⟩

theorem hstep_ok {g : Bool} {cfg : Cfg} {E : Env World} (hE : E.inn = Model.Ker.sys) {c : CS World} (a : HStep)
    (hA : Acc cfg c.life.w (callbacks c.life.log) c.back) (hH : HSt g c) (hc : g = true → Calm a = true) :
    ∃ o, hstep cfg E c a = .ok o ∧ ∀ c', o = some c' → HSt g c' ∧
      Acc cfg c'.life.w (callbacks c'.life.log) c'.back := by
  cases a with
  | thread a =>
    simp only [hstep, cstep]
    split
    · rename_i hp
      refine ⟨_, rfl, ?_⟩
      intro c' h
      rw [Option.map_eq_some_iff] at h
      obtain ⟨l, hl, rfl⟩ := h
      refine ⟨?_, acc_life hp hA hl⟩
      cases hb : c.back with
      | none w => simp only [HSt, hb] at hH ⊢; exact ⟨hH.1, early_step hp hH.2 hl⟩
      | fa st => simp only [HSt, hb] at hH ⊢; exact ⟨hH.1, falling_step hp hH.2 hl⟩
      | inn st => simp only [HSt, hb] at hH ⊢; exact ⟨hH.1, late_step hp hH.2 hl⟩
    · exact ⟨none, rfl, fun _ h => by cases h⟩
  | noFanotify root =>
    simp only [hstep]
    split
    · rename_i hw
      obtain ⟨w, hb, hf⟩ : ∃ w, c.back = .none w ∧ Fresh w := by
        cases hb : c.back with
        | none w => simp only [HSt, hb] at hH; exact ⟨w, rfl, hH.1⟩
        | fa st => simp only [HSt, hb, hw] at hH; cases hH.2
        | inn st => simp only [HSt, hb, hw] at hH; cases hH.2
      have ho : openFa E.fa ⟨root, -1, [], ⟨-1, false, false⟩⟩ c.back.world =
          (⟨List.replicate Model.Fa.bufLen 0, c.back.world, []⟩, .eFanotify) := by
        cases root <;> rfl
      have hstep : cstep cfg E c (.openBack ⟨root, -1, [], ⟨-1, false, false⟩⟩) =
          .ok ((step cfg c.life (.wOpen [] .eFanotify)).map fun l =>
            ⟨l, .fa ⟨List.replicate Model.Fa.bufLen 0, c.back.world, []⟩⟩) := by
        simp only [cstep, Bool.false_and, Bool.false_eq_true, if_false, hw, ho]; rfl
      refine ⟨_, hstep, ?_⟩
      intro c' h
      rw [h] at hstep
      refine ⟨?_, (cstep_ok hA hstep).1⟩
      rw [Option.map_eq_some_iff] at h
      obtain ⟨l, hl, rfl⟩ := h
      simp only [step, hw] at hl
      split at hl
      · cases hl
        refine ⟨?_, rfl, rfl, rfl, rfl⟩
        show Fresh c.back.world
        rw [hb]; exact hf
      · cases hl
    · exact ⟨none, rfl, fun _ h => by cases h⟩
  | openInotify a sched =>
    simp only [Calm, Bool.and_eq_true] at hc
    simp only [hstep]
    split
    · rename_i hw
      obtain ⟨st, hb, ds, lim, hf⟩ : ∃ st, c.back = .fa st ∧ Fresh st.sys := by
        cases hb : c.back with
        | none w => simp only [HSt, hb, hw] at hH; cases hH.2
        | fa st => simp only [HSt, hb] at hH; exact ⟨st, rfl, hH.1⟩
        | inn st => simp only [HSt, hb, hw] at hH; cases hH.2
      have hA' : Acc cfg c.life.w (callbacks c.life.log) (c.back.setWorld { c.back.world with sched := sched }) :=
        acc_world _ _ _ _ _ hA
      have hwd : (c.back.setWorld { c.back.world with sched := sched }).world = { k := { dirs := ds, limit := lim }, sched := sched } := by
        rw [hb]; simp only [Back.setWorld, Back.world, hf]
      obtain ⟨o, hstep⟩ : ∃ o, cstep cfg E { c with back := c.back.setWorld { c.back.world with sched := sched } } (.openBack a) = .ok o := by
        simp only [cstep, hw]
        split <;> exact ⟨_, rfl⟩
      refine ⟨o, hstep, ?_⟩
      intro c' h
      subst h
      refine ⟨?_, (cstep_ok (c := { c with back := c.back.setWorld { c.back.world with sched := sched } }) hA' hstep).1⟩
      simp only [cstep, hw] at hstep
      split at hstep
      · cases hstep
      · injection hstep with hstep
        rw [Option.map_eq_some_iff] at hstep
        obtain ⟨l, hl, rfl⟩ := hstep
        have hL : Late l.w := by
          simp only [step, hw] at hl
          split at hl
          · cases hl; rfl
          · cases hl
        refine ⟨?_, hL⟩
        rw [hwd, hE]
        unfold openIn
        simp only
        split
        · exact ⟨[], (Lemmas.Ker.hinv_openLim lim ds [] sched (fun hg => (hc hg).1) (fun hg => (hc hg).2)).1⟩
        · exact ⟨[], (Lemmas.Ker.hinv_openLim lim ds a.dirs sched (fun hg => (hc hg).1) (fun hg => (hc hg).2)).1⟩
    · exact ⟨none, rfl, fun _ h => by cases h⟩
  | op o =>
    simp only [Calm, Bool.and_eq_true] at hc
    refine ⟨_, rfl, ?_⟩
    intro c' h
    cases h
    refine ⟨?_, acc_world _ _ _ _ _ hA⟩
    cases hb : c.back with
    | none w =>
      simp only [HSt, hb, Back.setWorld, Back.world] at hH ⊢
      obtain ⟨⟨ds, lim, hf⟩, h2⟩ := hH
      obtain ⟨ds', h3⟩ := fresh_apply ds lim o
      exact ⟨⟨ds', lim, by simp only [hf, h3]⟩, h2⟩
    | fa st =>
      simp only [HSt, hb, Back.setWorld, Back.world] at hH ⊢
      obtain ⟨⟨ds, lim, hf⟩, h2⟩ := hH
      obtain ⟨ds', h3⟩ := fresh_apply ds lim o
      exact ⟨⟨ds', lim, by simp only [hf, h3]⟩, h2⟩
    | inn st =>
      simp only [HSt, hb, Back.setWorld, Back.world] at hH ⊢
      obtain ⟨⟨L0, hf⟩, h2⟩ := hH
      obtain ⟨st', L1, h3, h4⟩ := Lemmas.Ker.hinv_exec hf (.op o) (fun hg => (hc hg).1) (fun hg => (hc hg).2)
      cases h3
      exact ⟨⟨L1, h4⟩, h2⟩
  | wakeStop =>
    simp only [hstep, cstep]
    split
    · rename_i sec hw
      have hstep : cstep cfg E c (.wake [.il]) = .ok ((step cfg c.life (.wWake [.il])).map fun l => ⟨l, c.back⟩) := by
        simp only [cstep, hw]; rfl
      refine ⟨_, rfl, ?_⟩
      intro c' h
      rw [h] at hstep
      refine ⟨?_, (cstep_ok hA hstep).1⟩
      rw [Option.map_eq_some_iff] at h
      obtain ⟨l, hl, rfl⟩ := h
      cases hb : c.back with
      | none w => simp only [HSt, hb, hw] at hH; cases hH.2
      | fa st => simp only [HSt, hb, hw] at hH; cases hH.2
      | inn st =>
        simp only [HSt, hb, hw] at hH ⊢
        refine ⟨hH.1, ?_⟩
        simp only [step, hw] at hl
        split at hl
        · cases hl; exact hH.2
        · cases hl
    · exact ⟨none, rfl, fun _ h => by cases h⟩
  | wakeRead n sched =>
    simp only [Calm, Bool.and_eq_true] at hc
    exact wakeWith_ok hE hA hH none n sched (fun hg => (hc hg).1) (fun hg => (hc hg).2)
  | wakeBoth first n sched =>
    simp only [Calm, Bool.and_eq_true] at hc
    exact wakeWith_ok hE hA hH (some first) n sched (fun hg => (hc hg).1) (fun hg => (hc hg).2)

theorem hrun_ok {g : Bool} {cfg : Cfg} {E : Env World} (hE : E.inn = Model.Ker.sys) :
    ∀ (hs : List HStep) (c : CS World), Acc cfg c.life.w (callbacks c.life.log) c.back → HSt g c →
    (g = true → hs.all Calm = true) → ∃ o, hrun cfg E c hs = .ok o ∧ ∀ c', o = some c' → HSt g c' ∧
      Acc cfg c'.life.w (callbacks c'.life.log) c'.back := by
  intro hs
  induction hs with
  | nil => intro c h1 h2 _; exact ⟨_, rfl, fun c' h => by cases h; exact ⟨h2, h1⟩⟩
  | cons a as ih =>
    intro c h1 h2 h3
    simp only [List.all_cons, Bool.and_eq_true] at h3
    obtain ⟨o, h4, h5⟩ := hstep_ok hE a h1 h2 (fun hg => (h3 hg).1)
    cases o with
    | none => exact ⟨none, by simp only [hrun, h4, Outcome.bind_ok]; rfl, fun _ h => by cases h⟩
    | some c1 =>
      obtain ⟨h6, h7⟩ := h5 c1 rfl
      obtain ⟨o, h8, h9⟩ := ih c1 h7 h6 (fun hg => (h3 hg).2)
      exact ⟨o, by simp only [hrun, h4, Outcome.bind_ok, h8], h9⟩

/-- A history is a schedule of the general model. -/
theorem hrun_reach {cfg : Cfg} {E : Env World} {hs : List HStep} {c c' : CS World} (h : CReach cfg E c)
    (hr : hrun cfg E c hs = .ok (some c')) : CReach cfg E c' := by
  have one : ∀ (c c' : CS World) (a : CAct World), CReach cfg E c → cstep cfg E c a = .ok (some c') → CReach cfg E c' := by
    intro c c' a ⟨w, acts, h⟩ hs
    refine ⟨w, acts ++ [a], ?_⟩
    have : ∀ (acts : List (CAct World)) (c0 : CS World), crun cfg E c0 acts = .ok (some c) →
        crun cfg E c0 (acts ++ [a]) = .ok (some c') := by
      intro acts
      induction acts with
      | nil => intro c0 h; cases h; simp only [List.nil_append, crun, hs, Outcome.bind_ok]
      | cons x xs ih =>
        intro c0 h
        simp only [crun] at h
        obtain ⟨o, h1, h2⟩ := bind_ok_inv h
        cases o with
        | none => cases h2
        | some c1 => simp only [List.cons_append, crun, h1, Outcome.bind_ok]; exact ih c1 h2
    exact this acts _ h
  have wd : ∀ (c : CS World) (w : World), CReach cfg E c → CReach cfg E { c with back := c.back.setWorld w } :=
    fun c w h => one c _ (.world w) h rfl
  have ww : ∀ (c c' : CS World) stop n sched, CReach cfg E c → wakeWith cfg E c stop n sched = .ok (some c') → CReach cfg E c' := by
    intro c c' stop n sched hc h
    unfold wakeWith at h
    split at h
    · exact one _ _ _ (wd c _ hc) h
    · cases h
  induction hs generalizing c with
  | nil => cases hr; exact h
  | cons a as ih =>
    simp only [hrun] at hr
    obtain ⟨o, h1, h2⟩ := bind_ok_inv hr
    cases o with
    | none => cases h2
    | some c1 =>
      refine ih ?_ h2
      cases a with
      | thread a => simp only [hstep] at h1; exact one _ _ _ h h1
      | noFanotify root =>
        simp only [hstep] at h1
        split at h1
        · exact one _ _ _ h h1
        · cases h1
      | openInotify a sched =>
        simp only [hstep] at h1
        split at h1
        · exact one _ _ _ (wd c _ h) h1
        · cases h1
      | op o => simp only [hstep] at h1; exact one _ _ _ h h1
      | wakeStop => simp only [hstep] at h1; exact one _ _ _ h h1
      | wakeRead n sched => exact ww _ _ _ _ _ h h1
      | wakeBoth f n sched => exact ww _ _ _ _ _ h h1

end Verif.Lemmas.Ad
