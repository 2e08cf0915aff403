import Verif.Lemmas.Program
/-! Programs with which nothing goes wrong. -/
namespace Verif.Lemmas.Prog
open Verif Verif.Model Verif.Model.Life Verif.Model.Prog Verif.Spec Verif.Spec.Prog Verif.Lemmas.Life Verif.Lemmas.Handle

variable {fmt : Event → Str} {cfg : Cfg} {p p' : P}

/-- The same for steps of the library. -/
def HealthyL : Act → Prop
  | .wOpen _ r => r = .pending ∨ r = .eFanotify
  | .wWake items => ∀ i ∈ items, i = .il ∨ ∃ evs r, i = .ke evs r ∧ Mild r
  | .wWakeErr => False
  | _ => True

def GoodR (sec : Bool) (r : Result) : Prop := r.isError = false ∨ (sec = false ∧ r = .eFanotify)
def GoodItem (i : Item) : Prop := i = .il ∨ ∃ evs r, i = .ke evs r ∧ Mild r

def GoodPc : WPc → Prop
  | .aEvs sec _ r items => GoodR sec r ∧ ∀ i ∈ items, GoodItem i
  | .aItems sec r items => GoodR sec r ∧ ∀ i ∈ items, GoodItem i
  | .aDone sec r => GoodR sec r
  | .inCb n => GoodPc n
  | .selfClose _ n => GoodPc n
  | _ => True

def NoOther (l : List Ev) : Prop := ∀ e ∈ l, e.effect = .other → ¬ IsErrorMsg e

/-- What back ends hand over is no error. -/
def GoodEvs : WPc → Prop
  | .aEvs _ evs _ items => (∀ e ∈ evs, isMid e = true) ∧ itemsOk items = true
  | .aItems _ _ items => itemsOk items = true
  | .inCb n => GoodEvs n
  | .selfClose _ n => GoodEvs n
  | _ => True

theorem mild_good {sec : Bool} {r : Result} (h : Mild r) : GoodR sec r := by
  left
  rcases h with rfl | h
  · rfl
  · cases r <;> first | rfl | (revert h; decide)

theorem isMid_ne {e : Ev} (h : isMid e = true) : ¬ IsErrorMsg e := by
  intro ⟨h1, h2⟩
  simp [isMid, h1, h2] at h

def HInvL (s : St) : Prop := GoodPc s.w ∧ GoodEvs s.w ∧ NoOther (callbacks s.log)

theorem callbacks_cb (l : List Obs) (e : Ev) : callbacks (l ++ [.cb e]) = callbacks l ++ [e] := by
  rw [callbacks_filterMap, callbacks_filterMap]; simp

theorem noOther_snoc {l : List Ev} {e : Ev} (h : NoOther l) (he : e.effect = .other → ¬ IsErrorMsg e) : NoOther (l ++ [e]) := by
  intro x hx
  rcases List.mem_append.1 hx with hx | hx
  · exact h x hx
  · rw [List.mem_singleton.1 hx]; exact he

theorem hinvL_step {s s' : St} {a : Act} (hi : HInvL s) (ha : HealthyL a) (hs : step cfg s a = some s') : HInvL s' := by
  obtain ⟨hg, he, hn⟩ := hi
  have frame : ∀ {c : ClosePc} {s1 : St} {x : ClosePc ⊕ Bool}, closeStep s c = some (s1, x) → s1.log = s.log ∧ s1.w = s.w := by
    intro c s1 x hc
    cases c <;> simp only [closeStep] at hc <;> (repeat' split at hc) <;> simp at hc <;> (obtain ⟨rfl, _⟩ := hc; exact ⟨rfl, rfl⟩)
  cases a with
  | w =>
    simp only [step, wStep] at hs
    split at hs <;> try (simp only [reduceCtorEq, Option.some.injEq] at hs)
    all_goals rename_i hw; rw [hw] at hg he
    · subst hs; refine ⟨?_, ?_, hn⟩ <;> (simp only; split <;> trivial)
    · subst hs; refine ⟨?_, ?_, hn⟩ <;> (simp only; split <;> trivial)
    · subst hs; exact ⟨trivial, trivial, hn⟩
    · subst hs; exact ⟨trivial, trivial, hn⟩
    · subst hs; refine ⟨?_, ?_, ?_⟩
      · simp only [callCb, GoodPc]; split <;> trivial
      · simp only [callCb, GoodEvs]; split <;> trivial
      · simp only [callCb, callbacks_cb]; exact noOther_snoc hn (by simp [liveEv])
    · subst hs; exact ⟨hg, he.2, hn⟩
    · subst hs
      refine ⟨hg, ⟨fun x hx => he.1 x (List.mem_cons_of_mem _ hx), he.2⟩, ?_⟩
      simp only [callCb, callbacks_cb]
      exact noOther_snoc hn (fun _ => isMid_ne (he.1 _ List.mem_cons_self))
    · subst hs
      refine ⟨?_, ?_, hn⟩
      · simp only; split
        · trivial
        · exact hg.1
      · simp only; split <;> trivial
    · subst hs
      exact ⟨⟨.inl rfl, fun i h => hg.2 i (List.mem_cons_of_mem _ h)⟩, he, hn⟩
    · subst hs
      simp only [GoodEvs, itemsOk, Bool.and_eq_true] at he
      refine ⟨⟨?_, fun i h => hg.2 i (List.mem_cons_of_mem _ h)⟩, ⟨fun e h => List.all_eq_true.1 he.1.1 e h, he.2⟩, hn⟩
      rcases hg.2 _ List.mem_cons_self with h | ⟨evs, r, h, hm⟩
      · cases h
      · cases h; exact mild_good hm
    · rcases hg.2 _ List.mem_cons_self with h | ⟨evs, r, h, hm⟩ <;> cases h
    · split at hs
      · simp at hs; subst hs; exact ⟨trivial, trivial, hn⟩
      · rename_i hx
        simp at hx
        rcases hg with hg | ⟨h1, h2⟩
        · simp only [hg, Bool.false_eq_true, if_false, Option.some.injEq] at hs
          subst hs; exact ⟨trivial, trivial, hn⟩
        · exact absurd h2 (hx h1)
    · subst hs; refine ⟨trivial, trivial, ?_⟩
      simp only [callCb, callbacks_cb]; exact noOther_snoc hn (by simp [dieEv])
    · subst hs; exact ⟨trivial, trivial, hn⟩
    · split at hs
      · simp at hs
      · rename_i hc; simp at hs; subst hs; exact ⟨hg, he, by simp only [(frame hc).1]; exact hn⟩
      · rename_i hc; simp at hs; subst hs; exact ⟨hg, he, by simp only [(frame hc).1]; exact hn⟩
  | wOpen evs r =>
    simp only [step] at hs
    split at hs
    · rename_i sec hw
      split at hs
      · rename_i hcond
        simp only [Bool.and_eq_true] at hcond
        simp at hs; subst hs
        refine ⟨⟨?_, by simp⟩, ⟨fun e h => List.all_eq_true.1 hcond.1.1 e h, rfl⟩, hn⟩
        rcases ha with rfl | rfl
        · exact .inl rfl
        · cases sec with
          | false => exact .inr ⟨rfl, rfl⟩
          | true => simp [isOpenResult] at hcond
      · cases hs
    · cases hs
  | wWake items =>
    simp only [step] at hs
    split at hs
    · split at hs
      · rename_i hcond
        simp only [Bool.and_eq_true] at hcond
        simp at hs; subst hs; exact ⟨⟨.inl rfl, ha⟩, hcond.1, hn⟩
      · cases hs
    · cases hs
  | wWakeErr => exact absurd ha (by simp [HealthyL])
  | cbReturn =>
    simp only [step] at hs
    split at hs
    · rename_i hw; rw [hw] at hg he; simp at hs; subst hs; exact ⟨hg, he, hn⟩
    · cases hs
  | cbClose =>
    simp only [step] at hs
    split at hs
    · rename_i hw; rw [hw] at hg he; simp at hs; subst hs; exact ⟨hg, he, hn⟩
    · cases hs
  | o =>
    obtain ⟨h1, h2, h3⟩ := owner_frame (a := .o) rfl hs
    exact ⟨by rw [h1]; exact hg, by rw [h1]; exact he, by rw [h3]; exact hn⟩
  | oClose =>
    obtain ⟨h1, h2, h3⟩ := owner_frame (a := .oClose) rfl hs
    exact ⟨by rw [h1]; exact hg, by rw [h1]; exact he, by rw [h3]; exact hn⟩
  | oDtor =>
    obtain ⟨h1, h2, h3⟩ := owner_frame (a := .oDtor) rfl hs
    exact ⟨by rw [h1]; exact hg, by rw [h1]; exact he, by rw [h3]; exact hn⟩

theorem hinv_settle {q : P} (h : HInvL q.life) : HInvL (settle cfg q).life := by
  simp only [settle]
  split
  · split
    · rename_i hd; exact hinvL_step (a := .oDtor) h trivial hd
    · exact h
  · exact h
  · exact h

theorem hinv_pstep {a : PAct} (hi : HInvL p.life) (ha : Healthy a) (hs : pstep fmt cfg p a = some p') : HInvL p'.life := by
  cases a with
  | go =>
    simp only [pstep] at hs
    split at hs
    · cases hl : step cfg p.life .oClose with
      | none => rw [hl] at hs; simp at hs
      | some l => rw [hl] at hs; simp at hs; subst hs; exact hinvL_step (a := .oClose) hi trivial hl
    · cases hs
  | life a now inn =>
    simp only [pstep] at hs
    split at hs
    · cases hs
    · split at hs
      · cases hl : step cfg p.life a with
        | none => rw [hl] at hs; simp at hs
        | some l =>
          rw [hl] at hs; simp only [Option.map_some, Option.some.injEq] at hs
          subst hs
          refine hinv_settle (hinvL_step hi ?_ hl)
          cases a <;> first | trivial | exact ha
      · cases hs

theorem hinv_prun : ∀ (acts : List PAct) (p p' : P), HInvL p.life → (∀ a ∈ acts, Healthy a) → prun fmt cfg p acts = some p' → HInvL p'.life := by
  intro acts
  induction acts with
  | nil => intro p p' hi _ hr; injection hr with hr; subst hr; exact hi
  | cons a as ih =>
    intro p p' hi ha hr
    simp only [prun] at hr
    cases hs : pstep fmt cfg p a with
    | none => rw [hs] at hr; cases hr
    | some q =>
      rw [hs] at hr
      exact ih q p' (hinv_pstep hi (ha a List.mem_cons_self) hs) (fun b hb => ha b (List.mem_cons_of_mem _ hb)) hr

theorem hinv_start (cfg : Cfg) : HInvL (start cfg).life := ⟨trivial, trivial, by intro e he; cases he⟩

theorem prun_append : ∀ (pre : List PAct) (p q : P) {post : List PAct} {p' : P}, prun fmt cfg p pre = some q → prun fmt cfg q post = some p' →
    prun fmt cfg p (pre ++ post) = some p' := by
  intro pre
  induction pre with
  | nil => intro p q post p' h1 h2; injection h1 with h1; subst h1; exact h2
  | cons a as ih =>
    intro p q post p' h1 h2
    simp only [prun, List.cons_append] at h1 ⊢
    cases hs : pstep fmt cfg p a with
    | none => rw [hs] at h1; cases h1
    | some r => rw [hs] at h1; exact ih r q h1 h2

theorem pstep_log {a : PAct} (hs : pstep fmt cfg p a = some p') : ∃ x, callbacks p'.life.log = callbacks p.life.log ++ x := by
  cases a with
  | go =>
    simp only [pstep] at hs
    split at hs
    · cases hl : step cfg p.life .oClose with
      | none => rw [hl] at hs; simp at hs
      | some l => rw [hl] at hs; simp at hs; subst hs; exact ⟨[], by simp [(owner_frame rfl hl).2.2]⟩
    · cases hs
  | life a now inn =>
    simp only [pstep] at hs
    split at hs
    · cases hs
    · split at hs
      · cases hl : step cfg p.life a with
        | none => rw [hl] at hs; simp at hs
        | some l =>
          rw [hl] at hs; simp only [Option.map_some, Option.some.injEq] at hs
          subst hs
          exact ⟨_, by rw [(settle_out _ _).2]; exact newCbs_eq (step_log hl)⟩
      · cases hs

theorem prun_log : ∀ (acts : List PAct) (p p' : P), prun fmt cfg p acts = some p' → ∃ x, callbacks p'.life.log = callbacks p.life.log ++ x := by
  intro acts
  induction acts with
  | nil => intro p p' hr; injection hr with hr; subst hr; exact ⟨[], by simp⟩
  | cons a as ih =>
    intro p p' hr
    simp only [prun] at hr
    cases hs : pstep fmt cfg p a with
    | none => rw [hs] at hr; cases hr
    | some q =>
      rw [hs] at hr
      obtain ⟨x, hx⟩ := pstep_log hs
      obtain ⟨y, hy⟩ := ih q p' hr
      exact ⟨x ++ y, by rw [hy, hx, List.append_assoc]⟩

/-! Before `close` is called. -/

def EarlyPc : WPc → Prop
  | .stRead => False
  | .stStore _ => False
  | .live pre => pre = true
  | .inCb n => EarlyPc n
  | .selfClose _ _ => False
  | _ => True

def Early (cfg : Cfg) (s : St) : Prop :=
  s.sb.is = .pending ∧ EarlyPc s.w ∧ liveMsg cfg.path false ∉ callbacks s.log

theorem not_mem_snoc {l : List Ev} {e x : Ev} (h : x ∉ l) (he : x ≠ e) : x ∉ l ++ [e] := by
  simp [h, he]

theorem early_step {s s' : St} {a : Act} (hd : cfg.dirOk = true) (hi : Early cfg s) (he : GoodEvs s.w) (ha : Handle.inner a = true)
    (hc : a ≠ .cbClose) (ho : s.o = .idle) (hs : step cfg s a = some s') : Early cfg s' := by
  obtain ⟨hb, hp, hn⟩ := hi
  cases a with
  | w =>
    simp only [step, wStep] at hs
    split at hs <;> try (simp only [reduceCtorEq, Option.some.injEq] at hs)
    all_goals rename_i hw; rw [hw] at hp he
    · subst hs; exact ⟨hb, by simp [hd, EarlyPc], hn⟩
    · subst hs; exact ⟨hb, by simp [hb, EarlyPc], hn⟩
    · exact absurd hp (by simp [EarlyPc])
    · exact absurd hp (by simp [EarlyPc])
    · subst hs
      simp only [EarlyPc] at hp
      subst hp
      refine ⟨hb, by simp [callCb, EarlyPc], ?_⟩
      simp only [callCb, callbacks_cb]; exact not_mem_snoc hn (by simp [liveMsg, liveEv])
    · subst hs; exact ⟨hb, trivial, hn⟩
    · subst hs
      refine ⟨hb, trivial, ?_⟩
      simp only [callCb, callbacks_cb]
      refine not_mem_snoc hn ?_
      intro hx
      have := he.1 _ List.mem_cons_self
      rw [← hx] at this
      revert this
      simp [isMid, liveMsg]
    · subst hs; refine ⟨hb, ?_, hn⟩; simp only; split <;> trivial
    · subst hs; exact ⟨hb, trivial, hn⟩
    · subst hs; exact ⟨hb, trivial, hn⟩
    · subst hs; exact ⟨hb, trivial, hn⟩
    · split at hs
      · simp at hs; subst hs; exact ⟨hb, trivial, hn⟩
      · split at hs
        · simp at hs; subst hs; refine ⟨hb, trivial, ?_⟩
          simp only [callCb, callbacks_cb]; exact not_mem_snoc hn (by simp [liveMsg, sendMsg])
        · simp at hs; subst hs; exact ⟨hb, trivial, hn⟩
    · subst hs; refine ⟨hb, trivial, ?_⟩
      simp only [callCb, callbacks_cb]; exact not_mem_snoc hn (by simp [liveMsg, dieEv])
    · subst hs; exact ⟨hb, trivial, hn⟩
    · exact absurd hp (by simp [EarlyPc])
  | wOpen evs r =>
    simp only [step] at hs
    split at hs
    · split at hs
      · simp at hs; subst hs; exact ⟨hb, trivial, hn⟩
      · cases hs
    · cases hs
  | wWake items =>
    simp only [step] at hs
    split at hs
    · split at hs
      · simp at hs; subst hs; exact ⟨hb, trivial, hn⟩
      · cases hs
    · cases hs
  | wWakeErr =>
    simp only [step] at hs
    split at hs
    · simp at hs; subst hs; exact ⟨hb, trivial, hn⟩
    · cases hs
  | cbReturn =>
    simp only [step] at hs
    split at hs
    · rename_i hw; rw [hw] at hp; simp at hs; subst hs; exact ⟨hb, hp, hn⟩
    · cases hs
  | cbClose => exact absurd rfl hc
  | o => simp [step, oStep, ho] at hs
  | oClose => simp [Handle.inner] at ha
  | oDtor => simp [Handle.inner] at ha

theorem early_init (cfg : Cfg) : Early cfg (init cfg) := ⟨rfl, trivial, by simp [init, callbacks]⟩

theorem early_prun (hd : cfg.dirOk = true) : ∀ (acts : List PAct) (p p' : P), PInv fmt cfg p → HInvL p.life →
    (p.phase = .waiting → Early cfg p.life) → (∀ a ∈ acts, Healthy a) → prun fmt cfg p acts = some p' → p'.phase = .waiting → Early cfg p'.life := by
  intro acts
  induction acts with
  | nil => intro p p' _ _ he _ hr hw; injection hr with hr; subst hr; exact he hw
  | cons a as ih =>
    intro p p' hp hi he ha hr hw
    simp only [prun] at hr
    cases hs : pstep fmt cfg p a with
    | none => rw [hs] at hr; cases hr
    | some q =>
      rw [hs] at hr
      refine ih q p' (pinv_step hp hs) (hinv_pstep hi (ha a List.mem_cons_self) hs) ?_ (fun b hb => ha b (List.mem_cons_of_mem _ hb)) hr hw
      intro hq
      cases a with
      | go =>
        simp only [pstep] at hs
        split at hs
        · cases hl : step cfg p.life .oClose with
          | none => rw [hl] at hs; simp at hs
          | some l => rw [hl] at hs; simp at hs; subst hs; cases hq
        · cases hs
      | life a now inn =>
        simp only [pstep] at hs
        split at hs
        · cases hs
        · split at hs
          · rename_i hin
            simp only [Bool.and_eq_true, bne_iff_ne, ne_eq] at hin
            cases hl : step cfg p.life a with
            | none => rw [hl] at hs; simp at hs
            | some l =>
              rw [hl] at hs; simp only [Option.map_some, Option.some.injEq] at hs
              subst hs
              have hpw : p.phase = .waiting := by
                revert hq
                simp only [settle]
                split
                · split
                  · intro hq; cases hq
                  · exact id
                · intro hq; cases hq
                · intro hq; exact hq
              have hph := hp.phase
              simp only [PhaseInv, hpw] at hph
              have := early_step hd (he hpw) hi.2.1 hin.1 hin.2 hph.1 hl
              simp only [settle, hpw]
              exact this
          · cases hs

end Verif.Lemmas.Prog
