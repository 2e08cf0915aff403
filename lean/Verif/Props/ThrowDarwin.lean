import Verif.Spec.ThrowDarwin
import Verif.Lemmas.DarwinLife
/-!
# Callbacks that throw, on Darwin (C158)
-/

namespace Verif.Props
open Verif Verif.Model Verif.Model.DLife Verif.Spec.DLife Verif.Lemmas.DLife
open Verif.Model.Darwin (Note Ctx recvOne)

variable {d : Bool}

private def liveIn : WPc → Bool
  | .inLive _ | .liveClose _ _ => true
  | _ => false

private def dieIn : WPc → Bool
  | .inDie _ _ | .dieClose _ _ _ => true
  | _ => false

private def evIn : KPc → Bool
  | .inCb _ _ | .selfClose _ _ _ => true
  | _ => false

private def isLive : Option Msg → Bool
  | some (.live _) => true
  | _ => false

private def isDie : Option Msg → Bool
  | some (.die _) => true
  | _ => false

private def isEv : Option Msg → Bool
  | some (.ev _) => true
  | _ => false

/-- Who runs the callback, what it was called with, and which returns have been seen. -/
private structure Ext (s : St) : Prop where
  live : liveIn s.w = true → isLive (callbacks s.log).getLast? = true
  die : dieIn s.w = true → isDie (callbacks s.log).getLast? = true
  ev : evIn s.k = true → isEv (callbacks s.log).getLast? = true
  ret : ∀ b, .closeRet b ∈ s.log → s.valid = false
  dret : .dtorRet ∈ s.log → s.o = .gone
  dfut : s.o = .dtorFuture → s.valid = false

private theorem ext_w {s s' : St} (hc : Ctl s) (h : Ext s) (hs : wStep true d s = some s') : Ext s' := by
  obtain ⟨h1,h2,h3,h4,h5,h6⟩ := h
  have hq := hc.quiet
  have hi := hc.inw
  unfold wStep at hs
  split at hs <;> (try unfold closeStep at hs) <;> (repeat' split at hs) <;> simp at hs <;> (try subst hs) <;>
   constructor <;> grind [inWatch, liveIn, dieIn, evIn, isLive, isDie, isEv]

private theorem notIn {w : WPc} (h : inWatch w = true) : liveIn w = false ∧ dieIn w = false := by
  cases w <;> simp [inWatch, liveIn, dieIn] at *

private theorem ext_k {s s' : St} (hc : Ctl s) (h : Ext s) (hs : kStep s = some s') : Ext s' := by
  obtain ⟨h1,h2,h3,h4,h5,h6⟩ := h
  have hk : s.k = .free ∨ (liveIn s.w = false ∧ dieIn s.w = false) := by
    cases hst : s.stream with
    | false => exact .inl (hc.quiet hst).1
    | true => exact .inr (notIn (hc.inw hst))
  unfold kStep at hs
  split at hs <;> (try unfold closeStep at hs) <;> (repeat' split at hs) <;> simp at hs <;> (try subst hs) <;>
   constructor <;> grind [inWatch, liveIn, dieIn, evIn, isLive, isDie, isEv]

private theorem ext_o {s s' : St} (hc : Ctl s) (h : Ext s) (hs : oStep s = some s') : Ext s' := by
  obtain ⟨h1,h2,h3,h4,h5,h6⟩ := h
  have hg := hc.get
  unfold oStep at hs
  split at hs <;> (try unfold closeStep at hs) <;> (repeat' split at hs) <;> simp at hs <;> (try subst hs) <;>
   constructor <;> grind [liveIn, dieIn, evIn]

private theorem ext_step {s s' : St} {a : Act} (hc : Ctl s) (h : Ext s) (hs : step true d s a = some s') : Ext s' := by
  cases a with
  | w => exact ext_w hc h hs
  | k => exact ext_k hc h hs
  | o => exact ext_o hc h hs
  | _ =>
    obtain ⟨h1,h2,h3,h4,h5,h6⟩ := h
    simp only [step] at hs
    (repeat' split at hs) <;> simp at hs <;> (try subst hs) <;>
    constructor <;> grind [liveIn, dieIn, evIn]

private theorem xrun_induct {P : XSt → Prop} (hstep : ∀ x a x', P x → xstep true d x a = some x' → P x') :
    ∀ (acts : List XAct) (x x' : XSt), P x → xrun true d x acts = some x' → P x' := by
  intro acts
  induction acts with
  | nil => intro x x' h hr; simp [xrun] at hr; subst hr; exact h
  | cons a as ih =>
    intro x x' h hr
    simp only [xrun] at hr
    split at hr
    · cases hr
    · rename_i x1 hx1; exact ih x1 x' (hstep x a x1 h hx1) hr

private theorem xwthrow {x x' : XSt} (h : xstep true d x .wThrow = some x') : x.dead = false ∧ (liveIn x.life.w = true ∨ dieIn x.life.w = true) ∧
    x' = { x with life := { x.life with w := .finished, fut := some false }, exc := true } := by
  simp only [xstep] at h
  split at h
  · cases h
  · rename_i hd
    refine ⟨by simpa using hd, ?_⟩
    simp only [wThrow] at h
    split at h
    · rename_i p hw; injection h with h; exact ⟨.inl (by rw [hw]; rfl), h.symm⟩
    · rename_i p q hw; injection h with h; exact ⟨.inr (by rw [hw]; rfl), h.symm⟩
    · cases h

private theorem xkthrow {x x' : XSt} (h : xstep true d x .kThrow = some x') : x.dead = false ∧ evIn x.life.k = true ∧ x' = { x with dead := true } := by
  simp only [xstep] at h
  split at h
  · cases h
  · rename_i hd
    refine ⟨by simpa using hd, ?_⟩
    simp only [kThrow] at h
    split at h
    · rename_i p q hw; injection h with h; exact ⟨by rw [hw]; rfl, h.symm⟩
    · cases h

private theorem xlife {x x' : XSt} {a : Act} (h : xstep true d x (.life a) = some x') : x.dead = false ∧
    ((x.exc = true ∧ atGet x.life.o = true ∧ a = .o ∧ x' = { x with dead := true }) ∨
     ((x.exc && atGet x.life.o && decide (a = .o)) = false ∧ ∃ l, step true d x.life a = some l ∧ x' = { x with life := l })) := by
  simp only [xstep] at h
  split at h
  · cases h
  · rename_i hd
    refine ⟨by simpa using hd, ?_⟩
    split at h
    · rename_i hc
      injection h with h
      simp only [Bool.and_eq_true, decide_eq_true_eq] at hc
      exact .inl ⟨hc.1.1, hc.1.2, hc.2, h.symm⟩
    · rename_i hc
      obtain ⟨l, h1, h2⟩ := Option.map_eq_some_iff.1 h
      exact .inr ⟨by simpa using hc, l, h1, h2.symm⟩

private theorem ext_init : Ext {} := by
  constructor <;> simp [liveIn, dieIn, evIn]

/-- After the thread has ended by an exception no stream is open and the callback is not called. -/
private structure Over (s : St) : Prop where
  w : s.w = .finished
  stream : s.stream = false
  k : s.k = .free
  entered : s.entered = []

private theorem close_keeps {s s' : St} {c : ClosePc} {r} (h : closeStep s c = some (s', r)) :
    s'.w = s.w ∧ s'.stream = s.stream ∧ s'.k = s.k ∧ s'.entered = s.entered ∧ s'.log = s.log ∧ s'.fut = s.fut := by
  unfold closeStep at h
  (repeat' split at h) <;> simp at h <;> obtain ⟨rfl, _⟩ := h <;> exact ⟨rfl, rfl, rfl, rfl, rfl, rfl⟩

private theorem over_step {s s' : St} {a : Act} (h : Over s) (hs : step true d s a = some s') :
    Over s' ∧ callbacks s'.log = callbacks s.log ∧ s'.fut = s.fut := by
  obtain ⟨h1,h2,h3,h4⟩ := h
  cases a with
  | w => simp only [step, wStep, h1] at hs; cases hs
  | k => simp only [step, kStep, h3] at hs; cases hs
  | o =>
    simp only [step] at hs
    unfold oStep at hs
    split at hs
    · split at hs
      · cases hs
      · rename_i hq; obtain ⟨k1,k2,k3,k4,k5,k6⟩ := close_keeps hq
        injection hs with hs; subst hs; exact ⟨⟨k1.trans h1, k2.trans h2, k3.trans h3, k4.trans h4⟩, by simp only; rw [k5], k6⟩
      · rename_i hq; obtain ⟨k1,k2,k3,k4,k5,k6⟩ := close_keeps hq
        injection hs with hs; subst hs; exact ⟨⟨k1.trans h1, k2.trans h2, k3.trans h3, k4.trans h4⟩, by simp only; rw [k5, cbs_cr], k6⟩
    · split at hs
      · cases hs
      · rename_i hq; obtain ⟨k1,k2,k3,k4,k5,k6⟩ := close_keeps hq
        injection hs with hs; subst hs; exact ⟨⟨k1.trans h1, k2.trans h2, k3.trans h3, k4.trans h4⟩, by simp only; rw [k5], k6⟩
      · rename_i hq; obtain ⟨k1,k2,k3,k4,k5,k6⟩ := close_keeps hq
        injection hs with hs; subst hs; exact ⟨⟨k1.trans h1, k2.trans h2, k3.trans h3, k4.trans h4⟩, by simp only; rw [k5], k6⟩
    · split at hs
      · split at hs
        · cases hs
        · injection hs with hs; subst hs; exact ⟨⟨h1, h2, h3, h4⟩, cbs_dr _, rfl⟩
      · injection hs with hs; subst hs; exact ⟨⟨h1, h2, h3, h4⟩, cbs_dr _, rfl⟩
    · cases hs
  | oClose =>
    simp only [step] at hs
    split at hs
    · injection hs with hs; subst hs; exact ⟨⟨h1, h2, h3, h4⟩, by simp [callbacks_append, callbacks], rfl⟩
    · cases hs
  | oDtor =>
    simp only [step] at hs
    split at hs
    · injection hs with hs; subst hs; exact ⟨⟨h1, h2, h3, h4⟩, by simp [callbacks_append, callbacks], rfl⟩
    · cases hs
  | opened b => simp only [step, h1] at hs; cases hs
  | cbReturn => simp only [step, h1] at hs; cases hs
  | cbClose => simp only [step, h1] at hs; cases hs
  | notify b => simp [step, h2] at hs
  | enter => simp only [step, h2] at hs; split at hs <;> cases hs
  | tryLock i => simp [step, h4] at hs
  | kReturn => simp only [step, h3] at hs; cases hs
  | kClose => simp only [step, h3] at hs; cases hs

private theorem xreach_inv {x : XSt} (h : XReach true d x) :
    (x.exc = false → Ctl x.life ∧ Ext x.life) ∧ (x.exc = true → Over x.life) := by
  obtain ⟨acts, hr⟩ := h
  refine xrun_induct (P := fun x => (x.exc = false → Ctl x.life ∧ Ext x.life) ∧ (x.exc = true → Over x.life)) ?_ acts {} x
    ⟨fun _ => ⟨ctl_init, ext_init⟩, by simp⟩ hr
  intro x a x' ⟨h1, h2⟩ hs
  cases a with
  | wThrow =>
    obtain ⟨_, hin, rfl⟩ := xwthrow hs
    refine ⟨by simp, fun _ => ?_⟩
    have hex : x.exc = false := by
      cases he : x.exc with
      | false => rfl
      | true => have := (h2 he).w; rw [this] at hin; simp [liveIn, dieIn] at hin
    have hst : x.life.stream = false := by
      cases hst : x.life.stream with
      | false => rfl
      | true => have := notIn ((h1 hex).1.inw hst); rw [this.1, this.2] at hin; simp at hin
    have := (h1 hex).1.quiet hst
    exact ⟨rfl, hst, this.1, this.2.2⟩
  | kThrow => obtain ⟨_, _, rfl⟩ := xkthrow hs; exact ⟨h1, h2⟩
  | life a =>
    obtain ⟨_, ⟨_, _, _, rfl⟩ | ⟨_, l, hl, rfl⟩⟩ := xlife hs
    · exact ⟨h1, h2⟩
    · exact ⟨fun he => ⟨ctl_step (h1 he).1 hl, ext_step (h1 he).1 (h1 he).2 hl⟩, fun he => (over_step (h2 he) hl).1⟩

/-! ## C158 -/

/-- C158, the full claim: a callback that throws ends its watch, with the die message as always, and not the program. -/
def C158_full : Prop := ∀ (d : Bool) (x : XSt), XReach true d x →
  x.dead = false ∧ (x.life.w = .finished → ∃ live die, Ended live die (callbacks x.life.log))

/-- C158: an exception from a callback that was called with an event ends the program at once. -/
theorem C158_event_partial (x0 x1 : XSt) (h0 : XReach true d x0) (e : Ev) (hm : LastTold x0.life (.ev e)) (a : XAct) (ha : throws a = true)
    (hs : xstep true d x0 a = some x1) : x1.dead = true := by
  have hinv := xreach_inv h0
  cases a with
  | life a => cases ha
  | kThrow => obtain ⟨_, _, rfl⟩ := xkthrow hs; rfl
  | wThrow =>
    exfalso
    obtain ⟨_, hin, _⟩ := xwthrow hs
    have hex : x0.exc = false := by
      cases he : x0.exc with
      | false => rfl
      | true => have := (hinv.2 he).w; rw [this] at hin; simp [liveIn, dieIn] at hin
    have hE := (hinv.1 hex).2
    simp only [LastTold] at hm
    rcases hin with hin | hin
    · have := hE.live hin; rw [hm] at this; cases this
    · have := hE.die hin; rw [hm] at this; cases this

private def beforeGet : OPc → Bool
  | .idle => true
  | .closing _ => true
  | .dtorClosing _ => true
  | _ => false

private def leftClose : ClosePc → Nat
  | .cas => 4
  | .signal => 3
  | .valid => 2
  | .get => 1

private def left : OPc → Nat
  | .idle => 4
  | .closing c => leftClose c
  | .dtorClosing c => leftClose c
  | _ => 0

private theorem owner_moves {s : St} (hv : s.valid = true) (hb : beforeGet s.o = true) (hi : s.o ≠ .idle) (hg : atGet s.o = false) : (oStep s).isSome = true := by
  unfold oStep
  cases ho : s.o with
  | idle => exact absurd ho hi
  | closing c =>
    cases c with
    | cas => cases hs : s.is <;> simp [closeStep, hs]
    | signal => simp [closeStep]
    | valid => simp [closeStep, hv]
    | get => rw [ho] at hg; cases hg
  | dtorClosing c =>
    cases c with
    | cas => cases hs : s.is <;> simp [closeStep, hs]
    | signal => simp [closeStep]
    | valid => simp [closeStep, hv]
    | get => rw [ho] at hg; cases hg
  | dtorFuture => rw [ho] at hb; cases hb
  | gone => rw [ho] at hb; cases hb

private structure Lost (x : XSt) : Prop where
  exc : x.exc = true
  over : Over x.life
  valid : x.life.valid = true
  o : beforeGet x.life.o = true
  ret : ∀ o ∈ x.life.log, ¬ IsReturn o

private theorem left_pos {o : OPc} (h : beforeGet o = true) : 1 ≤ left o := by
  cases o with
  | closing c => cases c <;> simp [left, leftClose]
  | dtorClosing c => cases c <;> simp [left, leftClose]
  | _ => simp [left, beforeGet] at *

private theorem lost_step {x x' : XSt} {a : XAct} (h : Lost x) (hs : xstep true d x a = some x') :
    Lost x' ∧ callbacks x'.life.log = callbacks x.life.log ∧
      ((ownerMoves a = true ∧ x'.dead = true) ∨
       (ownerMoves a = true ∧ x'.dead = false ∧ left x'.life.o + 1 ≤ left x.life.o) ∨
       (ownerMoves a = false ∧ x'.dead = false ∧ left x'.life.o = left x.life.o)) := by
  obtain ⟨he, hov, hv, hb, hn⟩ := h
  cases a with
  | wThrow => obtain ⟨_, hin, _⟩ := xwthrow hs; rw [hov.w] at hin; simp [liveIn, dieIn] at hin
  | kThrow => obtain ⟨_, hin, _⟩ := xkthrow hs; rw [hov.k] at hin; cases hin
  | life a =>
    obtain ⟨hd, ⟨_, hg, rfl, rfl⟩ | ⟨hno, l, hl, rfl⟩⟩ := xlife hs
    · exact ⟨⟨he, hov, hv, hb, hn⟩, rfl, .inl ⟨rfl, rfl⟩⟩
    · obtain ⟨f1, f2, f3⟩ := over_step hov hl
      simp only [he, Bool.true_and] at hno
      obtain ⟨o1,o2,o3,o4⟩ := hov
      cases a with
      | o =>
        simp only [decide_true, Bool.and_true] at hno
        simp only [step, oStep] at hl
        cases ho : x.life.o with
        | idle => rw [ho] at hl; cases hl
        | closing c =>
          rw [ho] at hl
          cases c with
          | cas =>
            simp only [closeStep] at hl
            split at hl <;> rename_i hq <;> split at hq <;> simp at hq <;> obtain ⟨rfl, rfl⟩ := hq <;> (injection hl with hl; subst hl)
            all_goals exact ⟨⟨he, f1, hv, rfl, hn⟩, rfl, .inr (.inl ⟨rfl, hd, by simp [left, leftClose]⟩)⟩
          | signal => simp only [closeStep] at hl; injection hl with hl; subst hl; exact ⟨⟨he, f1, hv, rfl, hn⟩, rfl, .inr (.inl ⟨rfl, hd, by simp [left, leftClose]⟩)⟩
          | valid => simp only [closeStep, hv] at hl; injection hl with hl; subst hl; exact ⟨⟨he, f1, hv, rfl, hn⟩, rfl, .inr (.inl ⟨rfl, hd, by simp [left, leftClose]⟩)⟩
          | get => rw [ho] at hno; cases hno
        | dtorClosing c =>
          rw [ho] at hl
          cases c with
          | cas =>
            simp only [closeStep] at hl
            split at hl <;> rename_i hq <;> split at hq <;> simp at hq <;> obtain ⟨rfl, rfl⟩ := hq <;> (injection hl with hl; subst hl)
            all_goals exact ⟨⟨he, f1, hv, rfl, hn⟩, rfl, .inr (.inl ⟨rfl, hd, by simp [left, leftClose]⟩)⟩
          | signal => simp only [closeStep] at hl; injection hl with hl; subst hl; exact ⟨⟨he, f1, hv, rfl, hn⟩, rfl, .inr (.inl ⟨rfl, hd, by simp [left, leftClose]⟩)⟩
          | valid => simp only [closeStep, hv] at hl; injection hl with hl; subst hl; exact ⟨⟨he, f1, hv, rfl, hn⟩, rfl, .inr (.inl ⟨rfl, hd, by simp [left, leftClose]⟩)⟩
          | get => rw [ho] at hno; cases hno
        | dtorFuture => rw [ho] at hb; cases hb
        | gone => rw [ho] at hb; cases hb
      | oClose =>
        simp only [step] at hl
        split at hl
        · rename_i ho
          injection hl with hl; subst hl
          refine ⟨⟨he, f1, hv, rfl, ?_⟩, f2, .inr (.inr ⟨rfl, hd, by rw [ho]; rfl⟩)⟩
          intro o hmem
          simp only [List.mem_append, List.mem_singleton] at hmem
          rcases hmem with h | rfl
          · exact hn o h
          · simp [IsReturn]
        · cases hl
      | oDtor =>
        simp only [step] at hl
        split at hl
        · rename_i ho
          injection hl with hl; subst hl
          refine ⟨⟨he, f1, hv, rfl, ?_⟩, f2, .inr (.inr ⟨rfl, hd, by rw [ho]; rfl⟩)⟩
          intro o hmem
          simp only [List.mem_append, List.mem_singleton] at hmem
          rcases hmem with h | rfl
          · exact hn o h
          · simp [IsReturn]
        · cases hl
      | w => simp only [step, wStep, o1] at hl; cases hl
      | k => simp only [step, kStep, o3] at hl; cases hl
      | opened b => simp only [step, o1] at hl; cases hl
      | cbReturn => simp only [step, o1] at hl; cases hl
      | cbClose => simp only [step, o1] at hl; cases hl
      | notify b => simp [step, o2] at hl
      | enter => simp only [step, o2] at hl; split at hl <;> cases hl
      | tryLock i => simp [step, o4] at hl
      | kReturn => simp only [step, o3] at hl; cases hl
      | kClose => simp only [step, o3] at hl; cases hl

private theorem dead_stuck {x : XSt} (h : x.dead = true) (a : XAct) : xstep true d x a = none := by
  cases a <;> simp [xstep, h]

private theorem lost_run : ∀ (acts : List XAct) (x x' : XSt), Lost x → x.dead = false → xrun true d x acts = some x' →
    Lost x' ∧ callbacks x'.life.log = callbacks x.life.log ∧ acts.countP ownerMoves + (if x'.dead then 0 else left x'.life.o) ≤ left x.life.o := by
  intro acts
  induction acts with
  | nil => intro x x' h hnd hr; simp [xrun] at hr; subst hr; exact ⟨h, rfl, by simp [hnd]⟩
  | cons a as ih =>
    intro x x' h hnd hr
    simp only [xrun] at hr
    split at hr
    · cases hr
    · rename_i x1 hx1
      obtain ⟨h1, hc, hcase⟩ := lost_step h hx1
      rcases hcase with ⟨ha, hdead⟩ | ⟨ha, hnd1, hle⟩ | ⟨ha, hnd1, hle⟩
      · cases as with
        | nil =>
          simp [xrun] at hr; subst hr
          exact ⟨h1, hc, by simp [ha, hdead]; exact left_pos h.o⟩
        | cons b bs => simp [xrun, dead_stuck hdead] at hr
      · obtain ⟨h2, hc2, h3⟩ := ih x1 x' h1 hnd1 hr
        exact ⟨h2, hc2.trans hc, by rw [List.countP_cons, if_pos ha]; omega⟩
      · obtain ⟨h2, hc2, h3⟩ := ih x1 x' h1 hnd1 hr
        refine ⟨h2, hc2.trans hc, ?_⟩
        rw [List.countP_cons, if_neg (by simp [ha])]; omega

/-- C158: after an exception from the live or the die message nothing more is told, neither `close()` nor the destructor returns, at the latest the fourth step of the first of them terminates
the program, and until then the owner is never blocked. -/
theorem C158_message_partial (x0 x1 x2 : XSt) (h0 : XReach true d x0) (b : Bool) (hm : LastTold x0.life (.live b) ∨ LastTold x0.life (.die b))
    (a : XAct) (ha : throws a = true) (hs : xstep true d x0 a = some x1) (acts : List XAct) (hr : xrun true d x1 acts = some x2) :
    callbacks x2.life.log = callbacks x0.life.log ∧ (∀ o ∈ x2.life.log, ¬ IsReturn o) ∧ acts.countP ownerMoves ≤ 4 ∧
    (acts.countP ownerMoves = 4 → x2.dead = true) ∧ (x2.dead = false → x2.life.o ≠ .idle → (xstep true d x2 (.life .o)).isSome = true) := by
  have hinv := xreach_inv h0
  have hex : x0.exc = false := by
    cases he : x0.exc with
    | false => rfl
    | true =>
      have hov := hinv.2 he
      cases a with
      | life a => cases ha
      | wThrow => obtain ⟨_, hin, _⟩ := xwthrow hs; rw [hov.w] at hin; simp [liveIn, dieIn] at hin
      | kThrow => obtain ⟨_, hin, _⟩ := xkthrow hs; rw [hov.k] at hin; cases hin
  obtain ⟨hC, hE⟩ := hinv.1 hex
  cases a with
  | life a => cases ha
  | kThrow =>
    exfalso
    obtain ⟨_, hin, _⟩ := xkthrow hs
    have := hE.ev hin
    rcases hm with hm | hm <;> (simp only [LastTold] at hm; rw [hm] at this; cases this)
  | wThrow =>
    obtain ⟨hd0, hin, hx1⟩ := xwthrow hs
    have hnf : x0.life.w ≠ .finished := by intro h; rw [h] at hin; simp [liveIn, dieIn] at hin
    have hst : x0.life.stream = false := by
      cases hst : x0.life.stream with
      | false => rfl
      | true => have := notIn (hC.inw hst); rw [this.1, this.2] at hin; simp at hin
    have hval : x0.life.valid = true := by
      cases hv : x0.life.valid with
      | true => rfl
      | false => exact absurd (hC.valid hv) hnf
    have hob : beforeGet x0.life.o = true := by
      cases ho : x0.life.o with
      | dtorFuture => have := hE.dfut ho; rw [hval] at this; cases this
      | gone => exact absurd (hC.gone ho) hnf
      | _ => rfl
    have hret : ∀ o ∈ x0.life.log, ¬ IsReturn o := by
      intro o ho hr
      cases o with
      | closeRet b => have := hE.ret b ho; rw [hval] at this; cases this
      | dtorRet => exact absurd (hC.gone (hE.dret ho)) hnf
      | _ => cases hr
    subst hx1
    have hlost : Lost { x0 with life := { x0.life with w := .finished, fut := some false }, exc := true } :=
      ⟨rfl, ⟨rfl, hst, (hC.quiet hst).1, (hC.quiet hst).2.2⟩, hval, hob, hret⟩
    obtain ⟨h1, h2, h3⟩ := lost_run acts _ x2 hlost hd0 hr
    have hle : ∀ o : OPc, left o ≤ 4 := by
      intro o; cases o with
      | closing c => cases c <;> simp [left, leftClose]
      | dtorClosing c => cases c <;> simp [left, leftClose]
      | _ => simp [left]
    have hx := hle x0.life.o
    refine ⟨h2, h1.ret, Nat.le_trans (Nat.le_trans (Nat.le_add_right _ _) h3) hx, ?_, ?_⟩
    · intro h4
      cases hd2 : x2.dead with
      | true => rfl
      | false =>
        exfalso
        rw [hd2, h4] at h3
        simp only [Bool.false_eq_true, if_false] at h3
        have h5 := left_pos h1.o
        have h7 : 4 + left x2.life.o ≤ left x0.life.o := h3
        omega
    · intro hd2 hni
      simp only [xstep, hd2, Bool.false_eq_true, if_false, h1.exc, Bool.true_and, decide_true, Bool.and_true]
      split
      · rfl
      · rename_i hg
        have := owner_moves h1.valid h1.o hni (by simpa using hg)
        cases hq : oStep x2.life with
        | none => rw [hq] at this; cases this
        | some l => simp [step, hq]

private def dThrowLive : List XAct := [.life .w, .life .w, .life .w, .wThrow, .life .oClose, .life .o, .life .o, .life .o, .life .o]

/-- C158 fails: a callback that throws at the live message ends the program in `close()`. -/
theorem C158_refuted : ¬ C158_full := by
  intro h
  obtain ⟨x, hx, hd⟩ : ∃ x, xrun true true {} dThrowLive = some x ∧ x.dead = true := ⟨_, rfl, rfl⟩
  have := (h true x ⟨_, hx⟩).1
  rw [hd] at this; cases this

/-- A throw at the live message, as `C158_message_partial` asks for. -/
example : ∃ x0 x1 : XSt, XReach true true x0 ∧ LastTold x0.life (.live true) ∧ xstep true true x0 .wThrow = some x1 :=
  ⟨_, _, ⟨dThrowLive.take 3, rfl⟩, rfl, rfl⟩

private def dThrowEvent : List XAct :=
  [.life .w, .life .w, .life .w, .life .cbReturn, .life (.opened true), .life (.notify [{ path := b!"/w/f", flags := 0x10100#32 }]), .life .enter, .life (.tryLock 0), .life .k, .life .k]

/-- A throw at an event, as `C158_event_partial` asks for. -/
example : ∃ x0 x1 : XSt, XReach true true x0 ∧ LastTold x0.life (.ev ⟨b!"/w/f", .create, .file, none⟩) ∧ xstep true true x0 .kThrow = some x1 :=
  ⟨_, _, ⟨dThrowEvent, rfl⟩, rfl, rfl⟩

end Verif.Props
