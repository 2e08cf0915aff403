import Verif.Lemmas.Handle2
import Verif.Lemmas.Lifecycle4
import Verif.Spec.NodeLife
/-!
# Lemmas about a watch in Node.js
-/

namespace Verif.Lemmas.NodeLife
open Verif Verif.Model Verif.Model.Life Verif.Model.Handle Verif.Model.NodeLife Verif.Spec Verif.Spec.Hd Verif.Spec.Node
open Verif.Lemmas.Life Verif.Lemmas.Handle

theorem sameJs (text : Str → Str) (e : Ev) (now inner : Int) : SameJs text e now (jsOf text now inner e) := by
  obtain ⟨p, ef, pt, a⟩ := e
  have ht : ∀ ev : Event, (Model.Bind.jsEvent text (Model.Bind.cView ev)).time = Model.Bind.toDouble ev.time := fun _ => rfl
  cases a with
  | none =>
    refine ⟨⟨Lemmas.Bind.toDouble_isDouble now, fun d hd => Lemmas.Bind.toDouble_nearest now d hd⟩, fun h => ?_, fun _ => rfl,
      fun a h => by simp at h, ?_, ?_⟩
    · exact congrArg text (Lemmas.Bind.cRead_eq h)
    · cases ef <;> rfl
    · cases pt <;> rfl
  | some a =>
    refine ⟨⟨Lemmas.Bind.toDouble_isDouble now, fun d hd => Lemmas.Bind.toDouble_nearest now d hd⟩, fun h => ?_, fun h => by simp at h,
      fun b hb h => ?_, ?_, ?_⟩
    · exact congrArg text (Lemmas.Bind.cRead_eq h)
    · simp only [Option.some.injEq] at hb; subst hb
      exact congrArg (fun s => some (text s)) (Lemmas.Bind.cRead_eq h)
    · cases ef <;> rfl
    · cases pt <;> rfl

theorem cameOf_append (a b : List NObs) : cameOf (a ++ b) = cameOf a ++ cameOf b := by
  induction a with
  | nil => rfl
  | cons x xs ih => cases x <;> simp [cameOf, ih]

theorem toldOf_append (a b : List NObs) : toldOf (a ++ b) = toldOf a ++ toldOf b := by
  induction a with
  | nil => rfl
  | cons x xs ih => cases x <;> simp [toldOf, ih]

theorem closeRets_append (a b : List NObs) : closeRets (a ++ b) = closeRets a ++ closeRets b := by
  induction a with
  | nil => rfl
  | cons x xs ih => cases x <;> simp [closeRets, ih]

theorem allSame_append {text a b x y} (h : AllSame text a x) (g : AllSame text b y) : AllSame text (a ++ b) (x ++ y) := by
  induction h with
  | nil => exact g
  | cons h t ih => exact .cons h ih

theorem allSame_length {text a x} (h : AllSame text a x) : a.length = x.length := by
  induction h with
  | nil => rfl
  | cons _ _ ih => simp [ih]

/-- Is the callback of the user running? -/
def running : Js → Bool
  | .inCb => true
  | .closing b => b
  | .idle => false

/-- The part of the invariant that is about events. -/
structure Tells (text : Str → Str) (n : NS) (cbs : List Ev) : Prop where
  story : ∃ w x, Story text n.log w x ∧ AllSame text w n.queue ∧ n.copies = w.length + x.length + (if running n.js then 1 else 0)
  same : (cameOf n.log).map Prod.fst = cbs

/-- The part that is about calls. -/
structure Calls (cfg : Cfg) (n : NS) : Prop where
  h : HInv cfg n.h
  plain : ∀ c k, n.h.life.w ≠ .selfClose c k
  busy : n.h.inC = true ↔ ∃ c, n.js = .closing c
  held : n.set = true → n.freed = false ∧ n.h.rets = [] ∧ closeRets n.log = []
  let_go : n.set = false → n.freed = true ∧ n.h.inC = false ∧ ∃ b k, n.h.rets = [b] ∧ closeRets n.log = b :: List.replicate k false

theorem bridge_tells {text : Str → Str} {n : NS} {cbs : List Ev} (now inner : Int) (e : Ev) (hi : Tells text n cbs) :
    Tells text (bridge text now inner n e) (cbs ++ [e]) := by
  obtain ⟨⟨w, x, h1, h2, h3⟩, h4⟩ := hi
  have hl := allSame_length h2
  refine ⟨?_, ?_⟩
  · by_cases hlt : n.queue.length < 1024
    · simp only [bridge, Model.Bind.queueMax, hlt, if_true]
      refine ⟨w ++ [(e, now)], x, .kept h1 (by omega), allSame_append h2 (.cons (sameJs text e now inner) .nil), ?_⟩
      simp [h3]; omega
    · simp only [bridge, Model.Bind.queueMax, hlt, if_false]
      by_cases hq : w.length = 1024
      · exact ⟨w, x ++ [(e, now)], .lost h1 hq, h2, by simp [h3]; omega⟩
      · exfalso
        have : ∀ {l w x}, Story text l w x → w.length ≤ 1024 := by
          intro l w x h
          induction h with
          | start => simp
          | kept _ h => simp; omega
          | lost _ h => omega
          | told _ _ ih => simp at ih; omega
          | aside _ _ ih => exact ih
        have := this h1
        omega
  · simp [bridge, cameOf_append, cameOf, h4]

theorem bridges_tells {text : Str → Str} (now inner : Int) : ∀ (evs : List Ev) {n : NS} {cbs : List Ev}, Tells text n cbs →
    Tells text (evs.foldl (bridge text now inner) n) (cbs ++ evs) := by
  intro evs
  induction evs with
  | nil => intro n cbs h; simpa using h
  | cons e es ih =>
    intro n cbs h
    have := ih (bridge_tells now inner e h)
    simpa using this

theorem bridges_same (text : Str → Str) (now inner : Int) : ∀ (evs : List Ev) (n : NS),
    (evs.foldl (bridge text now inner) n).h = n.h ∧ (evs.foldl (bridge text now inner) n).set = n.set ∧
    (evs.foldl (bridge text now inner) n).js = n.js ∧ (evs.foldl (bridge text now inner) n).freed = n.freed ∧
    closeRets (evs.foldl (bridge text now inner) n).log = closeRets n.log := by
  intro evs
  induction evs with
  | nil => intro n; exact ⟨rfl, rfl, rfl, rfl, rfl⟩
  | cons e es ih =>
    intro n
    obtain ⟨h1, h2, h3, h4, h5⟩ := ih (bridge text now inner n e)
    refine ⟨h1, h2, h3, h4, ?_⟩
    rw [List.foldl_cons, h5]
    simp [bridge, closeRets_append, closeRets]

/-- Nobody but the callback makes the watcher's thread enter `close()`. -/
theorem plain_step {cfg : Cfg} {s s' : St} {a : Act} (hf : FutInv s) (ha : a ≠ .cbClose) (hp : ∀ c k, s.w ≠ .selfClose c k)
    (hs : step cfg s a = some s') : ∀ c k, s'.w ≠ .selfClose c k := by
  intro c n hw
  cases a with
  | w =>
    simp only [step, wStep] at hs
    split at hs <;> (try split at hs) <;> (try split at hs) <;> simp at hs <;> subst hs <;> simp [callCb] at hw <;>
      first
      | (split at hw <;> cases hw)
      | (exact hp _ _ (by assumption))
  | cbClose => exact ha rfl
  | cbReturn =>
    simp only [step] at hs
    split at hs <;> simp at hs
    rename_i m hm
    subst hs
    have := hf.f11 m hm
    simp only at hw
    subst hw
    simp [Flat] at this
  | wOpen evs r => simp only [step] at hs; split at hs <;> (try split at hs) <;> simp at hs; subst hs; simp at hw
  | wWake items => simp only [step] at hs; split at hs <;> (try split at hs) <;> simp at hs; subst hs; simp at hw
  | wWakeErr => simp only [step] at hs; split at hs <;> simp at hs; subst hs; simp at hw
  | o => rw [(owner_frame rfl hs).1] at hw; exact hp _ _ hw
  | oClose => rw [(owner_frame rfl hs).1] at hw; exact hp _ _ hw
  | oDtor => rw [(owner_frame rfl hs).1] at hw; exact hp _ _ hw

theorem settle_w (cfg : Cfg) (h : H) : (settle cfg h).life.w = h.life.w := by
  simp only [settle]
  split
  · rfl
  · split
    · split
      · split
        · rename_i hd; exact (owner_frame rfl hd).1
        · rfl
      · rfl
    · rfl
    · rfl

theorem plain_hstep {cfg : Cfg} {h h' : H} {a : HAct} (hi : HInv cfg h) (ha : a ≠ .life .cbClose) (hp : ∀ c k, h.life.w ≠ .selfClose c k)
    (hs : hstep cfg h a = .ok (some h')) : ∀ c k, h'.life.w ≠ .selfClose c k := by
  cases a with
  | life a =>
    simp only [hstep] at hs
    split at hs
    · cases hl : step cfg h.life a with
      | none => rw [hl] at hs; simp at hs
      | some l =>
        rw [hl] at hs; simp at hs; subst hs
        rw [settle_w]
        exact plain_step (fut_reachable hi.reach) (fun e => ha (by rw [e])) hp hl
    · simp at hs
  | close =>
    simp only [hstep] at hs
    split at hs
    · simp at hs
    · split at hs
      · cases hs
      · cases hl : step cfg h.life .oClose with
        | none => rw [hl] at hs; simp at hs
        | some l => rw [hl] at hs; simp at hs; subst hs; simp only; rw [(owner_frame rfl hl).1]; exact hp

/-- A step inside the library: outside a call nothing changes for the caller; a call that ends leaves one answer. -/
theorem hlife_calls {cfg : Cfg} {h h1 : H} {a : Act} (hh : hstep cfg h (.life a) = .ok (some h1)) :
    (h.inC = false → h1.inC = false ∧ h1.rets = h.rets) ∧
    (h.inC = true → h1.inC = true → h1.rets = h.rets) ∧
    (h.inC = true → h1.inC = false → ∃ b, h1.rets = h.rets ++ [b]) := by
  simp only [hstep] at hh
  split at hh
  · cases hl : step cfg h.life a with
    | none => rw [hl] at hh; simp at hh
    | some l =>
      rw [hl] at hh; simp at hh; subst hh
      refine ⟨fun g => ?_, fun g => ?_, fun g => ?_⟩
      · rw [settle_same (h := { h with life := l }) g]; exact ⟨g, rfl⟩
      · simp only [settle, g, Bool.not_true, Bool.false_eq_true, if_false]
        split
        · split
          · split <;> simp
          · simp
        · simp
        · simp
      · simp only [settle, g, Bool.not_true, Bool.false_eq_true, if_false]
        split
        · split
          · split <;> simp [g]
          · simp
        · simp
        · simp [g]
  · simp at hh

theorem tells_aside {text : Str → Str} {n : NS} {cbs : List Ev} {o : NObs} (js' : Js) (h' : H) (set' freed' : Bool) (ha : Aside o)
    (hr : running js' = running n.js) (hi : Tells text n cbs) :
    Tells text { n with h := h', set := set', js := js', freed := freed', log := n.log ++ [o] } cbs := by
  obtain ⟨⟨w, x, h1, h2, h3⟩, h4⟩ := hi
  refine ⟨⟨w, x, .aside h1 ha, h2, by simp only [hr]; exact h3⟩, ?_⟩
  rw [cameOf_append]
  cases o <;> simp_all [cameOf, Aside]

structure NInv (text : Str → Str) (cfg : Cfg) (n : NS) : Prop where
  calls : Calls cfg n
  tells : Tells text n (callbacks n.h.life.log)

theorem ninv_new (text : Str → Str) (cfg : Cfg) : NInv text cfg (nnew cfg) :=
  ⟨⟨hinv_open cfg, by simp [nnew, hopen, init], by simp [nnew, hopen], fun _ => ⟨rfl, rfl, rfl⟩, by simp [nnew]⟩,
   ⟨⟨[], [], .start, .nil, rfl⟩, rfl⟩⟩

theorem nstep_inv {text : Str → Str} {cfg : Cfg} {n n' : NS} (hi : NInv text cfg n) {a : NAct}
    (hs : nstep text cfg n a = .ok (some n')) : NInv text cfg n' := by
  obtain ⟨⟨h, plain, busy, held, let_go⟩, tells⟩ := hi
  cases a with
  | life a now inner =>
    simp only [nstep] at hs
    split at hs
    · cases hs
    · rename_i hcb
      cases hh : hstep cfg n.h (.life a) with
      | ub m => rw [hh] at hs; cases hs
      | ok o =>
        rw [hh] at hs
        cases o with
        | none => simp only [Outcome.bind_ok] at hs; cases hs
        | some h1 =>
          simp only [Outcome.bind_ok] at hs
          split at hs
          · cases hs
          · simp only [pure, Outcome.ok.injEq, Option.some.injEq] at hs
            subst hs
            have hi1 := hstep_inv h hh
            have hn := newCbs_eq (hstep_log hh)
            obtain ⟨c1, c2, c3⟩ := hlife_calls hh
            have pl := plain_hstep h (fun e => hcb (by cases e; rfl)) plain hh
            have tl : Tells text { n with h := h1 } (callbacks n.h.life.log) := ⟨tells.story, tells.same⟩
            have tl := bridges_tells now inner (newCbs n.h.life.log h1.life.log) tl
            rw [← hn] at tl
            obtain ⟨b1, b2, b3, b4, b5⟩ := bridges_same text now inner (newCbs n.h.life.log h1.life.log) { n with h := h1 }
            generalize (newCbs n.h.life.log h1.life.log).foldl (bridge text now inner) { n with h := h1 } = m at tl b1 b2 b3 b4 b5 ⊢
            simp only at b1 b2 b3 b4 b5
            have stay : (∀ c, n.js = .closing c → h1.inC = true) → NInv text cfg m := by
              intro hst
              refine ⟨⟨by rw [b1]; exact hi1, by rw [b1]; exact pl, ?_, ?_, ?_⟩, by rw [b1]; exact tl⟩
              · rw [b1, b3]
                constructor
                · intro g
                  apply busy.1
                  cases hx : n.h.inC with
                  | true => rfl
                  | false => rw [(c1 hx).1] at g; cases g
                · rintro ⟨c, hc⟩; exact hst c hc
              · intro hset
                rw [b2] at hset
                obtain ⟨k1, k2, k3⟩ := held hset
                rw [b1, b4, b5]
                refine ⟨k1, ?_, k3⟩
                rw [← k2]
                cases hx : n.h.inC with
                | false => exact (c1 hx).2
                | true => exact c2 hx (by obtain ⟨c, hc⟩ := busy.1 hx; exact hst c hc)
              · intro hset
                rw [b2] at hset
                obtain ⟨k1, k2, b, k, k3, k4⟩ := let_go hset
                rw [b1, b4, b5]
                exact ⟨k1, (c1 k2).1, b, k, by rw [(c1 k2).2]; exact k3, k4⟩
            simp only [NodeLife.back]
            split
            · rename_i fromCb hjs
              rw [b3] at hjs
              have hx : n.h.inC = true := busy.2 ⟨_, hjs⟩
              rw [b1]
              cases hc1 : h1.inC with
              | true => simp only [if_true]; exact stay (fun _ _ => hc1)
              | false =>
                simp only [Bool.false_eq_true, if_false]
                have hset : n.set = true := by
                  cases hz : n.set with
                  | true => rfl
                  | false => rw [(let_go hz).2.1] at hx; cases hx
                obtain ⟨k1, k2, k3⟩ := held hset
                obtain ⟨b, hb⟩ := c3 hx hc1
                rw [k2, List.nil_append] at hb
                refine ⟨⟨by simp only [b1]; exact hi1, by simp only [b1]; exact pl, ?_, by simp, ?_⟩, ?_⟩
                · simp only [b1, hc1]; cases fromCb <;> simp
                · intro _
                  refine ⟨rfl, by simp only [b1, hc1], b, 0, by simp only [b1, hb], ?_⟩
                  simp [closeRets_append, closeRets, b5, k3, hb]
                · have := tells_aside (o := .closeRet (h1.rets.getLast?.getD false)) (if fromCb = true then .inCb else .idle) m.h false true trivial
                    (by rw [b3, hjs]; cases fromCb <;> rfl) tl
                  simp only [b1] at this ⊢
                  exact this
            · rename_i hne
              exact stay (fun c hc => absurd (b3.trans hc) (hne c))
  | take =>
    simp only [nstep] at hs
    split at hs
    · rename_i j q hjs hq
      simp at hs; subst hs
      refine ⟨⟨h, plain, ?_, ?_, ?_⟩, ?_⟩
      · simp only [reduceCtorEq, exists_false, iff_false]
        intro hx; obtain ⟨c, hc⟩ := busy.1 hx; rw [hjs] at hc; cases hc
      · intro hset; obtain ⟨k1, k2, k3⟩ := held hset; exact ⟨k1, k2, by simp [closeRets_append, closeRets, k3]⟩
      · intro hset; obtain ⟨k1, k2, b, k, k3, k4⟩ := let_go hset; exact ⟨k1, k2, b, k, k3, by simp [closeRets_append, closeRets, k4]⟩
      · obtain ⟨⟨w, x, h1, h2, h3⟩, h4⟩ := tells
        rw [hq] at h2
        cases h2 with
        | cons hd tl =>
          rename_i e t es
          refine ⟨⟨es, x, .told h1 hd, tl, ?_⟩, by simp [cameOf_append, cameOf, h4]⟩
          simp [h3, hjs, running]; omega
    · simp at hs
  | done =>
    simp only [nstep] at hs
    split at hs
    · rename_i hjs
      simp at hs; subst hs
      refine ⟨⟨h, plain, ?_, ?_, ?_⟩, ?_⟩
      · simp only [reduceCtorEq, exists_false, iff_false]
        intro hx; obtain ⟨c, hc⟩ := busy.1 hx; rw [hjs] at hc; cases hc
      · intro hset; obtain ⟨k1, k2, k3⟩ := held hset; exact ⟨k1, k2, by simp [closeRets_append, closeRets, k3]⟩
      · intro hset; obtain ⟨k1, k2, b, k, k3, k4⟩ := let_go hset; exact ⟨k1, k2, b, k, k3, by simp [closeRets_append, closeRets, k4]⟩
      · obtain ⟨⟨w, x, h1, h2, h3⟩, h4⟩ := tells
        refine ⟨⟨w, x, .aside h1 trivial, h2, ?_⟩, by simp [cameOf_append, cameOf, h4]⟩
        simp [h3, hjs, running]
    · simp at hs
  | close =>
    simp only [nstep] at hs
    split at hs
    · simp at hs
    · rename_i hnc
      split at hs
      · rename_i hset
        simp at hset hs
        subst hs
        refine ⟨⟨h, plain, busy, by simp [hset], ?_⟩, ?_⟩
        · intro _
          obtain ⟨k1, k2, b, k, k3, k4⟩ := let_go hset
          refine ⟨k1, k2, b, k + 1, k3, ?_⟩
          simp [closeRets_append, closeRets, k4, List.replicate_succ']
        · have t1 := tells_aside (o := .closeCall) n.js n.h n.set n.freed trivial rfl tells
          have t2 := tells_aside (n := { n with log := n.log ++ [.closeCall] }) (o := .closeRet false) n.js n.h n.set n.freed trivial rfl t1
          simpa using t2
      · rename_i hset
        simp at hset
        split at hs
        · cases hs
        · cases hh : hstep cfg n.h .close with
          | ub m => rw [hh] at hs; cases hs
          | ok o =>
            rw [hh] at hs
            cases o with
            | none => simp only [Outcome.bind_ok] at hs; cases hs
            | some h1 =>
              simp only [Outcome.bind_ok, pure, Outcome.ok.injEq, Option.some.injEq] at hs
              subst hs
              have hc := close_inC hh
              obtain ⟨k1, k2, k3⟩ := held hset
              refine ⟨⟨hstep_inv h hh, plain_hstep h (by simp) plain hh, by simp [hc.1], ?_, by simp [hset]⟩, ?_⟩
              · intro _; exact ⟨k1, by simp only; rw [hclose_rets hh]; exact k2, by simp [closeRets_append, closeRets, k3]⟩
              · have := tells_aside (o := .closeCall) (.closing (n.js == .inCb)) h1 n.set n.freed trivial (by
                  cases hj : n.js with
                  | idle => rfl
                  | inCb => rfl
                  | closing c => exact absurd hj (hnc c)) tells
                simp only [hc.2]
                exact this

theorem nrun_inv {text : Str → Str} {cfg : Cfg} : ∀ (acts : List NAct) (n n' : NS), NInv text cfg n → nrun text cfg n acts = .ok (some n') →
    NInv text cfg n' := by
  intro acts
  induction acts with
  | nil => intro n n' hi hr; simp only [nrun, Outcome.ok.injEq, Option.some.injEq] at hr; exact hr ▸ hi
  | cons a as ih =>
    intro n n' hi hr
    simp only [nrun] at hr
    cases hs : nstep text cfg n a with
    | ub m => rw [hs] at hr; cases hr
    | ok o =>
      rw [hs] at hr
      cases o with
      | none => simp only [Outcome.bind_ok] at hr; cases hr
      | some n1 => simp only [Outcome.bind_ok] at hr; exact ih n1 n' (nstep_inv hi hs) hr

theorem ninv {text : Str → Str} {cfg : Cfg} {n : NS} (hr : NReach text cfg n) : NInv text cfg n := by
  obtain ⟨acts, hr⟩ := hr
  exact nrun_inv acts _ _ (ninv_new text cfg) hr

end Verif.Lemmas.NodeLife
