import Verif.Spec.NodeEnd
import Verif.Lemmas.NodeLife2
import Verif.Props.NodeLife
/-!
# The end of a Node.js program with a watch: C142, C143
-/

namespace Verif.Props
open Verif Verif.Model Verif.Model.Life Verif.Model.Handle Verif.Model.NodeLife Verif.Model.NodeEnd Verif.Spec Verif.Spec.Hd
open Verif.Spec.Node Verif.Spec.NodeEnd
open Verif.Lemmas.Life Verif.Lemmas.Handle Verif.Lemmas.NodeLife

private def cfgE : Cfg := { path := b!"/d", dirOk := true, fdOk := true }
private def sameE (s : Str) : Str := s
private def fileE : Ev := ⟨b!"/d/f", .create, .file, none⟩

/-- The thread starts, reads a batch, and tells of it. -/
private def upE (evs : List Ev) : List EAct :=
  ([Life.Act.w, .w, .w, .cbReturn, .wOpen [] .pending, .w, .w, .wWake [.ke evs .pending], .w] ++ (evs.flatMap fun _ => [Life.Act.w, .cbReturn]) ++
    [Life.Act.w, .w]).map (fun a => .node (.life a 5 6))
/-- The thread, waiting, is woken by one change. -/
private def moreE : List EAct :=
  [Life.Act.wWake [.ke [fileE] .pending], .w, .w, .cbReturn, .w, .w].map (fun a => .node (.life a 9 9))
private def downE : List EAct :=
  [Life.Act.o, .o, .o, .o, .wWake [.il], .w, .w, .w, .w, .cbReturn, .w, .o, .o, .o, .o, .o].map (fun a => .node (.life a 7 8))

private theorem ranE {o : Outcome (Option NE)} {p : NE → Prop} [DecidablePred p]
    (h : (match o with | .ok (some a) => decide (p a) | _ => false) = true) : ∃ a, o = .ok (some a) ∧ p a := by
  cases o with
  | ok a =>
    cases a with
    | none => cases h
    | some a => exact ⟨a, rfl, by simpa using h⟩
  | ub => cases h

/-! ### What holds in every program with a watch -/

private theorem freed_not_set {text : Str → Str} {cfg : Cfg} {n : NS} (hi : NInv text cfg n) (hf : n.freed = true) : n.set = false := by
  cases hz : n.set with
  | false => rfl
  | true => rw [(hi.calls.held hz).1] at hf; cases hf

private theorem set_iff {text : Str → Str} {cfg : Cfg} {n : NS} (hi : NInv text cfg n) : n.set = false ↔ closeRets n.log ≠ [] := by
  cases hz : n.set with
  | false => obtain ⟨_, _, b, k, _, h⟩ := hi.calls.let_go hz; simp [h]
  | true => simp [(hi.calls.held hz).2.2]

private theorem not_closing {text : Str → Str} {cfg : Cfg} {n : NS} (hi : NInv text cfg n) (hs : n.set = false) :
    ∀ c, n.js ≠ .closing c := fun c hc => by
  have := hi.calls.busy.2 ⟨c, hc⟩
  rw [(hi.calls.let_go hs).2.1] at this; cases this

/-- A step when `close()` has returned. -/
private theorem freed_step {text : Str → Str} {cfg : Cfg} {n n' : NS} (hi : NInv text cfg n) (hf : n.freed = true) {a : NAct}
    (hs : nstep text cfg n a = .ok (some n')) :
    n'.freed = true ∧ n'.set = false ∧
    (a = .take → n.js = .idle ∧ n'.js = .inCb ∧ n.queue.length = n'.queue.length + 1) ∧
    (a = .done → n.js = .inCb ∧ n'.js = .idle ∧ n'.queue = n.queue) ∧
    (a ≠ .take → a ≠ .done → n'.js = n.js ∧ n'.queue = n.queue) := by
  have hset := freed_not_set hi hf
  have hnc := not_closing hi hset
  cases a with
  | life a now inner =>
    simp only [nstep] at hs
    split at hs
    · cases hs
    · cases hh : hstep cfg n.h (.life a) with
      | ub m => rw [hh] at hs; cases hs
      | ok o =>
        rw [hh] at hs
        cases o with
        | none => simp only [Outcome.bind_ok] at hs; cases hs
        | some h1 =>
          simp only [Outcome.bind_ok] at hs
          split at hs
          · cases hs
          · rename_i hx
            simp only [hf, Bool.and_true, Bool.not_eq_true', Bool.not_eq_false, List.isEmpty_iff] at hx
            rw [hx] at hs
            simp only [List.foldl_nil, pure, Outcome.ok.injEq, Option.some.injEq] at hs
            have hbk : NodeLife.back { n with h := h1 } = { n with h := h1 } := by
              cases hj : n.js with
              | closing c => exact absurd hj (hnc c)
              | idle => simp [NodeLife.back, hj]
              | inCb => simp [NodeLife.back, hj]
            rw [hbk] at hs
            subst hs
            exact ⟨hf, hset, by simp, by simp, fun _ _ => ⟨rfl, rfl⟩⟩
  | take =>
    simp only [nstep] at hs
    split at hs
    · rename_i j q hj hq
      simp at hs; subst hs
      exact ⟨hf, hset, fun _ => ⟨hj, rfl, by simp [hq]⟩, by simp, fun h => absurd rfl h⟩
    · simp at hs
  | done =>
    simp only [nstep] at hs
    split at hs
    · rename_i hj
      simp at hs; subst hs
      exact ⟨hf, hset, by simp, fun _ => ⟨hj, rfl, rfl⟩, fun _ h => absurd rfl h⟩
    · simp at hs
  | close =>
    have hx : nstep text cfg n .close = .ok (some { n with log := n.log ++ [.closeCall, .closeRet false] }) := by
      cases hj : n.js with
      | closing c => exact absurd hj (hnc c)
      | idle => simp [nstep, hj, hset]
      | inCb => simp [nstep, hj, hset]
    rw [hx] at hs
    simp at hs; subst hs
    exact ⟨hf, hset, by simp, by simp, fun _ _ => ⟨rfl, rfl⟩⟩

private structure EInv (text : Str → Str) (cfg : Cfg) (s : NE) : Prop where
  node : s.ended ≠ some false → NInv text cfg s.n
  h : HInv cfg s.n.h
  shut : s.n.set = false → s.n.freed = true ∧ s.n.h.inC = false ∧ s.n.h.rets ≠ [] ∧ closeRets s.n.log ≠ []
  opened : s.n.set = true → s.n.freed = false ∧ closeRets s.n.log = []
  dropped : s.kept = false → s.n.freed = true ∧ s.n.queue = []
  own : s.ended = some true → s.kept = false
  idle : s.ended ≠ none → s.n.js = .idle
  copies : s.ended = some false → ∃ w x, Story text s.n.log w x ∧ s.n.copies = x.length + s.late.length
  late : s.late.length ≤ 1
  up : s.ended ≠ some false → s.late = []

private theorem einv_of {text : Str → Str} {cfg : Cfg} {s : NE} (hn : NInv text cfg s.n) (hu : s.ended = none)
    (hd : s.kept = false → s.n.freed = true ∧ s.n.queue = []) (hl : s.late = []) : EInv text cfg s where
  node := fun _ => hn
  h := hn.calls.h
  shut := fun g => by
    obtain ⟨h1, h2, b, k, h3, h4⟩ := hn.calls.let_go g
    exact ⟨h1, h2, by simp [h3], by simp [h4]⟩
  opened := fun g => ⟨(hn.calls.held g).1, (hn.calls.held g).2.2⟩
  dropped := hd
  own := fun g => by rw [hu] at g; cases g
  idle := fun g => absurd hu g
  copies := fun g => by rw [hu] at g; cases g
  late := by simp [hl]
  up := fun _ => hl

private theorem lateBridge_some {now : Int} : ∀ {evs : List Ev} {s s' : NE}, lateBridge now s evs = .ok s' →
    s'.ended = s.ended ∧ s'.kept = s.kept ∧ (s.late.length ≤ 1 → s'.late.length ≤ 1) ∧
    ∃ k, s'.late.length = s.late.length + k ∧ s'.n = { s.n with copies := s.n.copies + k } ∧ (evs = [] → s' = s) := by
  intro evs
  induction evs with
  | nil => intro s s' h; simp only [lateBridge, Outcome.ok.injEq] at h; subst h; exact ⟨rfl, rfl, id, 0, rfl, rfl, fun _ => rfl⟩
  | cons e es ih =>
    intro s s' h
    simp only [lateBridge] at h
    split at h
    · cases h
    · rename_i hl
      simp at hl
      obtain ⟨h1, h2, h3, k, h4, h5, _⟩ := ih h
      refine ⟨h1, h2, fun _ => h3 (by simp [hl]), k + 1, ?_, ?_, by simp⟩
      · simp only [List.length_append, List.length_cons, List.length_nil] at h4; omega
      · rw [h5]; simp only [NS.mk.injEq, true_and, and_true]; omega

private theorem estep_inv {text : Str → Str} {cfg : Cfg} {s s' : NE} (hi : EInv text cfg s) {a : EAct}
    (hs : estep text cfg s a = .ok (some s')) : EInv text cfg s' := by
  cases a with
  | node a =>
    simp only [estep] at hs
    split at hs
    · rename_i hu
      have hn := hi.node (by simp [hu])
      cases hh : nstep text cfg s.n a with
      | ub m => rw [hh] at hs; cases hs
      | ok o =>
        rw [hh] at hs
        cases o with
        | none => simp only [Outcome.bind_ok] at hs; cases hs
        | some n1 =>
          simp only [Outcome.bind_ok, pure, Outcome.ok.injEq, Option.some.injEq] at hs
          subst hs
          refine einv_of (nstep_inv hn hh) hu (fun g => ?_) (hi.up (by simp [hu]))
          obtain ⟨hf, hq⟩ := hi.dropped g
          obtain ⟨k1, k2, k3, k4, k5⟩ := freed_step hn hf hh
          refine ⟨k1, ?_⟩
          by_cases e1 : a = .take
          · have := (k3 e1).2.2; rw [hq] at this; simp at this
          · by_cases e2 : a = .done
            · rw [(k4 e2).2.2]; exact hq
            · rw [(k5 e1 e2).2]; exact hq
    · rename_i hu
      cases a with
      | life a now inner =>
        simp only [lateStep] at hs
        split at hs
        · cases hs
        · rename_i hne
          cases hh : hstep cfg s.n.h (.life a) with
          | ub m => rw [hh] at hs; cases hs
          | ok o =>
            rw [hh] at hs
            cases o with
            | none => simp only [Outcome.bind_ok] at hs; cases hs
            | some h1 =>
              simp only [Outcome.bind_ok] at hs
              split at hs
              · cases hs
              · rename_i hx
                cases hb : lateBridge now { s with n := { s.n with h := h1 } } (newCbs s.n.h.life.log h1.life.log) with
                | ub m => rw [hb] at hs; cases hs
                | ok s2 =>
                  rw [hb] at hs
                  simp only [Outcome.bind_ok, pure, Outcome.ok.injEq, Option.some.injEq] at hs
                  subst hs
                  obtain ⟨e1, e2, e3, k, e4, e5, e6⟩ := lateBridge_some hb
                  simp only at e1 e2 e3 e4 e5
                  have hH := hstep_inv hi.h hh
                  have hc := hlife_calls hh
                  have hnil : s.n.freed = true → newCbs s.n.h.life.log h1.life.log = [] := fun g => by
                    simpa [g] using hx
                  have own0 : s.ended ≠ some false → s.kept = false := fun g => by
                    cases he : s.ended with
                    | none => exact absurd he hu
                    | some b => cases b with
                      | true => exact hi.own he
                      | false => exact absurd he g
                  have k0 : s.ended ≠ some false → k = 0 ∧ newCbs s.n.h.life.log h1.life.log = [] := fun g => by
                    have := hnil (hi.dropped (own0 g)).1
                    have h6 := e6 this
                    rw [h6] at e4; exact ⟨by simpa using e4, this⟩
                  refine ⟨fun g => ?_, ?_, fun g => ?_, fun g => ?_, fun g => ?_, fun g => ?_, fun g => ?_, fun g => ?_, e3 hi.late, fun g => ?_⟩
                  · rw [e1] at g
                    have hn := hi.node g
                    obtain ⟨hk, hev⟩ := k0 g
                    have hj : s.n.js = .idle := hi.idle hu
                    have : nstep text cfg s.n (.life a now inner) = .ok (some { s.n with h := h1 }) := by
                      simp only [nstep, if_neg hne, hh, Outcome.bind_ok, hev, List.isEmpty_nil, Bool.not_true, Bool.false_and, Bool.false_eq_true, if_false,
                        List.foldl_nil, NodeLife.back, hj, pure]
                    have := nstep_inv hn this
                    rw [e5, hk]; exact this
                  · rw [e5]; exact hH
                  · rw [e5] at g ⊢
                    obtain ⟨j1, j2, j3, j4⟩ := hi.shut g
                    exact ⟨j1, (hc.1 j2).1, by simp only [(hc.1 j2).2]; exact j3, j4⟩
                  · rw [e5] at g ⊢; exact hi.opened g
                  · rw [e2] at g; rw [e5]; exact hi.dropped g
                  · rw [e1] at g; rw [e2]; exact hi.own g
                  · rw [e5]; exact hi.idle hu
                  · rw [e1] at g
                    obtain ⟨w, x, h1, h2⟩ := hi.copies g
                    refine ⟨w, x, by rw [e5]; exact h1, ?_⟩
                    rw [e5, e4]; simp only [h2]; omega
                  · rw [e1] at g
                    have := hi.up g
                    have := (k0 g).1
                    apply List.eq_nil_of_length_eq_zero
                    simp_all
      | take => simp at hs
      | done => simp at hs
      | close => simp at hs
  | drop =>
    simp only [estep] at hs
    split at hs
    · rename_i hx
      simp at hs; subst hs
      exact einv_of (hi.node (by simp [hx.1])) hx.1 (fun _ => ⟨hx.2.2.2.2, hx.2.2.2.1⟩) (hi.up (by simp [hx.1]))
    · simp at hs
  | empty =>
    simp only [estep] at hs
    split at hs
    · rename_i hx
      simp at hs; subst hs
      have hn := hi.node (by simp [hx.1])
      exact ⟨fun _ => hn, hi.h, hi.shut, hi.opened, hi.dropped, fun _ => hx.2.1, fun _ => hx.2.2, by simp, hi.late, fun _ => hi.up (by simp [hx.1])⟩
    · simp at hs
  | stop =>
    simp only [estep] at hs
    split at hs
    · rename_i hx
      simp at hs; subst hs
      have hn := hi.node (by simp [hx.1])
      have hl := hi.up (by simp [hx.1])
      refine ⟨by simp, hi.h, hi.shut, hi.opened, fun g => ⟨(hi.dropped g).1, rfl⟩, by simp, fun _ => rfl, fun _ => ?_, hi.late, by simp⟩
      obtain ⟨⟨w, x, h1, h2, h3⟩, _⟩ := hn.tells
      refine ⟨w, x, h1, ?_⟩
      have hw := allSame_length h2
      rw [hl]
      simp only [List.length_nil, Nat.add_zero]
      have hr : (if running s.n.js then 1 else 0) = inCbCopies s.n.js := by
        cases hj : s.n.js with
        | idle => rfl
        | inCb => rfl
        | closing c => rw [hj] at hx; simp [stoppable] at hx
      rw [h3, hr]; omega
    · simp at hs

private theorem erun_inv {text : Str → Str} {cfg : Cfg} : ∀ (acts : List EAct) (s s' : NE), EInv text cfg s →
    erun text cfg s acts = .ok (some s') → EInv text cfg s' := by
  intro acts
  induction acts with
  | nil => intro s s' hi h; simp only [erun, Outcome.ok.injEq, Option.some.injEq] at h; subst h; exact hi
  | cons a as ih =>
    intro s s' hi h
    simp only [erun] at h
    cases hs : estep text cfg s a with
    | ub m => rw [hs] at h; cases h
    | ok o =>
      rw [hs] at h
      cases o with
      | none => simp only [Outcome.bind_ok] at h; cases h
      | some s1 => simp only [Outcome.bind_ok] at h; exact ih s1 s' (estep_inv hi hs) h

private theorem einv_new (text : Str → Str) (cfg : Cfg) : EInv text cfg (enew cfg) :=
  einv_of (ninv_new text cfg) rfl (by simp [enew]) rfl

private theorem einv {text : Str → Str} {cfg : Cfg} {s : NE} (hr : EReach text cfg s) : EInv text cfg s := by
  obtain ⟨acts, h⟩ := hr
  exact erun_inv acts _ _ (einv_new text cfg) h

/-! ## C142 -/

/-- C142: a program that was not told to end has ended only if `close()` has returned, and the callback was called for every event of the
library, except those lost in a burst (C128): nothing waits. So a program with an open watch never ends by itself. -/
theorem C142_ends_only_closed (text : Str → Str) (cfg : Cfg) (s : NE) (hr : EReach text cfg s) (he : s.ended = some true) :
    Closed s ∧ ∃ lost, Story text s.n.log [] lost := by
  have hi := einv hr
  have hn := hi.node (by simp [he])
  obtain ⟨hf, hq⟩ := hi.dropped (hi.own he)
  refine ⟨(set_iff hn).1 (freed_not_set hn hf), ?_⟩
  obtain ⟨⟨w, x, h1, h2, _⟩, _⟩ := hn.tells
  have hw := allSame_length h2
  rw [hq] at hw
  cases w with
  | nil => exact ⟨x, h1⟩
  | cons => simp at hw

/-- Steps of the event loop that are left. -/
private def left (s : NE) : Nat := 2 * s.n.queue.length + inCbCopies s.n.js + (if s.kept then 1 else 0)

private theorem closed_step {text : Str → Str} {cfg : Cfg} {s s' : NE} (hi : EInv text cfg s) (hu : s.ended = none) (hf : s.n.freed = true) {a : EAct}
    (hs : estep text cfg s a = .ok (some s')) :
    s'.n.freed = true ∧ (s'.ended = none → left s' + (if LoopStep a then 1 else 0) ≤ left s) := by
  have hn := hi.node (by simp [hu])
  cases a with
  | node a =>
    simp only [estep, hu, if_true] at hs
    cases hh : nstep text cfg s.n a with
    | ub m => rw [hh] at hs; cases hs
    | ok o =>
      rw [hh] at hs
      cases o with
      | none => simp only [Outcome.bind_ok] at hs; cases hs
      | some n1 =>
        simp only [Outcome.bind_ok, pure, Outcome.ok.injEq, Option.some.injEq] at hs
        subst hs
        obtain ⟨k1, _, k3, k4, k5⟩ := freed_step hn hf hh
        refine ⟨k1, fun _ => ?_⟩
        cases a with
        | take => obtain ⟨j1, j2, j3⟩ := k3 rfl; simp only [left, j1, j2, j3, inCbCopies, LoopStep, if_true]; omega
        | done => obtain ⟨j1, j2, j3⟩ := k4 rfl; simp only [left, j1, j2, j3, inCbCopies, LoopStep, if_true]; omega
        | close => obtain ⟨j1, j2⟩ := k5 (by simp) (by simp); simp [left, j1, j2, LoopStep]
        | life a now inner => obtain ⟨j1, j2⟩ := k5 (by simp) (by simp); simp [left, j1, j2, LoopStep]
  | drop =>
    simp only [estep] at hs
    split at hs
    · rename_i hx
      simp at hs; subst hs
      exact ⟨hf, fun _ => by simp only [left, hx.2.1, LoopStep, if_true, Bool.false_eq_true, if_false]; omega⟩
    · simp at hs
  | empty =>
    simp only [estep] at hs
    split at hs
    · simp at hs; subst hs; exact ⟨hf, by simp⟩
    · simp at hs
  | stop =>
    simp only [estep] at hs
    split at hs
    · simp at hs; subst hs; exact ⟨hf, by simp⟩
    · simp at hs

private theorem ended_stays {text : Str → Str} {cfg : Cfg} {s s' : NE} {a : EAct} (he : s.ended ≠ none) (hs : estep text cfg s a = .ok (some s')) :
    s'.ended = s.ended := by
  cases a with
  | node a =>
    simp only [estep, if_neg he] at hs
    cases a with
    | life a now inner =>
      simp only [lateStep] at hs
      split at hs
      · cases hs
      · cases hh : hstep cfg s.n.h (.life a) with
        | ub m => rw [hh] at hs; cases hs
        | ok o =>
          rw [hh] at hs
          cases o with
          | none => simp only [Outcome.bind_ok] at hs; cases hs
          | some h1 =>
            simp only [Outcome.bind_ok] at hs
            split at hs
            · cases hs
            · cases hb : lateBridge now { s with n := { s.n with h := h1 } } (newCbs s.n.h.life.log h1.life.log) with
              | ub m => rw [hb] at hs; cases hs
              | ok s2 =>
                rw [hb] at hs
                simp only [Outcome.bind_ok, pure, Outcome.ok.injEq, Option.some.injEq] at hs
                subst hs
                exact (lateBridge_some hb).1
    | take => simp at hs
    | done => simp at hs
    | close => simp at hs
  | drop => simp only [estep] at hs; rw [if_neg (by simp [he])] at hs; simp at hs
  | empty => simp only [estep] at hs; rw [if_neg (by simp [he])] at hs; simp at hs
  | stop => simp only [estep] at hs; rw [if_neg (by simp [he])] at hs; simp at hs

private theorem ended_run {text : Str → Str} {cfg : Cfg} : ∀ (acts : List EAct) (s s' : NE), s.ended ≠ none →
    erun text cfg s acts = .ok (some s') → s'.ended = s.ended := by
  intro acts
  induction acts with
  | nil => intro s s' _ h; simp only [erun, Outcome.ok.injEq, Option.some.injEq] at h; subst h; rfl
  | cons a as ih =>
    intro s s' he h
    simp only [erun] at h
    cases hs : estep text cfg s a with
    | ub m => rw [hs] at h; cases h
    | ok o =>
      rw [hs] at h
      cases o with
      | none => simp only [Outcome.bind_ok] at h; cases h
      | some s1 =>
        simp only [Outcome.bind_ok] at h
        have := ended_stays he hs
        rw [ih s1 s' (by rw [this]; exact he) h, this]

/-- C142: when `close()` has returned, the event loop can make only so many steps before the program has ended: two for each event that
waits, one for the callback that is running, one to let go of the thread-safe function. (Whatever the program does meanwhile with a closed watch.) -/
theorem C142_end_is_bounded (text : Str → Str) (cfg : Cfg) (s : NE) (hr : EReach text cfg s) (hc : Closed s) (acts : List EAct) (s' : NE)
    (h : erun text cfg s acts = .ok (some s')) (hn : s'.ended = none) :
    (acts.filter LoopStep).length ≤ 2 * s.n.queue.length + 2 := by
  have gen : ∀ (acts : List EAct) (s : NE), EInv text cfg s → s.n.freed = true → erun text cfg s acts = .ok (some s') →
      (acts.filter LoopStep).length ≤ left s := by
    intro acts
    induction acts with
    | nil => intro s _ _ _; simp
    | cons a as ih =>
      intro s hi hf h
      have hu : s.ended = none := by
        cases he : s.ended with
        | none => rfl
        | some b => have := ended_run _ s s' (by simp [he]) h; rw [hn, he] at this; cases this
      simp only [erun] at h
      cases hs : estep text cfg s a with
      | ub m => rw [hs] at h; cases h
      | ok o =>
        rw [hs] at h
        cases o with
        | none => simp only [Outcome.bind_ok] at h; cases h
        | some s1 =>
          simp only [Outcome.bind_ok] at h
          have hu1 : s1.ended = none := by
            cases he : s1.ended with
            | none => rfl
            | some b => have := ended_run _ s1 s' (by simp [he]) h; rw [hn, he] at this; cases this
          obtain ⟨k1, k2⟩ := closed_step hi hu hf hs
          have k3 := k2 hu1
          have k4 := ih s1 (estep_inv hi hs) k1 h
          simp only [List.filter_cons]
          split
          · rename_i hl; simp only [hl, if_true] at k3; simp only [List.length_cons]; omega
          · omega
  have hi := einv hr
  have hu : s.ended = none := by
    cases he : s.ended with
    | none => rfl
    | some b => have := ended_run _ s s' (by simp [he]) h; rw [hn, he] at this; cases this
  have hni := hi.node (by simp [hu])
  have hset := (set_iff hni).2 hc
  have := gen acts s hi (hi.shut hset).1 h
  have : left s ≤ 2 * s.n.queue.length + 2 := by
    simp only [left]
    have : inCbCopies s.n.js ≤ 1 := by cases s.n.js <;> simp [inCbCopies]
    split <;> omega
  omega

/-- C142: and it is never stuck: when `close()` has returned, the event loop or the callback can make a step, until the program has ended. -/
theorem C142_never_stuck (text : Str → Str) (cfg : Cfg) (s : NE) (hr : EReach text cfg s) (hc : Closed s) (hu : s.ended = none) :
    ∃ a s', LoopStep a = true ∧ estep text cfg s a = .ok (some s') := by
  have hi := einv hr
  have hni := hi.node (by simp [hu])
  have hset := (set_iff hni).2 hc
  have hf := (hi.shut hset).1
  cases hj : s.n.js with
  | closing c => exact absurd hj (not_closing hni hset c)
  | inCb => exact ⟨.node .done, { s with n := { s.n with js := .idle, copies := s.n.copies - 1, log := s.n.log ++ [.returned] } }, rfl,
      by simp [estep, hu, nstep, hj]⟩
  | idle =>
    cases hq : s.n.queue with
    | cons j q => exact ⟨.node .take, { s with n := { s.n with js := .inCb, queue := q, log := s.n.log ++ [.told j] } }, rfl,
        by simp [estep, hu, nstep, hj, hq]⟩
    | nil =>
      cases hk : s.kept with
      | true => exact ⟨.drop, { s with kept := false }, rfl, by simp [estep, hu, hk, hj, hq, hf]⟩
      | false => exact ⟨.empty, { s with ended := some true }, rfl, by simp [estep, hu, hk, hj]⟩

/-- A program that closes its watch inside the first callback: the two other events are told, then it ends by itself. -/
private theorem end_ran : ∃ s, erun sameE cfgE (enew cfgE)
      (upE [fileE] ++ [.node .take, .node .close] ++ downE ++ [.node .done, .node .take, .node .done, .node .take, .node .done, .drop, .empty]) = .ok (some s) ∧
    s.ended = some true ∧ closeRets s.n.log = [true] ∧ (toldOf s.n.log).length = 3 ∧ s.n.copies = 0 ∧ s.late = [] :=
  ranE (by decide +kernel)

example : ∃ s, EReach sameE cfgE s ∧ s.ended = some true := let ⟨s, h, e, _⟩ := end_ran; ⟨s, ⟨_, h⟩, e⟩

example : ∃ s, EReach sameE cfgE s ∧ Closed s ∧ s.ended = none ∧ s.n.queue.length = 2 :=
  let ⟨s, h, e⟩ := ranE (o := erun sameE cfgE (enew cfgE) (upE [fileE] ++ [.node .take, .node .close] ++ downE))
    (p := fun s => closeRets s.n.log ≠ [] ∧ s.ended = none ∧ s.n.queue.length = 2) (by decide +kernel)
  ⟨s, ⟨_, h⟩, e⟩

/-! ## C143 -/

/-- The full claim: with a working stop signal, nothing that the program, its end and the watcher's thread do is undefined. -/
def C143_full : Prop := ∀ (text : Str → Str) (cfg : Cfg), cfg.fdOk = true → ∀ (acts : List EAct) (m : String), erun text cfg (enew cfg) acts ≠ .ub m

/-- A Worker ends with an open watch, and two files are created later: the second event uses the thread-safe function after Node.js
has answered that it is gone. -/
theorem C143_refuted : ¬ C143_full := fun h =>
  h sameE cfgE rfl (upE [] ++ [.stop] ++ moreE ++ moreE) "napi_call_threadsafe_function after napi_closing" (by decide +kernel)

private theorem lateBridge_ub {now : Int} : ∀ {evs : List Ev} {s : NE} {m : String}, lateBridge now s evs = .ub m →
    s.late.length + evs.length ≥ 2 ∧ evs ≠ [] := by
  intro evs
  induction evs with
  | nil => intro s m h; simp [lateBridge] at h
  | cons e es ih =>
    intro s m h
    refine ⟨?_, by simp⟩
    simp only [lateBridge] at h
    split at h
    · rename_i hl
      have : s.late.length ≠ 0 := by simpa using hl
      simp only [List.length_cons]; omega
    · have := (ih h).1
      simp only [List.length_append, List.length_cons, List.length_nil] at this
      simp only [List.length_cons]; omega

private theorem lateBridge_two {now : Int} : ∀ {evs : List Ev} {s : NE}, s.late.length + evs.length ≥ 2 → evs ≠ [] → ∃ m, lateBridge now s evs = .ub m := by
  intro evs
  induction evs with
  | nil => intro s _ h; exact absurd rfl h
  | cons e es ih =>
    intro s h _
    simp only [lateBridge]
    split
    · exact ⟨_, rfl⟩
    · rename_i hl
      simp at hl
      cases es with
      | nil => simp [hl] at h
      | cons e' es => exact ih (by simp only [hl, List.nil_append, List.length_cons, List.length_nil]; omega) (by simp)

private theorem estep_ub_core {text : Str → Str} {cfg : Cfg} (hfd : cfg.fdOk = true) {s : NE} (hi : EInv text cfg s) (a : EAct) :
    (∃ m, estep text cfg s a = .ub m) ↔
      s.ended = some false ∧ ¬ Closed s ∧ ∃ b now inner h' new, a = .node (.life b now inner) ∧ b ≠ .cbClose ∧
        hstep cfg s.n.h (.life b) = .ok (some h') ∧ callbacks h'.life.log = callbacks s.n.h.life.log ++ new ∧ new ≠ [] ∧
        2 ≤ s.late.length + new.length := by
  constructor
  · rintro ⟨m, h⟩
    cases a with
    | node a =>
      simp only [estep] at h
      split at h
      · rename_i hu
        exfalso
        have hn := hi.node (by simp [hu])
        cases hh : nstep text cfg s.n a with
        | ok o => rw [hh] at h; cases o <;> (simp only [Outcome.bind_ok] at h; cases h)
        | ub m' => exact absurd hh (nstep_safe hfd hn a m')
      · rename_i hu
        cases a with
        | take => simp at h
        | done => simp at h
        | close => simp at h
        | life b now inner =>
          simp only [lateStep] at h
          split at h
          · cases h
          · rename_i hne
            cases hh : hstep cfg s.n.h (.life b) with
            | ub m' => exact absurd (hstep_ub hh).1 (by simp)
            | ok o =>
              rw [hh] at h
              cases o with
              | none => simp only [Outcome.bind_ok] at h; cases h
              | some h1 =>
                simp only [Outcome.bind_ok] at h
                have hset : newCbs s.n.h.life.log h1.life.log ≠ [] → s.n.set = true := fun hx => by
                  cases hz : s.n.set with
                  | true => rfl
                  | false =>
                    obtain ⟨_, j2, j3, _⟩ := hi.shut hz
                    exact absurd (empty_of_finished (ended_of_rets hfd hi.h j2 j3) hh) hx
                split at h
                · rename_i hx
                  simp only [Bool.and_eq_true, Bool.not_eq_true', List.isEmpty_eq_false_iff] at hx
                  have := (hi.opened (hset hx.1)).1
                  rw [hx.2] at this; cases this
                · cases hb : lateBridge now { s with n := { s.n with h := h1 } } (newCbs s.n.h.life.log h1.life.log) with
                  | ok s2 => rw [hb] at h; simp only [Outcome.bind_ok] at h; cases h
                  | ub m' =>
                    obtain ⟨k1, k2⟩ := lateBridge_ub hb
                    have ho := hi.opened (hset k2)
                    refine ⟨?_, by simp [Closed, ho.2], b, now, inner, h1, _, rfl, hne, hh, newCbs_eq (hstep_log hh), k2, k1⟩
                    cases he : s.ended with
                    | none => exact absurd he hu
                    | some c => cases c with
                      | false => rfl
                      | true =>
                        have := (hi.dropped (hi.own he)).1
                        rw [ho.1] at this; cases this
    | drop => simp only [estep] at h; split at h <;> cases h
    | empty => simp only [estep] at h; split at h <;> cases h
    | stop => simp only [estep] at h; split at h <;> cases h
  · rintro ⟨he, hc, b, now, inner, h', new, rfl, hne, hh, hl, hnew, h2⟩
    have hnew' : newCbs s.n.h.life.log h'.life.log = new := by
      have := newCbs_eq (hstep_log hh)
      rw [hl] at this
      exact (List.append_cancel_left this).symm
    have hopen : s.n.freed = false := by
      cases hz : s.n.set with
      | true => exact (hi.opened hz).1
      | false => exact absurd (hi.shut hz).2.2.2 hc
    obtain ⟨m, hm⟩ := lateBridge_two (now := now) (s := { s with n := { s.n with h := h' } }) h2 hnew
    simp only [he, hopen] at hm
    refine ⟨m, ?_⟩
    simp only [estep, he, lateStep, if_neg hne, hh, Outcome.bind_ok, hnew', hopen, Bool.and_false, Bool.false_eq_true, if_false, hm, reduceCtorEq]
    rfl

/-- C143 (partial: the exact condition): with a working stop signal a step is undefined exactly if the environment was told to end while
the watch was open, and the library's callback is called for the second time since then. -/
theorem C143_exact_partial (text : Str → Str) (cfg : Cfg) (hfd : cfg.fdOk = true) (s : NE) (hr : EReach text cfg s) (a : EAct) :
    (∃ m, estep text cfg s a = .ub m) ↔
      s.ended = some false ∧ ¬ Closed s ∧ ∃ b now inner h' new, a = .node (.life b now inner) ∧ b ≠ .cbClose ∧
        hstep cfg s.n.h (.life b) = .ok (some h') ∧ callbacks h'.life.log = callbacks s.n.h.life.log ++ new ∧ new ≠ [] ∧
        2 ≤ s.late.length + new.length :=
  estep_ub_core hfd (einv hr) a

/-- Only an end with an open watch leads to an ended environment with an open watch. -/
private theorem step_closed {text : Str → Str} {cfg : Cfg} {s s' : NE} {a : EAct} (hp : s.ended = some false → Closed s) (ha : a = .stop → Closed s)
    (hs : estep text cfg s a = .ok (some s')) : s'.ended = some false → Closed s' := by
  intro g
  by_cases he : s.ended = none
  · cases a with
    | node a =>
      exfalso
      simp only [estep, he, if_true] at hs
      cases hh : nstep text cfg s.n a with
      | ub m => rw [hh] at hs; cases hs
      | ok o =>
        rw [hh] at hs
        cases o with
        | none => simp only [Outcome.bind_ok] at hs; cases hs
        | some n1 =>
          simp only [Outcome.bind_ok, pure, Outcome.ok.injEq, Option.some.injEq] at hs
          subst hs
          simp [he] at g
    | drop =>
      simp only [estep] at hs
      split at hs
      · simp at hs; subst hs; simp [he] at g
      · simp at hs
    | empty =>
      simp only [estep] at hs
      split at hs
      · simp at hs; subst hs; simp at g
      · simp at hs
    | stop =>
      simp only [estep] at hs
      split at hs
      · simp at hs; subst hs; exact ha rfl
      · simp at hs
  · have hc := hp (by rw [← ended_stays he hs]; exact g)
    have hlog : s'.n.log = s.n.log := by
      cases a with
      | node a =>
        simp only [estep, if_neg he] at hs
        cases a with
        | life a now inner =>
          simp only [lateStep] at hs
          split at hs
          · cases hs
          · cases hh : hstep cfg s.n.h (.life a) with
            | ub m => rw [hh] at hs; cases hs
            | ok o =>
              rw [hh] at hs
              cases o with
              | none => simp only [Outcome.bind_ok] at hs; cases hs
              | some h1 =>
                simp only [Outcome.bind_ok] at hs
                split at hs
                · cases hs
                · cases hb : lateBridge now { s with n := { s.n with h := h1 } } (newCbs s.n.h.life.log h1.life.log) with
                  | ub m => rw [hb] at hs; cases hs
                  | ok s2 =>
                    rw [hb] at hs
                    simp only [Outcome.bind_ok, pure, Outcome.ok.injEq, Option.some.injEq] at hs
                    subst hs
                    obtain ⟨_, _, _, k, _, e5, _⟩ := lateBridge_some hb
                    rw [e5]
        | take => simp at hs
        | done => simp at hs
        | close => simp at hs
      | drop => simp only [estep] at hs; rw [if_neg (by simp [he])] at hs; simp at hs
      | empty => simp only [estep] at hs; rw [if_neg (by simp [he])] at hs; simp at hs
      | stop => simp only [estep] at hs; rw [if_neg (by simp [he])] at hs; simp at hs
    simp only [Closed, hlog]; exact hc

/-- C143 (partial): a run that is undefined somewhere contains an end with an open watch before that; so a program that closes its watch before
it ends its environment (or that ends by itself) is safe. -/
theorem C143_closed_first_partial (text : Str → Str) (cfg : Cfg) (hfd : cfg.fdOk = true) (acts : List EAct) (m : String)
    (h : erun text cfg (enew cfg) acts = .ub m) :
    ∃ pre post s, acts = pre ++ .stop :: post ∧ erun text cfg (enew cfg) pre = .ok (some s) ∧ ¬ Closed s := by
  have gen : ∀ (acts : List EAct) (s : NE), EInv text cfg s → (s.ended = some false → Closed s) → erun text cfg s acts = .ub m →
      ∃ pre post s', acts = pre ++ .stop :: post ∧ erun text cfg s pre = .ok (some s') ∧ ¬ Closed s' := by
    intro acts
    induction acts with
    | nil => intro s _ _ h; simp [erun] at h
    | cons a as ih =>
      intro s hi hp h
      by_cases hst : a = .stop ∧ ¬ Closed s
      · exact ⟨[], as, s, by simp [hst.1], rfl, hst.2⟩
      · simp only [erun] at h
        cases hs : estep text cfg s a with
        | ub m' =>
          obtain ⟨h1, h2, _⟩ := (estep_ub_core hfd hi a).1 ⟨m', hs⟩
          exact absurd (hp h1) h2
        | ok o =>
          rw [hs] at h
          cases o with
          | none => simp only [Outcome.bind_ok] at h; cases h
          | some s1 =>
            simp only [Outcome.bind_ok] at h
            have hp1 := step_closed hp (fun g => Classical.byContradiction fun hn => hst ⟨g, hn⟩) hs
            obtain ⟨pre, post, s', e1, e2, e3⟩ := ih s1 (estep_inv hi hs) hp1 h
            exact ⟨a :: pre, post, s', by simp [e1], by simp only [erun, hs, Outcome.bind_ok]; exact e2, e3⟩
  exact gen acts _ (einv_new text cfg) (by simp [enew]) h

/-- Such a run: `close()` was called and has returned, then the Worker is ended. -/
example : ∃ s, erun sameE cfgE (enew cfgE) (upE [fileE] ++ [.node .close] ++ downE ++ [.stop]) = .ok (some s) ∧ s.ended = some false ∧
    closeRets s.n.log = [true] ∧ s.n.copies = 0 := ranE (by decide +kernel)

/-- A state in which the next event is undefined: ended with an open watch, and one event told since. -/
example : ∃ s, EReach sameE cfgE s ∧ s.ended = some false ∧ ¬ Closed s ∧ s.late.length = 1 :=
  let ⟨s, h, e1, e2, e3⟩ := ranE (o := erun sameE cfgE (enew cfgE) (upE [] ++ [.stop] ++ moreE))
    (p := fun s => s.ended = some false ∧ closeRets s.n.log = [] ∧ s.late.length = 1) (by decide +kernel)
  ⟨s, ⟨_, h⟩, e1, by simp [Closed, e2], e3⟩

/-- C143 (partial: how much): when an environment was told to end, exactly the copies of the lost events stay allocated (C130), and one for each event the
library told after the end. What waited is freed. -/
theorem C143_copies_partial (text : Str → Str) (cfg : Cfg) (s : NE) (hr : EReach text cfg s) (he : s.ended = some false) :
    ∃ wait lost, Story text s.n.log wait lost ∧ s.n.copies = lost.length + s.late.length := (einv hr).copies he

end Verif.Props
