import Verif.Lemmas.Lifecycle2
/-! Run-level consequences and the termination measure. -/

namespace Verif.Lemmas.Life
open Verif Verif.Model Verif.Model.Life Verif.Spec
set_option linter.unusedSimpArgs false

theorem liveEv_eq (p : Str) (b : Bool) : liveEv p b = liveMsg p b := by
  cases b <;> simp [liveEv, liveMsg]
theorem dieEv_eq (p : Str) (b : Bool) : dieEv p b = dieMsg p b := by
  cases b <;> simp [dieEv, dieMsg]

theorem isMid_between {e : Ev} (h : isMid e = true) : Between e := by
  simp [isMid] at h
  rcases h with h | h
  · exact .inl h
  · exact .inr h.1

theorem fin_ended {cfg : Cfg} {b : Bool} {l : List Ev} (h : Fin cfg b l) :
    ∃ a, Ended cfg.path a b l ∧ (b = true → a = true) := by
  rcases h with ⟨rfl, l', ⟨_, mids, rfl, hm⟩, rfl⟩ | ⟨rfl, l', (rfl | ⟨_, mids, r, rfl, _, hm⟩), rfl⟩
  · exact ⟨true, ⟨mids, by simp [liveEv_eq, dieEv_eq], fun m h => isMid_between (hm m h)⟩, fun _ => rfl⟩
  · exact ⟨false, ⟨[], by simp [liveEv_eq, dieEv_eq], by simp⟩, by simp⟩
  · refine ⟨true, ⟨mids ++ [sendMsg r cfg.path], by simp [liveEv_eq, dieEv_eq], ?_⟩, fun _ => rfl⟩
    intro m h
    rw [List.mem_append, List.mem_singleton] at h
    rcases h with h | rfl
    · exact isMid_between (hm m h)
    · exact .inr rfl

/-- The result in the future is the one the die message announced. -/
theorem fut_fin {cfg : Cfg} {s : St} (h : Reachable cfg s) : ∀ b, s.fut = some b → Fin cfg b (callbacks s.log) := by
  have : Shape cfg s.w (callbacks s.log) ∧ FutInv s ∧ ∀ b, s.fut = some b → Fin cfg b (callbacks s.log) := by
    refine reachable_induct (P := fun s => Shape cfg s.w (callbacks s.log) ∧ FutInv s ∧
      ∀ b, s.fut = some b → Fin cfg b (callbacks s.log)) ⟨rfl, fut_init cfg, by simp [init]⟩ ?_ s h
    rintro s a s' ⟨hsh, hf, hfin⟩ hs
    refine ⟨shape_step hsh hs, fut_step hf hs, ?_⟩
    intro b hb
    cases a with
    | w =>
      have hnf : s.w ≠ .finished := by
        intro hw; simp [step, wStep, hw] at hs
      have hn := hf.f1.2 hnf
      simp only [step, wStep] at hs
      split at hs <;> try (simp only [reduceCtorEq, Option.some.injEq] at hs)
      all_goals try (subst hs; simp [callCb, hn] at hb; done)
      · split at hs
        · simp at hs; subst hs; simp [hn] at hb
        · split at hs <;> simp at hs <;> subst hs <;> simp [callCb, hn] at hb
      · rename_i r hw
        subst hs
        simp at hb; subst hb
        rw [hw] at hsh; exact hsh
      · split at hs
        · simp at hs
        · rename_i hc; simp at hs; subst hs; have := closeStep_frame hc; simp_all
        · rename_i hc; simp at hs; subst hs; have := closeStep_frame hc; simp_all
    | o =>
      simp only [step, oStep] at hs
      split at hs
      · split at hs
        · simp at hs
        · rename_i hc; simp at hs; subst hs; obtain ⟨e1, _, _, e4, _⟩ := closeStep_frame hc
          simp only [e1]; exact hfin b (e4 ▸ hb)
        · rename_i hc; simp at hs; subst hs; obtain ⟨e1, _, _, e4, _⟩ := closeStep_frame hc
          simp only [e1, callbacks_append, callbacks, List.append_nil]; exact hfin b (e4 ▸ hb)
      · split at hs
        · simp at hs
        · rename_i hc; simp at hs; subst hs; obtain ⟨e1, _, _, e4, _⟩ := closeStep_frame hc
          simp only [e1]; exact hfin b (e4 ▸ hb)
        · rename_i hc; simp at hs; subst hs; obtain ⟨e1, _, _, e4, _⟩ := closeStep_frame hc
          simp only [e1]; exact hfin b (e4 ▸ hb)
      · split at hs
        · split at hs <;> simp at hs; subst hs; exact hfin b hb
        · simp at hs; subst hs; exact hfin b hb
      · simp at hs; subst hs; simpa [callbacks_append, callbacks] using hfin b hb
      · simp at hs
    | oClose =>
      simp only [step] at hs
      split at hs <;> simp at hs
      subst hs; simpa [callbacks_append, callbacks] using hfin b hb
    | oDtor =>
      simp only [step] at hs
      split at hs <;> simp at hs
      subst hs; simpa [callbacks_append, callbacks] using hfin b hb
    | _ =>
      simp only [step] at hs
      split at hs <;> (try split at hs) <;> simp at hs <;> subst hs <;> exact hfin b hb
  exact this.2.2

/-- The log only grows. -/
theorem step_log {cfg : Cfg} {s s' : St} {a : Act} (hs : step cfg s a = some s') :
    ∃ new, s'.log = s.log ++ new := by
  cases a with
  | w =>
    simp only [step, wStep] at hs
    split at hs <;> try (simp only [reduceCtorEq, Option.some.injEq] at hs)
    all_goals try (subst hs; exact ⟨[_], rfl⟩)
    all_goals try (subst hs; exact ⟨[], by simp⟩)
    · split at hs
      · simp at hs; subst hs; exact ⟨[], by simp⟩
      · split at hs <;> simp at hs <;> subst hs
        · exact ⟨[_], by simp [callCb]; rfl⟩
        · exact ⟨[], by simp⟩
    · split at hs
      · simp at hs
      · rename_i hc; simp at hs; subst hs; have := closeStep_frame hc; exact ⟨[], by simp_all⟩
      · rename_i hc; simp at hs; subst hs; have := closeStep_frame hc; exact ⟨[], by simp_all⟩
  | o =>
    simp only [step, oStep] at hs
    split at hs
    · split at hs
      · simp at hs
      · rename_i hc; simp at hs; subst hs; have := closeStep_frame hc; exact ⟨[], by simp_all⟩
      · rename_i hc; simp at hs; subst hs; have := closeStep_frame hc; exact ⟨[_], by simp_all; rfl⟩
    · split at hs
      · simp at hs
      · rename_i hc; simp at hs; subst hs; have := closeStep_frame hc; exact ⟨[], by simp_all⟩
      · rename_i hc; simp at hs; subst hs; have := closeStep_frame hc; exact ⟨[], by simp_all⟩
    · split at hs
      · split at hs <;> simp at hs; subst hs; exact ⟨[], by simp⟩
      · simp at hs; subst hs; exact ⟨[], by simp⟩
    · simp at hs; subst hs; exact ⟨[_], rfl⟩
    · simp at hs
  | oClose => simp only [step] at hs; split at hs <;> simp at hs; subst hs; exact ⟨[_], rfl⟩
  | oDtor => simp only [step] at hs; split at hs <;> simp at hs; subst hs; exact ⟨[_], rfl⟩
  | _ =>
    simp only [step] at hs
    split at hs <;> (try split at hs) <;> simp at hs <;> subst hs <;> exact ⟨[], by simp⟩

theorem run_log {cfg : Cfg} : ∀ (acts : List Act) (s s' : St), run cfg s acts = some s' →
    ∃ new, s'.log = s.log ++ new := by
  intro acts
  induction acts with
  | nil => intro s s' h; simp [run] at h; subst h; exact ⟨[], by simp⟩
  | cons a as ih =>
    intro s s' h
    simp only [run] at h
    cases hs : step cfg s a with
    | none => simp [hs] at h
    | some s1 =>
      rw [hs] at h
      obtain ⟨n1, h1⟩ := step_log hs
      obtain ⟨n2, h2⟩ := ih s1 s' h
      exact ⟨n1 ++ n2, by rw [h2, h1, List.append_assoc]⟩

/-- A finished worker stays finished and delivers nothing. -/
theorem finished_step {cfg : Cfg} {s s' : St} {a : Act} (hw : s.w = .finished)
    (hs : step cfg s a = some s') : s'.w = .finished ∧ callbacks s'.log = callbacks s.log ∧ s'.fut = s.fut := by
  cases a with
  | w => simp [step, wStep, hw] at hs
  | o =>
    simp only [step, oStep] at hs
    split at hs
    · split at hs
      · simp at hs
      · rename_i hc; simp at hs; subst hs; have := closeStep_frame hc; simp_all
      · rename_i hc; simp at hs; subst hs; have := closeStep_frame hc
        simp_all [callbacks_append, callbacks]
    · split at hs
      · simp at hs
      · rename_i hc; simp at hs; subst hs; have := closeStep_frame hc; simp_all
      · rename_i hc; simp at hs; subst hs; have := closeStep_frame hc; simp_all
    · split at hs
      · split at hs <;> simp at hs; subst hs; simp_all
      · simp at hs; subst hs; simp_all
    · simp at hs; subst hs; simp_all [callbacks_append, callbacks]
    · simp at hs
  | oClose =>
    simp only [step] at hs; split at hs <;> simp at hs; subst hs
    simp_all [callbacks_append, callbacks]
  | oDtor =>
    simp only [step] at hs; split at hs <;> simp at hs; subst hs
    simp_all [callbacks_append, callbacks]
  | _ => simp only [step, hw] at hs; simp at hs

theorem finished_run {cfg : Cfg} {s s' : St} {acts : List Act} (hw : s.w = .finished)
    (hr : run cfg s acts = some s') :
    s'.w = .finished ∧ callbacks s'.log = callbacks s.log ∧ s'.fut = s.fut :=
  run_induct (P := fun t => t.w = .finished ∧ callbacks t.log = callbacks s.log ∧ t.fut = s.fut)
    (fun t a t' ⟨h1, h2, h3⟩ hs => by
      obtain ⟨k1, k2, k3⟩ := finished_step h1 hs
      exact ⟨k1, k2.trans h2, k3.trans h3⟩) acts s s' ⟨hw, rfl, rfl⟩ hr

/-! ### Termination -/

/-- The status the loop is left with after a wake-up. -/
def finalOk : Result → List Item → Result
  | ok, [] => ok
  | _, .il :: is => finalOk .complete is
  | _, .ke _ r :: is => finalOk r is
  | _, .unknown :: is => finalOk .eEpoll is

def itemsCost : List Item → Nat
  | [] => 0
  | .ke evs _ :: is => 2 + 2 * evs.length + itemsCost is
  | _ :: is => 1 + itemsCost is

def doneCost : Bool → Nat
  | true => 5
  | false => 13

def waitCost (sec : Bool) : Nat := doneCost sec + 3

def afterCost (sec : Bool) (r : Result) : Nat :=
  match r.keepsRunning with
  | true => waitCost sec
  | false => doneCost sec

def itemsAll (sec : Bool) (ok : Result) (items : List Item) : Nat :=
  itemsCost items + 1 + afterCost sec (finalOk ok items)

def closeCost : ClosePc → Nat
  | .load => 5 | .write => 4 | .store _ => 3 | .check _ => 2 | .get => 1

def cost : WPc → Nat
  | .finished => 0
  | .setFut _ => 1
  | .die _ _ => 3
  | .aDone sec _ => doneCost sec
  | .aItems sec ok items => itemsAll sec ok items
  | .aEvs sec evs r items => 2 * evs.length + 1 + itemsAll sec r items
  | .aWait sec => waitCost sec
  | .aOpen sec => 3 + waitCost sec
  | .live _ => 25
  | .stStore _ => 26
  | .stRead => 27
  | .stLoad => 28
  | .start => 29
  | .inCb n => 1 + cost n
  | .selfClose c n => closeCost c + 1 + cost n

theorem closeStep_cost {s s' : St} {c c' : ClosePc} (h : closeStep s c = some (s', .inl c')) :
    closeCost c' < closeCost c := by
  cases c <;> simp only [closeStep] at h <;> (try split at h) <;> (try split at h) <;> simp at h <;>
    (obtain ⟨_, rfl⟩ := h; simp [closeCost])

theorem wstep_cost {cfg : Cfg} {s s' : St} (hs : wStep cfg s = some s') : cost s'.w + 1 ≤ cost s.w := by
  simp only [wStep] at hs
  split at hs <;> try (simp only [reduceCtorEq, Option.some.injEq] at hs)
  all_goals try (rename_i hw; subst hs; simp only [hw, callCb]; (try split) <;>
    simp [cost, itemsAll, itemsCost, finalOk, waitCost, doneCost] <;> done)
  · rename_i hw; subst hs; simp only [hw, cost]; omega
  · rename_i hw; subst hs; simp only [hw, cost, callCb, List.length_cons]; omega
  · rename_i sec ok hw; subst hs; simp only [hw, cost, itemsAll, itemsCost, finalOk, afterCost]
    cases ok.keepsRunning <;> simp [cost] <;> omega
  · rename_i hw; subst hs; simp only [hw, cost, itemsAll, itemsCost, finalOk]; omega
  · rename_i hw; subst hs; simp only [hw, cost, itemsAll, itemsCost, finalOk]; omega
  · rename_i hw; subst hs; simp only [hw, cost, itemsAll, itemsCost, finalOk]; omega
  · rename_i sec r hw
    split at hs
    · rename_i hx; simp at hs; subst hs
      cases sec <;> simp_all [cost, waitCost, doneCost]
    · split at hs <;> simp at hs <;> subst hs <;> simp only [hw, callCb, cost] <;>
        cases sec <;> simp [doneCost]
  · rename_i c next hw
    split at hs
    · simp at hs
    · rename_i hc; simp at hs; subst hs; have := closeStep_cost hc; simp only [hw, cost]; omega
    · rename_i hc; simp at hs; subst hs; simp only [hw, cost]; cases c <;> simp only [closeCost] <;> omega

theorem quiet_cost {cfg : Cfg} {s s' : St} {a : Act} (hq : Quiet a) (hs : step cfg s a = some s') :
    (if isWorker a then 1 else 0) + cost s'.w ≤ cost s.w + openCost a := by
  cases a with
  | w => have := wstep_cost (cfg := cfg) (by simpa [step] using hs); simp only [isWorker, openCost, if_true]; omega
  | o =>
    simp only [step, oStep] at hs
    simp only [isWorker, openCost]
    split at hs
    · split at hs
      · simp at hs
      · rename_i hc; simp at hs; subst hs; have := closeStep_frame hc; simp_all
      · rename_i hc; simp at hs; subst hs; have := closeStep_frame hc; simp_all
    · split at hs
      · simp at hs
      · rename_i hc; simp at hs; subst hs; have := closeStep_frame hc; simp_all
      · rename_i hc; simp at hs; subst hs; have := closeStep_frame hc; simp_all
    · split at hs
      · split at hs <;> simp at hs; subst hs; simp_all
      · simp at hs; subst hs; simp_all
    · simp at hs; subst hs; simp_all
    · simp at hs
  | oClose =>
    simp only [step] at hs; split at hs <;> simp at hs; subst hs; simp [isWorker, openCost]
  | oDtor =>
    simp only [step] at hs; split at hs <;> simp at hs; subst hs; simp [isWorker, openCost]
  | wOpen evs r =>
    simp only [step] at hs
    split at hs <;> try simp at hs
    rename_i sec hw
    obtain ⟨_, rfl⟩ := hs
    have : itemsAll sec r [] ≤ 1 + waitCost sec := by
      simp only [itemsAll, itemsCost, finalOk, afterCost]
      cases r.keepsRunning <;> simp [waitCost] <;> omega
    simp only [isWorker, openCost, hw, cost, if_true]; omega
  | wWake items =>
    simp only [step] at hs
    split at hs <;> try simp at hs
    rename_i sec hw
    obtain ⟨_, rfl⟩ := hs
    simp only [Quiet] at hq
    subst hq
    simp only [isWorker, openCost, hw, cost, itemsAll, itemsCost, finalOk, waitCost, afterCost]
    simp [Result.keepsRunning]; omega
  | wWakeErr =>
    simp only [step] at hs
    split at hs <;> try simp at hs
    rename_i sec hw
    subst hs
    simp only [isWorker, openCost, hw, cost, itemsAll, itemsCost, finalOk, waitCost, afterCost]
    simp [Result.keepsRunning, Result.code]; omega
  | cbReturn =>
    simp only [step] at hs
    split at hs <;> try simp at hs
    rename_i n hw
    subst hs
    simp only [isWorker, openCost, hw, cost, if_true]; omega
  | cbClose => exact absurd hq id

theorem quiet_run_cost {cfg : Cfg} : ∀ (acts : List Act) (s s' : St), (∀ a ∈ acts, Quiet a) →
    run cfg s acts = some s' →
    (acts.filter isWorker).length + cost s'.w ≤ cost s.w + (acts.map openCost).sum := by
  intro acts
  induction acts with
  | nil => intro s s' _ h; simp [run] at h; subst h; simp
  | cons a as ih =>
    intro s s' hq h
    simp only [run] at h
    cases hs : step cfg s a with
    | none => simp [hs] at h
    | some s1 =>
      rw [hs] at h
      have h1 := ih s1 s' (fun b hb => hq b (by simp [hb])) h
      have h2 := quiet_cost (hq a (by simp)) hs
      simp only [List.filter_cons, List.map_cons, List.sum_cons]
      cases hw : isWorker a <;> simp [hw] at h2 ⊢ <;> omega

/-- The worker can always move on, if it does not wait or the stop signal was given. -/
theorem worker_progress_gen {cfg : Cfg} {s : St} (hsig : ∀ sec, s.w = .aWait sec → s.sb.count > 0) (hnf : s.w ≠ .finished) (hns : ∀ c n, s.w ≠ .selfClose c n) :
    ∃ a s', isWorker a = true ∧ Quiet a ∧ openCost a = 0 ∧ step cfg s a = some s' := by
  cases hw : s.w with
  | start => exact ⟨.w, _, rfl, trivial, rfl, by simp [step, wStep, hw]; rfl⟩
  | stLoad => exact ⟨.w, _, rfl, trivial, rfl, by simp [step, wStep, hw]; rfl⟩
  | stRead => exact ⟨.w, _, rfl, trivial, rfl, by simp [step, wStep, hw]; rfl⟩
  | stStore v => exact ⟨.w, _, rfl, trivial, rfl, by simp [step, wStep, hw]; rfl⟩
  | live pre => exact ⟨.w, _, rfl, trivial, rfl, by simp [step, wStep, hw]; rfl⟩
  | aOpen sec =>
    exact ⟨.wOpen [] .eEpoll, { s with w := .aEvs sec [] .eEpoll [] }, rfl, trivial, rfl,
      by simp [step, hw, isOpenResult, Result.isError, Result.code]⟩
  | aEvs sec evs r items =>
    cases evs <;> exact ⟨.w, _, rfl, trivial, rfl, by simp [step, wStep, hw]; rfl⟩
  | aItems sec ok items =>
    cases items with
    | nil => exact ⟨.w, _, rfl, trivial, rfl, by simp [step, wStep, hw]; rfl⟩
    | cons i is => cases i <;> exact ⟨.w, _, rfl, trivial, rfl, by simp [step, wStep, hw]; rfl⟩
  | aWait sec =>
    have hc : s.sb.count > 0 := hsig sec hw
    exact ⟨.wWake [.il], { s with w := .aItems sec .pending [.il] }, rfl, rfl, rfl,
      by simp [step, hw, itemsOk, hasIl, hc]⟩
  | aDone sec r =>
    cases h1 : (!sec && decide (r = .eFanotify)) with
    | true => exact ⟨.w, { s with w := .aOpen true }, rfl, trivial, rfl, by simp only [step, wStep, hw]; simp_all⟩
    | false =>
      cases h2 : r.isError with
      | true =>
        exact ⟨.w, callCb s (sendMsg r cfg.path) (.die true false), rfl, trivial, rfl,
          by simp only [step, wStep, hw]; simp_all⟩
      | false =>
        exact ⟨.w, { s with w := .die true true }, rfl, trivial, rfl, by simp only [step, wStep, hw]; simp_all⟩
  | die pre post => exact ⟨.w, _, rfl, trivial, rfl, by simp [step, wStep, hw]; rfl⟩
  | setFut r => exact ⟨.w, _, rfl, trivial, rfl, by simp [step, wStep, hw]; rfl⟩
  | finished => exact absurd hw hnf
  | inCb n => exact ⟨.cbReturn, { s with w := n }, rfl, trivial, rfl, by simp [step, hw]⟩
  | selfClose c n => exact absurd hw (hns c n)

/-- The worker can always move on once the stop signal was given. -/
theorem worker_progress {cfg : Cfg} {s : St} (hfd : cfg.fdOk = true) (h : Reachable cfg s)
    (hrel : s.sb.is = .released) (hnf : s.w ≠ .finished) (hns : ∀ c n, s.w ≠ .selfClose c n) :
    ∃ a s', isWorker a = true ∧ Quiet a ∧ openCost a = 0 ∧ step cfg s a = some s' :=
  worker_progress_gen (fun sec hw => by
    have := (sig_reachable hfd h).core.s4 hrel; simp [hw, Aborted] at this; exact this) hnf hns

/-! Without a working stop signal. -/

def Broken : WPc → Prop
  | .aEvs _ _ r items => r.isError = true ∧ items = []
  | .aItems _ ok items => ok.isError = true ∧ items = []
  | .aWait _ => False
  | .aDone _ r => r.isError = true
  | .die _ post => post = false
  | .setFut r => r = false
  | .inCb n => Broken n
  | .selfClose _ n => Broken n
  | _ => True

theorem error_stops {r : Result} (h : r.isError = true) : r.keepsRunning = false := by
  cases r <;> first | rfl | (revert h; decide)

theorem broken_reachable {cfg : Cfg} (hfd : cfg.fdOk = false) {s : St} (h : Reachable cfg s) : Broken s.w ∧ s.fut ≠ some true := by
  refine reachable_induct (P := fun s => Broken s.w ∧ s.fut ≠ some true) ⟨trivial, by simp [init]⟩ ?_ _ h
  intro s a s' ⟨hb, hf⟩ hs
  have frame : ∀ {c : ClosePc} {s1 : St} {x : ClosePc ⊕ Bool}, closeStep s c = some (s1, x) → s1.fut = s.fut ∧ s1.w = s.w := by
    intro c s1 x hc
    cases c <;> simp only [closeStep] at hc <;> (repeat' split at hc) <;> simp at hc <;> (obtain ⟨rfl, _⟩ := hc; exact ⟨rfl, rfl⟩)
  cases a with
  | w =>
    simp only [step, wStep] at hs
    split at hs <;> try (simp only [reduceCtorEq, Option.some.injEq] at hs)
    all_goals rename_i hw; rw [hw] at hb
    · subst hs; refine ⟨?_, hf⟩; simp only; split <;> trivial
    · subst hs; refine ⟨?_, hf⟩; simp only; split <;> trivial
    · subst hs; exact ⟨trivial, hf⟩
    · subst hs; exact ⟨trivial, hf⟩
    · subst hs; refine ⟨?_, hf⟩; simp only [callCb, Broken]; split
      · trivial
      · rfl
    · subst hs; exact ⟨hb, hf⟩
    · subst hs; exact ⟨hb, hf⟩
    · subst hs; refine ⟨?_, hf⟩; simp only [error_stops hb.1]; exact hb.1
    · exact absurd hb.2 (by simp)
    · exact absurd hb.2 (by simp)
    · exact absurd hb.2 (by simp)
    · split at hs
      · simp at hs; subst hs; exact ⟨trivial, hf⟩
      · simp only [Broken] at hb
        simp only [hb, if_true, Option.some.injEq] at hs
        subst hs; exact ⟨rfl, hf⟩
    · subst hs; simp only [Broken] at hb; subst hb; refine ⟨?_, hf⟩; simp [callCb, Broken]
    · subst hs; simp only [Broken] at hb; subst hb; exact ⟨trivial, by simp⟩
    · split at hs
      · simp at hs
      · rename_i hc; simp at hs; subst hs; exact ⟨hb, by rw [(frame hc).1]; exact hf⟩
      · rename_i hc; simp at hs; subst hs; exact ⟨hb, by rw [(frame hc).1]; exact hf⟩
  | wOpen evs r =>
    simp only [step, hfd, Bool.false_or] at hs
    split at hs
    · split at hs
      · rename_i hcond
        simp only [Bool.and_eq_true] at hcond
        simp at hs; subst hs; exact ⟨⟨hcond.2, rfl⟩, hf⟩
      · cases hs
    · cases hs
  | wWake items =>
    simp only [step] at hs
    split at hs
    · rename_i hw; rw [hw] at hb; exact absurd hb (by simp [Broken])
    · cases hs
  | wWakeErr =>
    simp only [step] at hs
    split at hs
    · rename_i hw; rw [hw] at hb; exact absurd hb (by simp [Broken])
    · cases hs
  | cbReturn =>
    simp only [step] at hs
    split at hs
    · rename_i hw; rw [hw] at hb; simp at hs; subst hs; exact ⟨hb, hf⟩
    · cases hs
  | cbClose =>
    simp only [step] at hs
    split at hs
    · rename_i hw; rw [hw] at hb; simp at hs; subst hs; exact ⟨hb, hf⟩
    · cases hs
  | o =>
    simp only [step, oStep] at hs
    split at hs
    · split at hs
      · cases hs
      · rename_i hc; simp at hs; subst hs; exact ⟨by simp only [(frame hc).2]; exact hb, by simp only [(frame hc).1]; exact hf⟩
      · rename_i hc; simp at hs; subst hs; exact ⟨by simp only [(frame hc).2]; exact hb, by simp only [(frame hc).1]; exact hf⟩
    · split at hs
      · cases hs
      · rename_i hc; simp at hs; subst hs; exact ⟨by simp only [(frame hc).2]; exact hb, by simp only [(frame hc).1]; exact hf⟩
      · rename_i hc; simp at hs; subst hs; exact ⟨by simp only [(frame hc).2]; exact hb, by simp only [(frame hc).1]; exact hf⟩
    · split at hs
      · split at hs
        · cases hs
        · simp at hs; subst hs; exact ⟨hb, hf⟩
      · simp at hs; subst hs; exact ⟨hb, hf⟩
    · simp at hs; subst hs; exact ⟨hb, hf⟩
    · cases hs
  | oClose =>
    simp only [step] at hs
    split at hs
    · simp at hs; subst hs; exact ⟨hb, hf⟩
    · cases hs
  | oDtor =>
    simp only [step] at hs
    split at hs
    · simp at hs; subst hs; exact ⟨hb, hf⟩
    · cases hs

theorem worker_progress_any {cfg : Cfg} {s : St} (h : Reachable cfg s) (hrel : cfg.fdOk = true → s.sb.is = .released)
    (hnf : s.w ≠ .finished) (hns : ∀ c n, s.w ≠ .selfClose c n) :
    ∃ a s', isWorker a = true ∧ Quiet a ∧ openCost a = 0 ∧ step cfg s a = some s' := by
  cases hfd : cfg.fdOk with
  | true => exact worker_progress hfd h (hrel hfd) hnf hns
  | false =>
    refine worker_progress_gen (fun sec hs => ?_) hnf hns
    have := (broken_reachable hfd h).1
    rw [hs] at this; exact this.elim

/-- The worker's own steps do not begin a `close()`. -/
theorem wstep_no_self {cfg : Cfg} {s s' : St} (hns : ∀ c n, s.w ≠ .selfClose c n) (hs : wStep cfg s = some s') : ∀ c n, s'.w ≠ .selfClose c n := by
  simp only [wStep] at hs
  split at hs <;> try (simp only [reduceCtorEq, Option.some.injEq] at hs)
  case h_15 => rename_i hw; exact absurd hw (hns _ _)
  all_goals (intro c n hw)
  all_goals first
    | (subst hs; simp only [callCb] at hw; (try split at hw) <;> cases hw; done)
    | (split at hs
       · simp at hs; subst hs; cases hw
       · split at hs <;> simp at hs <;> subst hs <;> cases hw)

end Verif.Lemmas.Life
