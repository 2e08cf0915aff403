import Verif.Lemmas.Lifecycle4
/-!
# Properties of a watcher's life (C07, C09 - C18, C20 - C22)

`Reachable cfg s` ranges over every interleaving of the owner and the worker thread, every answer of
the kernel and every behaviour of the callback.
-/

namespace Verif.Props
open Verif Verif.Model Verif.Model.Life Verif.Spec Verif.Lemmas.Life

/-! ## Schedules used as witnesses -/

private def okCfg : Cfg := { path := b!"/d", dirOk := true, fdOk := true }
private def badCfg : Cfg := { path := b!"/f", dirOk := false, fdOk := true }

private def fileEv : Ev := { path := b!"/d/a", effect := .create, ptype := .file }

/-- Start, deliver the live message, open inotify. -/
private def startUp : List Act :=
  [.w, .w, .w, .cbReturn, .wOpen [] .eFanotify, .w, .w, .w, .wOpen [] .pending, .w, .w]

/-- Owner closes and waits. -/
private def closeUp : List Act := [.oClose, .o, .o, .o, .o]

/-- A whole life with one file event: start, event, close. -/
private def wholeLife : List Act :=
  startUp ++ [.wWake [.ke [fileEv] .pending], .w, .w, .cbReturn, .w, .w] ++ closeUp
    ++ [.wWake [.il], .w, .w, .w, .w, .cbReturn, .w, .o]

private def runLog (cfg : Cfg) (acts : List Act) : Option (List Obs) :=
  (run cfg (init cfg) acts).map St.log

example : runLog okCfg wholeLife = some [.cb (liveMsg b!"/d" true), .cb fileEv, .closeCall,
    .cb (dieMsg b!"/d" true), .closeRet true] := by decide

/-! ## C07 -/

/-- C07, seen from outside: whatever the callback and the file system do, if the owner neither closes
nor destroys the watcher, the first event is a live message that says `s` exactly when the path is a
directory. -/
theorem C07_start_undisturbed (cfg : Cfg) (acts : List Act) (s : St)
    (hr : run cfg (init cfg) acts = some s) (hc : Act.oClose ∉ acts) (hd : Act.oDtor ∉ acts)
    (e : Ev) (l : List Ev) (he : callbacks s.log = e :: l) : e = liveMsg cfg.path cfg.dirOk := by
  have key : ∀ (as : List Act) (s0 s1 : St), Act.oClose ∉ as → Act.oDtor ∉ as → Reachable cfg s0 →
      Undisturbed cfg s0 → run cfg s0 as = some s1 → Undisturbed cfg s1 := by
    intro as
    induction as with
    | nil => intro s0 s1 _ _ _ h hr; simp [run] at hr; exact hr ▸ h
    | cons a as ih =>
      intro s0 s1 h1 h2 h3 h4 hr
      simp only [run] at hr
      cases hs : step cfg s0 a with
      | none => simp [hs] at hr
      | some t =>
        rw [hs] at hr
        refine ih t s1 (fun h => h1 (by simp [h])) (fun h => h2 (by simp [h])) (reachable_step h3 hs) ?_ hr
        exact undisturbed_step h3 h4 hs (fun h => h1 (by simp [h])) (fun h => h2 (by simp [h]))
  have := key acts _ s hc hd ⟨[], rfl⟩ (by constructor <;> simp [init, callbacks]) hr
  rw [← liveEv_eq]; exact this.cbs e l he

example : ∃ s, run okCfg (init okCfg) startUp = some s ∧ callbacks s.log = [liveMsg b!"/d" true] :=
  ⟨_, rfl, by decide⟩

/-! ## C09 -/

/-- C09: once any `release()` has returned (on a working stop signal), then for ever after: wherever
the worker waits for events, the stop descriptor is readable, and every wake-up contains it. The only
alternative is that the worker never waits. -/
theorem C09_release_not_lost (cfg : Cfg) (hfd : cfg.fdOk = true) (s s' : St) (acts : List Act)
    (h : Reachable cfg s) (hrel : ReleaseReturned s) (hr : run cfg s acts = some s') (second : Bool)
    (hw : s'.w = .aWait second) :
    s'.sb.count > 0 ∧
    ∀ items s'', step cfg s' (.wWake items) = some s'' → Item.il ∈ items := by
  have h1 := released_run hfd h (returned_released hfd h hrel) hr
  have h2 := (sig_reachable hfd (reachable_run h hr)).core.s4 h1
  have hc : s'.sb.count > 0 := by simpa [hw, Aborted] using h2
  refine ⟨hc, ?_⟩
  intro items s'' hs
  simp only [step, hw] at hs
  split at hs
  · rename_i hx
    simp [hc, hasIl] at hx
    exact hx.2
  · simp at hs

/-- C09: if `release()` has returned before the start-up check reads the flag, the check sees it: no
back end is ever opened, the result is false, and the callback sees at most the two error messages. -/
theorem C09_check_sees_release (cfg : Cfg) (hfd : cfg.fdOk = true) (s s' : St) (acts : List Act)
    (h : Reachable cfg s) (hrel : ReleaseReturned s) (hw : s.w = .start ∨ s.w = .stLoad)
    (hr : run cfg s acts = some s') :
    (∀ second, s'.w ≠ .aOpen second) ∧ (∀ b, s'.fut = some b → b = false) ∧
    ∀ e ∈ callbacks s'.log, e = liveMsg cfg.path false ∨ e = dieMsg cfg.path false := by
  obtain ⟨_, _, h3, h4, h5⟩ := doom_run hfd (doom_start hfd h hrel hw) hr
  refine ⟨?_, h4, h5⟩
  intro second hx; simp [hx, Doomed] at h3

-- close before the thread starts; the start-up check sees it
example : runLog okCfg (closeUp ++ [.w, .w, .w, .w, .w, .cbReturn, .w, .cbReturn, .w, .o])
    = some [.closeCall, .cb (liveMsg b!"/d" false), .cb (dieMsg b!"/d" false), .closeRet false] := by decide
-- a schedule that meets the hypotheses of both theorems
example : ∃ s, run okCfg (init okCfg) (startUp ++ closeUp) = some s ∧ ReleaseReturned s ∧
    s.w = .aWait true := ⟨_, rfl, .inr (.inl rfl), rfl⟩
example : ∃ s, run okCfg (init okCfg) closeUp = some s ∧ ReleaseReturned s ∧ s.w = .start :=
  ⟨_, rfl, .inr (.inl rfl), rfl⟩

/-! ## C10 -/

private theorem shape_story {cfg : Cfg} (w : WPc) (l : List Ev) (h : Shape cfg w l) :
    l = [] ∨ Begun cfg.path l ∨ ∃ a b, Ended cfg.path a b l := by
  have run' : ∀ l, Running cfg l → Begun cfg.path l := by
    rintro l ⟨_, mids, rfl, hm⟩
    exact ⟨true, mids, by rw [liveEv_eq], fun m h => isMid_between (hm m h)⟩
  induction w with
  | inCb n ih => exact ih h
  | selfClose c n ih => exact ih h
  | start => exact .inl h
  | stLoad => exact .inl h.1
  | stRead => exact .inl h.1
  | stStore v => exact .inl h.1
  | live pre => exact .inl h.1
  | aOpen sec => exact .inr (.inl (run' l h))
  | aWait sec => exact .inr (.inl (run' l h))
  | aEvs sec evs r items => exact .inr (.inl (run' l h.1))
  | aItems sec ok items => exact .inr (.inl (run' l h.1))
  | aDone sec r => exact .inr (.inl (run' l h.1))
  | die pre post =>
    right; left
    cases pre <;> cases post <;> simp only [Shape] at h
    · exact ⟨false, [], by rw [h.2, liveEv_eq], by simp⟩
    · simp at h
    · obtain ⟨_, mids, r, rfl, _, hm⟩ := h
      refine ⟨true, mids ++ [sendMsg r cfg.path], by rw [liveEv_eq], ?_⟩
      intro m hx
      rw [List.mem_append, List.mem_singleton] at hx
      rcases hx with hx | rfl
      · exact isMid_between (hm m hx)
      · exact .inr rfl
    · exact run' l h
  | setFut b => obtain ⟨a, h1, _⟩ := fin_ended h; exact .inr (.inr ⟨a, b, h1⟩)
  | finished => obtain ⟨b, h⟩ := h; obtain ⟨a, h1, _⟩ := fin_ended h; exact .inr (.inr ⟨a, b, h1⟩)

/-- C10: in every reachable state the callback has seen nothing, or the live message and then neither
another live nor a die message, or a whole story ending in the die message; and when the worker is
done, a whole story. (`Between` events are neither live nor die messages, so both are unique.) -/
theorem C10_live_first_die_last (cfg : Cfg) (s : St) (h : Reachable cfg s) :
    (callbacks s.log = [] ∨ Begun cfg.path (callbacks s.log) ∨
      ∃ a b, Ended cfg.path a b (callbacks s.log)) ∧
    (s.w = .finished → ∃ a b, Ended cfg.path a b (callbacks s.log)) := by
  have hsh := shape_reachable h
  refine ⟨shape_story s.w _ hsh, ?_⟩
  intro hw
  rw [hw] at hsh
  obtain ⟨b, hb⟩ := hsh
  obtain ⟨a, h1, _⟩ := fin_ended hb
  exact ⟨a, b, h1⟩

/-- C10: a story contains its live and die message exactly once. -/
theorem C10_exactly_once (path : Str) (a b : Bool) (l : List Ev) (h : Ended path a b l) (c d : Bool) :
    l.count (liveMsg path c) = (if c = a then 1 else 0) ∧
    l.count (dieMsg path d) = (if d = b then 1 else 0) := by
  obtain ⟨mids, rfl, hm⟩ := h
  have hl : mids.count (liveMsg path c) = 0 := by
    rw [List.count_eq_zero]; intro hx
    have := hm _ hx; simp [Between, liveMsg] at this
  have hd : mids.count (dieMsg path d) = 0 := by
    rw [List.count_eq_zero]; intro hx
    have := hm _ hx; simp [Between, dieMsg] at this
  have hll : liveMsg path a = liveMsg path c ↔ c = a := by
    constructor
    · intro hx; cases a <;> cases c <;> simp [liveMsg] at hx <;> rfl
    · rintro rfl; rfl
  have hdd : dieMsg path b = dieMsg path d ↔ d = b := by
    constructor
    · intro hx; cases b <;> cases d <;> simp [dieMsg] at hx <;> rfl
    · rintro rfl; rfl
  have hld : ¬ liveMsg path a = dieMsg path d := by simp [liveMsg, dieMsg]
  have hdl : ¬ dieMsg path b = liveMsg path c := by simp [liveMsg, dieMsg]
  simp only [List.cons_append, List.count_cons, List.count_append, List.count_nil, hl, hd,
    beq_iff_eq, hll, hdd, hld, hdl]
  constructor <;> simp

/-! ## C11, C12, C13 -/

/-- C11: when a first `close()` has returned (its stop signal worked), the story is complete, `close()`
returned true exactly if the die message says `s`, and that requires the live message to say `s`. -/
theorem C11_close_agrees_with_die (cfg : Cfg) (hfd : cfg.fdOk = true) (s : St) (h : Reachable cfg s)
    (hc : ∃ b, Obs.closeRet b ∈ s.log) :
    ∃ a d, Ended cfg.path a d (callbacks s.log) ∧ (Obs.closeRet true ∈ s.log ↔ d = true) ∧
      (d = true → a = true) := by
  have hs := sig_reachable hfd h
  have hf := fut_reachable h
  obtain ⟨hv, ht⟩ := hs.ret hc
  have hsome := hf.f3 hv
  cases hfut : s.fut with
  | none => simp [hfut] at hsome
  | some b =>
    obtain ⟨a, h1, h2⟩ := fin_ended (fut_fin h b hfut)
    refine ⟨a, b, h1, ⟨?_, ?_⟩, h2⟩
    · intro hx; have := (hf.f7 hx).2; rw [hfut] at this; simpa using this
    · intro hb; subst hb; exact ht hfut

/-- C11, the other direction of the refusal: with a broken stop signal `close()` returns false. -/
theorem C11_broken_signal_refuses (cfg : Cfg) (s s' : St) (v : SemState)
    (ho : s.o = .closing (.check v)) (hv : v = .error) (hs : step cfg s .o = some s') :
    s'.log = s.log ++ [.closeRet false] := by
  subst hv
  simp [step, oStep, ho, closeStep] at hs
  subst hs; rfl

example : ∃ s, run { okCfg with fdOk := false } (init { okCfg with fdOk := false })
    [.oClose, .o, .o, .o] = some s ∧ s.o = .closing (.check .error) := ⟨_, rfl, rfl⟩

/-- C12: at most one `close()` ever returns true. -/
theorem C12_at_most_one_success (cfg : Cfg) (s : St) (h : Reachable cfg s) :
    (s.log.filter (· = .closeRet true)).length ≤ 1 := (fut_reachable h).f9

/-- C12: after any `close()` has returned (working stop signal), every later one returns false. -/
theorem C12_later_closes_fail (cfg : Cfg) (hfd : cfg.fdOk = true) (s s' : St) (acts : List Act)
    (h : Reachable cfg s) (hc : ∃ b, Obs.closeRet b ∈ s.log) (hr : run cfg s acts = some s') :
    ∃ new, s'.log = s.log ++ new ∧ Obs.closeRet true ∉ new := by
  obtain ⟨new, hn⟩ := run_log acts s s' hr
  refine ⟨new, hn, ?_⟩
  intro hx
  have h' := reachable_run h hr
  have hf := fut_reachable h
  have hf' := fut_reachable h'
  have hs := sig_reachable hfd h
  have hfin : s.w = .finished := finished_of_invalid hf (hs.ret hc).1
  have hfut : s'.fut = s.fut := (finished_run hfin hr).2.2
  have htrue : s'.fut = some true := (hf'.f7 (by rw [hn]; simp [hx])).2
  have hold : Obs.closeRet true ∈ s.log := (hs.ret hc).2 (hfut ▸ htrue)
  have hcount := hf'.f9
  rw [hn, List.filter_append, List.length_append] at hcount
  have p1 : 0 < (s.log.filter (· = .closeRet true)).length :=
    List.length_pos_iff.2 (List.ne_nil_of_mem (List.mem_filter.2 ⟨hold, by simp⟩))
  have p2 : 0 < (new.filter (· = .closeRet true)).length :=
    List.length_pos_iff.2 (List.ne_nil_of_mem (List.mem_filter.2 ⟨hx, by simp⟩))
  omega

-- a second close after a successful one
example : runLog okCfg (wholeLife ++ [.oClose, .o, .o]) = some [.cb (liveMsg b!"/d" true), .cb fileEv,
    .closeCall, .cb (dieMsg b!"/d" true), .closeRet true, .closeCall, .closeRet false] := by decide

/-- C13: after `close()` has returned (working stop signal), no schedule delivers another event. -/
theorem C13_silence_after_close (cfg : Cfg) (hfd : cfg.fdOk = true) (s s' : St) (acts : List Act)
    (h : Reachable cfg s) (hc : ∃ b, Obs.closeRet b ∈ s.log) (hr : run cfg s acts = some s') :
    callbacks s'.log = callbacks s.log :=
  (finished_run (finished_of_invalid (fut_reachable h) ((sig_reachable hfd h).ret hc).1) hr).2.1

/-- C13: after the destructor has returned (even with a broken stop signal), no event is delivered. -/
theorem C13_silence_after_destructor (cfg : Cfg) (s s' : St) (acts : List Act)
    (h : Reachable cfg s) (hd : Obs.dtorRet ∈ s.log) (hr : run cfg s acts = some s') :
    callbacks s'.log = callbacks s.log := by
  have hf := fut_reachable h
  have h4 := hf.f4 (.inr (hf.f10 hd))
  have hw : s.w = .finished := by
    by_cases hw : s.w = .finished
    · exact hw
    · simp [hf.f1.2 hw] at h4
  exact (finished_run hw hr).2.1

/-- C13: the working stop signal is needed: with a broken one, an event can follow a returned
`close()`. -/
theorem C13_needs_working_signal : ∃ (cfg : Cfg) (s : St) (e : Ev) (l : List Obs), Reachable cfg s ∧
    s.log = l ++ [.closeRet false, .cb e] :=
  ⟨{ okCfg with fdOk := false }, _, liveMsg b!"/d" true, [.closeCall],
    ⟨[.oClose, .w, .w, .o, .o, .o, .o, .w], rfl⟩, rfl⟩

example : ∃ s, Reachable okCfg s ∧ Obs.dtorRet ∈ s.log :=
  ⟨_, ⟨wholeLife ++ [.oDtor, .o, .o, .o, .o], rfl⟩, by decide⟩

/-! ## C14 -/

/-- C14, the full claim: a `close()` called before the live message was sent returns false. -/
def C14_full : Prop := ∀ (cfg : Cfg) (s : St), Reachable cfg s → ∀ l1 l2 l3,
  s.log = l1 ++ .closeCall :: l2 ++ .closeRet true :: l3 → callbacks l1 ≠ []

/-- C14 is false of the code: the worker has done its start-up check but not yet sent the live message
when `close()` is called; the back end then starts, sees the signal, stops, and `close()` returns
true. -/
theorem C14_refuted : ¬ C14_full := by
  intro h
  refine h okCfg _ ⟨[.w, .w] ++ closeUp ++ [.w, .cbReturn, .wOpen [] .eFanotify, .w, .w, .w,
    .wOpen [] .pending, .w, .w, .wWake [.il], .w, .w, .w, .w, .cbReturn, .w, .o], rfl⟩
    [] [.cb (liveMsg b!"/d" true), .cb (dieMsg b!"/d" true)] [] rfl rfl

/-- C14 (partial: the release is complete before the start-up check): then no `close()` ever returns
true. Missing: closes that fall between the check and the live message, for which the claim is
false. -/
theorem C14_early_close_fails_partial (cfg : Cfg) (hfd : cfg.fdOk = true) (s s' : St) (acts : List Act)
    (h : Reachable cfg s) (hrel : ReleaseReturned s) (hw : s.w = .start ∨ s.w = .stLoad)
    (hr : run cfg s acts = some s') : Obs.closeRet true ∉ s'.log := by
  intro hx
  have := (fut_reachable (reachable_run h hr)).f7 hx
  have := (doom_run hfd (doom_start hfd h hrel hw) hr).f true this.2
  cases this

/-! ## C15 -/

/-- C15 without its condition on the file system, in the form that every long enough schedule after a release has the worker
finished (here: a bound on the number of its steps that depends on the state only). -/
def C15_unconditional : Prop := ∀ (cfg : Cfg), cfg.fdOk = true → ∀ s, Reachable cfg s → ReleaseReturned s →
  ∃ bound, ∀ acts s', Act.cbClose ∉ acts → run cfg s acts = some s' →
    (acts.filter isWorker).length ≤ bound

private def busyWake : List Act := [.wWake [.il, .ke [] .pending], .w, .w, .w, .w]
private def closedState : St :=
  { sb := { is := .released, count := 1 }, w := .aWait true, o := .closing .get,
    log := [.cb (liveMsg b!"/d" true), .closeCall] }

private theorem busy_loop : ∀ n, run okCfg closedState (List.replicate n busyWake).flatten = some closedState := by
  intro n
  induction n with
  | zero => rfl
  | succ n ih =>
    rw [List.replicate_succ, List.flatten_cons, run_append]
    have : run okCfg closedState busyWake = some closedState := rfl
    rw [this]; exact ih

/-- C15's condition is needed: while the file system keeps producing events and the kernel lists the
stop descriptor first, the status `complete` is overwritten and the worker never leaves its loop. -/
theorem C15_refuted_under_load : ¬ C15_unconditional := by
  intro h
  obtain ⟨bound, hb⟩ := h okCfg rfl closedState ⟨startUp ++ closeUp, rfl⟩ (.inr (.inl rfl))
  have := hb (List.replicate (bound + 1) busyWake).flatten closedState ?_ (busy_loop _)
  · have hlen : ∀ n, ((List.replicate n busyWake).flatten.filter isWorker).length = 5 * n := by
      intro n
      induction n with
      | zero => rfl
      | succ n ih =>
        rw [List.replicate_succ, List.flatten_cons, List.filter_append, List.length_append, ih]
        have : (busyWake.filter isWorker).length = 5 := rfl
        omega
    rw [hlen] at this
    omega
  · intro hx
    simp only [List.mem_flatten, List.mem_replicate] at hx
    obtain ⟨l, ⟨_, rfl⟩, hl⟩ := hx
    revert hl; decide

/-- C15. In whatever state the file system falls quiet (all later wake-ups come from the stop signal
only, callbacks return), the number of steps the worker can still make is bounded: by a number known in
advance, plus two for each warning while opening. -/
theorem C15_quiet_close_terminates (cfg : Cfg) (s : St) :
    ∃ bound, ∀ (acts : List Act) (s' : St), (∀ a ∈ acts, Quiet a) → run cfg s acts = some s' →
      (acts.filter isWorker).length ≤ bound + (acts.map openCost).sum :=
  ⟨cost s.w, fun acts s' hq hr => by have := quiet_run_cost acts s s' hq hr; omega⟩

/-- C15: and it is never stuck: after a release (whether or not the stop signal could be written), a worker that is neither finished nor inside
its own `close()` can always make a (quiet) step. Together with the bound: it finishes. -/
theorem C15_worker_never_stuck (cfg : Cfg) (s : St)
    (h : Reachable cfg s) (hrel : ReleaseReturned s) (hnf : s.w ≠ .finished)
    (hns : ∀ c n, s.w ≠ .selfClose c n) :
    ∃ a s', isWorker a = true ∧ Quiet a ∧ step cfg s a = some s' := by
  obtain ⟨a, s', h1, h2, _, h4⟩ := worker_progress_any h (fun hfd => returned_released hfd h hrel) hnf hns
  exact ⟨a, s', h1, h2, h4⟩

/-- C15: from every state after a release (whether or not the stop signal could be written) there is a way to the end, and there every waiting
`close()` or destructor can go on. -/
theorem C15_close_returns (cfg : Cfg) (s : St)
    (h : Reachable cfg s) (hrel : ReleaseReturned s) (hns : ∀ c n, s.w ≠ .selfClose c n) :
    ∃ acts s', (∀ a ∈ acts, Quiet a ∧ isWorker a = true) ∧ run cfg s acts = some s' ∧
      s'.w = .finished ∧ (s'.o ≠ .idle → s'.o ≠ .gone → (oStep s').isSome = true) := by
  have hi := fun hfd => returned_released hfd h hrel
  have main : ∀ (k : Nat) (s : St), cost s.w ≤ k → Reachable cfg s → (cfg.fdOk = true → s.sb.is = .released) →
      (∀ c n, s.w ≠ .selfClose c n) →
      ∃ acts s', (∀ a ∈ acts, Quiet a ∧ isWorker a = true) ∧ run cfg s acts = some s' ∧ s'.w = .finished := by
    intro k
    induction k with
    | zero =>
      intro s hk hr hrel hns
      refine ⟨[], s, by simp, rfl, ?_⟩
      cases hw : s.w <;> rw [hw] at hk <;> simp [cost, itemsAll, waitCost] at hk
      · rename_i sec r; cases sec <;> simp [doneCost] at hk
    | succ k ih =>
      intro s hk hr hrel hns
      by_cases hf : s.w = .finished
      · exact ⟨[], s, by simp, rfl, hf⟩
      · obtain ⟨a, s1, h1, h2, h3, h4⟩ := worker_progress_any hr hrel hf hns
        have hc := quiet_cost h2 h4
        rw [h1, h3] at hc
        have hns' : ∀ c n, s1.w ≠ .selfClose c n := by
          intro c n hw
          have hns1 := hns
          cases a with
          | w =>
            exact wstep_no_self hns (by simpa [step] using h4) c n hw
          | cbClose => exact h2
          | cbReturn =>
            simp only [step] at h4
            split at h4 <;> simp at h4
            rename_i m hm
            subst h4
            have := (fut_reachable hr).f11 m hm
            simp only at hw
            subst hw
            simp [Flat] at this
          | wOpen evs r => simp only [step] at h4; split at h4 <;> (try split at h4) <;> simp at h4; subst h4; simp at hw
          | wWake items => simp only [step] at h4; split at h4 <;> (try split at h4) <;> simp at h4; subst h4; simp at hw
          | wWakeErr => simp only [step] at h4; split at h4 <;> simp at h4; subst h4; simp at hw
          | o => simp [isWorker] at h1
          | oClose => simp [isWorker] at h1
          | oDtor => simp [isWorker] at h1
        obtain ⟨acts, s2, k1, k2, k3⟩ := ih s1 (by simp at hc; omega) (reachable_step hr h4)
          (fun hfd => released_step hfd hr (hrel hfd) h4) hns'
        refine ⟨a :: acts, s2, ?_, by simp [run, h4, k2], k3⟩
        intro b hb
        simp at hb
        rcases hb with rfl | hb
        · exact ⟨h2, h1⟩
        · exact k1 b hb
  obtain ⟨acts, s', k1, k2, k3⟩ := main (cost s.w) s (Nat.le_refl _) h hi hns
  refine ⟨acts, s', k1, k2, k3, ?_⟩
  intro hni hng
  have hf := fut_reachable (reachable_run h k2)
  have hsome : s'.fut ≠ none := by rw [ne_eq, hf.f1]; simp [k3]
  cases hfut : s'.fut with
  | none => exact absurd hfut hsome
  | some b =>
    have hcl : ∀ c, (closeStep s' c).isSome = true := by
      intro c; cases c <;> simp only [closeStep]
      · split <;> rfl
      · rfl
      · rfl
      · split
        · rfl
        · split <;> rfl
      · simp [hfut]
    have hcase : ∀ c, ∃ s1 r, closeStep s' c = some (s1, r) := by
      intro c
      cases hx : closeStep s' c with
      | none => have := hcl c; rw [hx] at this; simp at this
      | some p => exact ⟨p.1, p.2, rfl⟩
    cases ho : s'.o with
    | idle => exact absurd ho hni
    | gone => exact absurd ho hng
    | closing c => obtain ⟨s1, r, hx⟩ := hcase c; cases r <;> simp [oStep, ho, hx]
    | dtorClosing c => obtain ⟨s1, r, hx⟩ := hcase c; cases r <;> simp [oStep, ho, hx]
    | dtorFuture => simp only [oStep, ho, hfut]; split <;> rfl
    | dtorFd => simp [oStep, ho]

example : Reachable okCfg closedState ∧ ReleaseReturned closedState ∧
    (∀ c n, closedState.w ≠ .selfClose c n) :=
  ⟨⟨startUp ++ closeUp, rfl⟩, .inr (.inl rfl), by intro c n h; cases h⟩

/-! ## C16 -/

/-- C16: a `close()` by the owner on a working stop signal returns only when the worker is finished. -/
theorem C16_close_waits (cfg : Cfg) (hfd : cfg.fdOk = true) (s : St) (h : Reachable cfg s)
    (hc : ∃ b, Obs.closeRet b ∈ s.log) : s.w = .finished :=
  finished_of_invalid (fut_reachable h) ((sig_reachable hfd h).ret hc).1

/-- C16: a callback that calls `close()` (working stop signal) never returns: in every continuation it
is still inside that call, no further event is delivered (in particular no die message), no `close()`
of the owner and no destructor returns any more. -/
theorem C16_close_in_callback_hangs (cfg : Cfg) (hfd : cfg.fdOk = true) (s s' : St) (acts : List Act)
    (c : ClosePc) (n : WPc) (h : Reachable cfg s) (hw : s.w = .selfClose c n)
    (hr : run cfg s acts = some s') :
    (∃ c', s'.w = .selfClose c' n) ∧ callbacks s'.log = callbacks s.log ∧
    (∀ b, Obs.closeRet b ∈ s'.log ↔ Obs.closeRet b ∈ s.log) ∧
    (Obs.dtorRet ∈ s'.log ↔ Obs.dtorRet ∈ s.log) := selfClose_run hfd h hw hr

example : ∃ s n, run okCfg (init okCfg) [.w, .w, .w, .cbClose] = some s ∧ s.w = .selfClose .load n :=
  ⟨_, _, rfl, rfl⟩

/-! ## C17 -/

/-- C17: when the stop descriptor is closed, the worker has finished (so it never uses it again, see
`C13_silence_after_destructor` and `finished_run`). -/
theorem C17_signal_outlives_worker (cfg : Cfg) (s : St) (h : Reachable cfg s) (hfd : s.fdOpen = false) :
    s.w = .finished := by
  have hf := fut_reachable h
  have h4 := hf.f4 (.inr (hf.f5 hfd))
  by_cases hw : s.w = .finished
  · exact hw
  · simp [hf.f1.2 hw] at h4

/-- C17: and in every continuation the worker makes no step at all. -/
theorem C17_no_worker_step_after (cfg : Cfg) (s s' : St) (acts : List Act) (a : Act)
    (h : Reachable cfg s) (hfd : s.fdOpen = false) (hr : run cfg s acts = some s')
    (ha : isWorker a = true) : step cfg s' a = none := by
  have hw := (finished_run (C17_signal_outlives_worker cfg s h hfd) hr).1
  cases a <;> simp [isWorker] at ha <;> simp [step, wStep, hw]

example : ∃ s, Reachable okCfg s ∧ s.fdOpen = false :=
  ⟨_, ⟨wholeLife ++ [.oDtor, .o, .o, .o, .o], rfl⟩, rfl⟩

/-! ## C18 -/

private theorem shape_bad {cfg : Cfg} (hd : cfg.dirOk = false) (w : WPc) (l : List Ev) (h : Shape cfg w l) :
    (l = [] ∨ l = [liveMsg cfg.path false] ∨ l = [liveMsg cfg.path false, dieMsg cfg.path false]) ∧
    (w = .finished → l = [liveMsg cfg.path false, dieMsg cfg.path false]) ∧
    (∀ sec, strip w ≠ .aOpen sec) := by
  have fin : ∀ b l, Fin cfg b l → l = [liveMsg cfg.path false, dieMsg cfg.path false] := by
    rintro b l (⟨_, l', ⟨hx, _⟩, _⟩ | ⟨_, l', (rfl | ⟨hx, _⟩), rfl⟩)
    · simp [hd] at hx
    · simp [liveEv_eq, dieEv_eq]
    · simp [hd] at hx
  induction w with
  | inCb n ih => obtain ⟨h1, _, h3⟩ := ih h; exact ⟨h1, by simp, by simpa [strip] using h3⟩
  | selfClose c n ih => obtain ⟨h1, _, h3⟩ := ih h; exact ⟨h1, by simp, by simpa [strip] using h3⟩
  | start => exact ⟨.inl h, by simp, by simp [strip]⟩
  | stLoad => simp [Shape, hd] at h
  | stRead => simp [Shape, hd] at h
  | stStore v => simp [Shape, hd] at h
  | live pre => exact ⟨.inl h.1, by simp, by simp [strip]⟩
  | aOpen sec => simp [Shape, Running, hd] at h
  | aWait sec => simp [Shape, Running, hd] at h
  | aEvs sec evs r items => simp [Shape, Running, hd] at h
  | aItems sec ok items => simp [Shape, Running, hd] at h
  | aDone sec r => simp [Shape, Running, hd] at h
  | die pre post =>
    cases pre <;> cases post <;> simp only [Shape] at h
    · exact ⟨.inr (.inl (by rw [h.2, liveEv_eq])), by simp, by simp [strip]⟩
    · simp at h
    · simp [Failed, hd] at h
    · simp [Running, hd] at h
  | setFut b => exact ⟨.inr (.inr (fin b l h)), by simp, by simp [strip]⟩
  | finished => obtain ⟨b, h⟩ := h; exact ⟨.inr (.inr (fin b l h)), fun _ => fin b l h, by simp [strip]⟩

/-- C18: on a path that is not an existing directory the callback sees exactly `e/self/live@path` and
`e/self/die@path` (a prefix of that while the worker runs, all of it when it is done), no back end is
ever opened, and no `close()` returns true. -/
theorem C18_bad_path (cfg : Cfg) (hd : cfg.dirOk = false) (s : St) (h : Reachable cfg s) :
    (callbacks s.log <+: [liveMsg cfg.path false, dieMsg cfg.path false]) ∧
    (s.w = .finished → callbacks s.log = [liveMsg cfg.path false, dieMsg cfg.path false]) ∧
    (∀ second, s.w ≠ .aOpen second) ∧ Obs.closeRet true ∉ s.log := by
  obtain ⟨h1, h2, h3⟩ := shape_bad hd s.w _ (shape_reachable h)
  refine ⟨?_, h2, ?_, ?_⟩
  · rcases h1 with h1 | h1 | h1 <;> rw [h1] <;> simp
  · intro sec hx; exact h3 sec (by rw [hx]; rfl)
  · intro hx
    have hfut := ((fut_reachable h).f7 hx).2
    rcases fut_fin h true hfut with ⟨_, l', ⟨hx, _⟩, _⟩ | ⟨hx, _⟩
    · simp [hd] at hx
    · simp at hx

example : runLog badCfg ([.w, .w, .cbReturn, .w, .cbReturn, .w] ++ closeUp ++ [.o]) =
    some [.cb (liveMsg b!"/f" false), .cb (dieMsg b!"/f" false), .closeCall, .closeRet false] := by decide

/-! ## C20, C21, C22 -/

private theorem mid_not_error {e : Ev} (h : isMid e = true) : ¬ IsErrorMsg e := by
  rintro ⟨h1, h2⟩
  simp [isMid, h1, h2] at h

/-- C20: how every watcher ends. Either without any error message and the result is true; or the
start-up failed; or exactly one error message was sent, directly before the die message, and the
result is false. -/
theorem C20_error_announced_before_die (cfg : Cfg) (s : St) (h : Reachable cfg s) (hw : s.w = .finished) :
    (s.fut = some true ∧ ∃ mids, callbacks s.log = liveMsg cfg.path true :: mids ++ [dieMsg cfg.path true] ∧
      ∀ m ∈ mids, ¬ IsErrorMsg m) ∨
    (s.fut = some false ∧ callbacks s.log = [liveMsg cfg.path false, dieMsg cfg.path false]) ∨
    (s.fut = some false ∧ ∃ mids, ∃ r : Result, callbacks s.log =
        liveMsg cfg.path true :: mids ++ [⟨resultStr r.code ++ cfg.path, .other, .watcher, none⟩, dieMsg cfg.path false] ∧
      IsErrorMsg ⟨resultStr r.code ++ cfg.path, .other, .watcher, none⟩ ∧ ∀ m ∈ mids, ¬ IsErrorMsg m) := by
  have hf := fut_reachable h
  cases hfut : s.fut with
  | none => exact absurd hw (hf.f1.1 hfut)
  | some b =>
    rcases fut_fin h b hfut with ⟨rfl, l', ⟨_, mids, rfl, hm⟩, hl⟩ |
      ⟨rfl, l', (rfl | ⟨_, mids, r, rfl, hr, hm⟩), hl⟩
    · left
      exact ⟨rfl, mids, by rw [hl, liveEv_eq, dieEv_eq], fun m hx => mid_not_error (hm m hx)⟩
    · right; left
      exact ⟨rfl, by rw [hl, liveEv_eq, dieEv_eq]; rfl⟩
    · right; right
      refine ⟨rfl, mids, r, ?_, ?_, fun m hx => mid_not_error (hm m hx)⟩
      · rw [hl, liveEv_eq, dieEv_eq]; simp [sendMsg, Result.str]
      · refine ⟨rfl, ?_⟩
        cases r <;> simp_all [Result.isError, Result.code, resultStr]

/-- C20: once the loop (or the opening) is left with a fatal status `r` that is not the fall-back
case, every schedule that ends has delivered exactly that error message and the die message `e` after
what was delivered before, and the result is false. -/
theorem C20_fatal_status_is_announced (cfg : Cfg) (s s' : St) (acts : List Act) (second : Bool)
    (r : Result) (h : Reachable cfg s) (hw : s.w = .aDone second r) (hr : r.isError = true)
    (hnf : ¬ (second = false ∧ r = .eFanotify)) (hrun : run cfg s acts = some s')
    (hfin : s'.w = .finished) :
    callbacks s'.log = callbacks s.log ++ [⟨resultStr r.code ++ cfg.path, .other, .watcher, none⟩, dieMsg cfg.path false] ∧
    s'.fut = some false := by
  have hfut : s.fut = none := (fut_reachable h).f1.2 (by simp [hw])
  have key := run_induct (cfg := cfg)
    (P := fun t => FailInv cfg r (callbacks s.log) t ∧ (∀ sec, t.w = .aDone sec r → sec = second))
    (fun t a t' ⟨h1, h2⟩ hs => by
      obtain ⟨k1, k2⟩ := fail_step hr (fun he sec hx => by
        have := h2 sec hx; subst this
        cases sec with
        | true => rfl
        | false => exact absurd ⟨rfl, he⟩ hnf) h1 hs
      exact ⟨k1, fun sec hx => h2 sec (k2 sec hx)⟩)
    acts s s' ⟨.inl ⟨⟨second, hw⟩, rfl, hfut⟩, by intro sec hx; rw [hw] at hx; simp at hx; exact hx.symm⟩ hrun
  rcases key.1 with ⟨⟨sec, hx⟩, _⟩ | ⟨hx, _⟩ | ⟨hx, _⟩ | ⟨_, hx, hy⟩
  · rw [hfin] at hx; cases hx
  · rw [hfin] at hx; cases hx
  · rw [hfin] at hx; cases hx
  · exact ⟨by rw [hx, dieEv_eq]; rfl, hy⟩

/-- C20, the full claim includes: when reading failed in the loop, the result is false. -/
def C20_full : Prop := ∀ (cfg : Cfg) (acts : List Act) (s : St),
  run cfg (init cfg) acts = some s → s.fut = some true →
  ∀ items, Act.wWake items ∈ acts → ∀ evs r, Item.ke evs r ∈ items → r.isError = false

/-- C20 is false of the code in one corner: a fatal status that is followed by the stop signal in the
same wake-up is overwritten; nothing is announced and `close()` returns true. -/
theorem C20_masked_error_refuted : ¬ C20_full := by
  intro h
  have := h okCfg (startUp ++ closeUp ++ [.wWake [.ke [] .eRead, .il], .w, .w, .w, .w, .w, .w, .cbReturn, .w, .o])
    _ rfl rfl [.ke [] .eRead, .il] (by decide) [] .eRead (by decide)
  exact absurd this (by decide)

example : ∃ s, run okCfg (init okCfg) (startUp ++ [.wWakeErr, .w]) = some s ∧ s.w = .aDone true .eEpoll :=
  ⟨_, rfl, rfl⟩

/-- C21: as long as wake-ups bring only deliveries and warnings, the watcher goes on: no schedule ends
it or delivers a die message. -/
theorem C21_warnings_never_stop (cfg : Cfg) (s s' : St) (acts : List Act) (second : Bool)
    (h : Reachable cfg s) (hw : s.w = .aWait second)
    (hq : Act.wWakeErr ∉ acts ∧ ∀ items, Act.wWake items ∈ acts → WarnOnly items)
    (hr : run cfg s acts = some s') :
    s'.fut = none ∧ ∀ b, dieMsg cfg.path b ∉ callbacks s'.log := by
  have key : ∀ (as : List Act) (t t' : St), Act.wWakeErr ∉ as → (∀ items, Act.wWake items ∈ as → WarnOnly items) →
      InLoop (strip t.w) → run cfg t as = some t' → InLoop (strip t'.w) := by
    intro as
    induction as with
    | nil => intro t t' _ _ h hr; simp [run] at hr; exact hr ▸ h
    | cons a as ih =>
      intro t t' h1 h2 h3 hr
      simp only [run] at hr
      cases hs : step cfg t a with
      | none => simp [hs] at hr
      | some t1 =>
        rw [hs] at hr
        refine ih t1 t' (fun hx => h1 (by simp [hx])) (fun i hi => h2 i (by simp [hi])) ?_ hr
        exact inLoop_step h3 (fun hx => h1 (by simp [hx])) (fun i hi => h2 i (by simp [hi])) hs
  have hin := key acts s s' hq.1 hq.2 (by simp [hw, strip, InLoop]) hr
  have h' := reachable_run h hr
  have hrun : Running cfg (callbacks s'.log) := by
    have hsh := shape_reachable h'
    have : ∀ w l, InLoop (strip w) → Shape cfg w l → Running cfg l := by
      intro w
      induction w with
      | inCb n ih => intro l h1 h2; exact ih l h1 h2
      | selfClose c n ih => intro l h1 h2; exact ih l h1 h2
      | aWait sec => intro l _ h2; exact h2
      | aItems sec ok items => intro l _ h2; exact h2.1
      | aEvs sec evs r items => intro l _ h2; exact h2.1
      | _ => intro l h1 _; exact absurd h1 (by simp [strip, InLoop])
    exact this _ _ hin hsh
  refine ⟨(fut_reachable h').f1.2 ?_, ?_⟩
  · intro hx; rw [hx] at hin; exact hin
  · intro b hx
    obtain ⟨_, mids, hl, hm⟩ := hrun
    rw [hl, List.mem_cons] at hx
    rcases hx with hx | hx
    · rw [liveEv_eq] at hx; simp [dieMsg, liveMsg] at hx
    · have := hm _ hx; simp [isMid, dieMsg] at this

/-- C21: and such a wake-up's deliveries all arrive, in order, after which the watcher waits again. -/
theorem C21_deliveries_continue (cfg : Cfg) (s : St) (second : Bool) (items : List Item)
    (hw : s.w = .aWait second) (hwo : WarnOnly items) (s1 : St)
    (hs : step cfg s (.wWake items) = some s1) :
    ∃ acts s', (∀ a ∈ acts, a = .w ∨ a = .cbReturn) ∧ run cfg s1 acts = some s' ∧
      s'.w = .aWait second ∧ callbacks s'.log = callbacks s.log ++ items.flatMap evsOf := by
  have h1 : s1 = { s with w := .aItems second .pending items } := by
    simp only [step, hw] at hs; split at hs <;> simp at hs; exact hs.symm
  subst h1
  obtain ⟨acts, k1, k2⟩ := processItems (cfg := cfg) items
    { s with w := .aItems second .pending items } second .pending rfl (by decide) hwo
  refine ⟨acts, _, k1, k2, rfl, ?_⟩
  simp only [callbacks_append]
  have : ∀ l : List Ev, callbacks (l.map Obs.cb) = l := by
    intro l; induction l with
    | nil => rfl
    | cons e l ih => simp [callbacks, ih]
  rw [this]

example : WarnOnly [.ke [fileEv] .pending, .ke [] .wBadFd] := by
  intro i hi
  simp at hi
  rcases hi with rfl | rfl
  · exact ⟨_, _, rfl, .inl rfl⟩
  · exact ⟨_, _, rfl, .inr (by decide)⟩

/-- C22: once the first back end (fanotify) is in its loop, no second one is ever opened. -/
theorem C22_no_fallback_once_running (cfg : Cfg) (s s' : St) (acts : List Act)
    (hw : s.w = .aWait false) (hr : run cfg s acts = some s') :
    ∀ evs r, Act.wOpen evs r ∉ acts := by
  have key : ∀ (as : List Act) (t t' : St), FirstOnly (strip t.w) → run cfg t as = some t' →
      ∀ evs r, Act.wOpen evs r ∉ as := by
    intro as
    induction as with
    | nil => intro _ _ _ _ _ _ h; cases h
    | cons a as ih =>
      intro t t' h3 hr evs r hx
      simp only [run] at hr
      cases hs : step cfg t a with
      | none => simp [hs] at hr
      | some t1 =>
        rw [hs] at hr
        obtain ⟨k1, k2⟩ := firstOnly_step h3 hs
        rw [List.mem_cons] at hx
        rcases hx with hx | hx
        · exact k2 evs r hx.symm
        · exact ih t1 t' k1 hr evs r hx
  exact key acts s s' (by simp [hw, strip, FirstOnly]) hr

/-- C22: opening the first back end: when it answers "fanotify unavailable" the second one is opened
next; with any other error the watcher is on its way to announcing it; with no error it waits. -/
theorem C22_fallback_exactly_when_unavailable (cfg : Cfg) (s s1 : St) (r : Result)
    (hw : s.w = .aOpen false) (hs : step cfg s (.wOpen [] r) = some s1) :
    (r = .eFanotify → ∃ s2, run cfg s1 [.w, .w, .w] = some s2 ∧ s2.w = .aOpen true ∧ s2.log = s.log) ∧
    (r ≠ .eFanotify → r.isError = true → ∃ s2, run cfg s1 [.w, .w, .w] = some s2 ∧
      s2.w = .inCb (.die true false) ∧
      s2.log = s.log ++ [.cb ⟨resultStr r.code ++ cfg.path, .other, .watcher, none⟩]) ∧
    (r.isError = false → ∃ s2, run cfg s1 [.w, .w] = some s2 ∧ s2.w = .aWait false ∧ s2.log = s.log) := by
  simp only [step, hw] at hs
  split at hs <;> simp at hs
  rename_i hx
  subst hs
  simp [isOpenResult] at hx
  refine ⟨?_, ?_, ?_⟩
  · rintro rfl; exact ⟨_, rfl, rfl, rfl⟩
  · intro h1 h2
    cases r <;> simp at hx h1 h2 <;> try (exact absurd h2 (by decide))
    exact ⟨_, rfl, rfl, rfl⟩
  · intro h1
    cases r <;> simp at hx <;> try (exact absurd h1 (by decide))
    exact ⟨_, rfl, rfl, rfl⟩

example : ∃ s, run okCfg (init okCfg) [.w, .w, .w, .cbReturn] = some s ∧ s.w = .aOpen false ∧
    (step okCfg s (.wOpen [] .eFanotify)).isSome = true := ⟨_, rfl, rfl, rfl⟩
example : ∃ s, run okCfg (init okCfg) [.w, .w, .w, .cbReturn, .wOpen [] .pending, .w, .w] = some s ∧
    s.w = .aWait false := ⟨_, rfl, rfl⟩

end Verif.Props
