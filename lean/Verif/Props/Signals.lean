import Verif.Spec.Signals
import Verif.Lemmas.Doom
/-!
# Signals while a watch waits: C148
-/

namespace Verif.Props
open Verif Verif.Model Verif.Model.Life Verif.Spec Verif.Lemmas.Life

/-- C148 as it should be: a watch of a directory that nobody closes goes on, when nothing fails but waiting is interrupted by signals. -/
def C148_full : Prop := ∀ (cfg : Cfg), cfg.dirOk = true → cfg.fdOk = true → ∀ (acts : List Act) (s : St),
  (∀ a ∈ acts, NotClosing a ∧ (NoFailure a ∨ a = waited (.failed eintr))) → run cfg (init cfg) acts = some s → s.w ≠ .finished

/-- Where a watch that nothing disturbs is. -/
private inductive Fine : WPc → Prop where
  | start : Fine .start
  | stLoad : Fine .stLoad
  | live : Fine (.live true)
  | aOpen {b} : Fine (.aOpen b)
  | evs {b es items} (h : ∀ i ∈ items, ∃ evs, i = Item.ke evs .pending) : Fine (.aEvs b es .pending items)
  | evsF {es} : Fine (.aEvs false es .eFanotify [])
  | items {b items} (h : ∀ i ∈ items, ∃ evs, i = Item.ke evs .pending) : Fine (.aItems b .pending items)
  | itemsF : Fine (.aItems false .eFanotify [])
  | wait {b} : Fine (.aWait b)
  | doneF : Fine (.aDone false .eFanotify)
  | inCb {n} (h : Fine n) : Fine (.inCb n)

private theorem fine_step {cfg : Cfg} (hd : cfg.dirOk = true) {s s' : St} {a : Act} (h : Fine s.w ∧ s.sb.is = .pending ∧ s.o = .idle)
    (ha : NotClosing a ∧ NoFailure a) (hs : step cfg s a = some s') : Fine s'.w ∧ s'.sb.is = .pending ∧ s'.o = .idle := by
  obtain ⟨hf, hi, ho⟩ := h
  cases a with
  | w =>
    simp only [step] at hs
    generalize hw : s.w = w at hf
    cases hf with
    | start => simp [wStep, hw, hd] at hs; subst hs; exact ⟨.stLoad, hi, ho⟩
    | stLoad => simp [wStep, hw, hi] at hs; subst hs; exact ⟨.live, hi, ho⟩
    | live => simp [wStep, hw, callCb] at hs; subst hs; exact ⟨.inCb .aOpen, hi, ho⟩
    | aOpen => simp [wStep, hw] at hs
    | evs h =>
      rename_i b es items
      cases es with
      | nil => simp [wStep, hw] at hs; subst hs; exact ⟨.items h, hi, ho⟩
      | cons e es => simp [wStep, hw, callCb] at hs; subst hs; exact ⟨.inCb (.evs h), hi, ho⟩
    | evsF =>
      rename_i es
      cases es with
      | nil => simp [wStep, hw] at hs; subst hs; exact ⟨.itemsF, hi, ho⟩
      | cons e es => simp [wStep, hw, callCb] at hs; subst hs; exact ⟨.inCb .evsF, hi, ho⟩
    | items h =>
      rename_i b items
      cases items with
      | nil =>
        have : Result.pending.keepsRunning = true := by decide
        simp [wStep, hw, this] at hs; subst hs; exact ⟨.wait, hi, ho⟩
      | cons i is =>
        obtain ⟨evs, rfl⟩ := h i (by simp)
        simp [wStep, hw] at hs; subst hs
        exact ⟨.evs fun j hj => h j (by simp [hj]), hi, ho⟩
    | itemsF =>
      have : Result.eFanotify.keepsRunning = false := by decide
      simp [wStep, hw, this] at hs; subst hs; exact ⟨.doneF, hi, ho⟩
    | wait => simp [wStep, hw] at hs
    | doneF => simp [wStep, hw] at hs; subst hs; exact ⟨.aOpen, hi, ho⟩
    | inCb h => simp [wStep, hw] at hs
  | wOpen es r =>
    simp only [step] at hs
    split at hs
    · rename_i sec hw
      split at hs
      · rename_i hc
        simp only [Option.some.injEq] at hs; subst hs
        refine ⟨?_, hi, ho⟩
        rcases ha.2 with rfl | rfl
        · exact .evs (by simp)
        · cases sec with
          | false => exact .evsF
          | true => simp [isOpenResult] at hc
      · cases hs
    · cases hs
  | wWake items =>
    simp only [step] at hs
    split at hs
    · split at hs
      · simp only [Option.some.injEq] at hs; subst hs
        exact ⟨.items ha.2, hi, ho⟩
      · cases hs
    · cases hs
  | wWakeErr => exact absurd ha.2 (by simp [NoFailure])
  | cbReturn =>
    simp only [step] at hs
    split at hs
    · rename_i n hw
      simp only [Option.some.injEq] at hs; subst hs
      rw [hw] at hf
      cases hf with
      | inCb h => exact ⟨h, hi, ho⟩
    · cases hs
  | cbClose => exact absurd ha.1 (by simp [NotClosing])
  | oClose => exact absurd ha.1 (by simp [NotClosing])
  | oDtor => exact absurd ha.1 (by simp [NotClosing])
  | o => simp [step, oStep, ho] at hs

/-- C148: without signals it is so: a watch of a directory that nobody closes, and for which nothing fails, never ends. -/
theorem C148_undisturbed_partial (cfg : Cfg) (hd : cfg.dirOk = true) (acts : List Act) (s : St)
    (ha : ∀ a ∈ acts, NotClosing a ∧ NoFailure a) (hr : run cfg (init cfg) acts = some s) : s.w ≠ .finished := by
  have h : ∀ (acts : List Act) (s s' : St), (∀ a ∈ acts, NotClosing a ∧ NoFailure a) → Fine s.w ∧ s.sb.is = .pending ∧ s.o = .idle →
      run cfg s acts = some s' → Fine s'.w := by
    intro acts
    induction acts with
    | nil => intro s s' _ h hr; simp [run] at hr; subst hr; exact h.1
    | cons a as ih =>
      intro s s' hall h hr
      simp only [run] at hr
      split at hr
      · cases hr
      · rename_i s1 hs1
        exact ih s1 s' (fun b hb => hall b (by simp [hb])) (fine_step hd h (hall a (by simp)) hs1) hr
  have := h acts (init cfg) s ha ⟨.start, rfl, rfl⟩ hr
  intro hw; rw [hw] at this; cases this

/-- C148: a watch whose waiting is interrupted by a signal waits no more, whatever the threads do afterwards: the callback gets the
message of a failed `epoll` call and the die message of failure, nothing else, and the result is false. -/
theorem C148_interrupted_partial (cfg : Cfg) (s s1 s2 : St) (sec : Bool) (hw : s.w = .aWait sec)
    (hs : step cfg s (waited (.failed eintr)) = some s1) (acts : List Act) (hr : run cfg s1 acts = some s2) :
    (∀ second, s2.w ≠ .aWait second) ∧
    callbacks s2.log <+: callbacks s.log ++ [epollError cfg.path, dieMsg cfg.path false] ∧
    (s2.w = .finished → s2.fut = some false ∧ callbacks s2.log = callbacks s.log ++ [epollError cfg.path, dieMsg cfg.path false]) := by
  simp only [waited, step, hw, Option.some.injEq] at hs
  subst hs
  have h2 := run_induct (P := fun x => Doom cfg.path sec .eEpoll (callbacks s.log) [] x.w (callbacks x.log) ∧
      (x.w = .finished → x.fut = some false)) (fun x a y hx hxy => doomed_step (by decide) (.inr (by decide)) hx hxy) acts _ s2
    ⟨by have := Doom.items (path := cfg.path) (sec := sec) (r := .eEpoll) (base := callbacks s.log) (evs := []); simpa using this, by simp⟩ hr
  obtain ⟨g1, g2, g3⟩ := doomed_shape h2.1
  simp only [List.append_nil] at g2 g3
  exact ⟨g1, g2, fun h => ⟨h2.2 h, g3 h⟩⟩

/-- Steps the interrupted watch still has. -/
private def left : WPc → Nat
  | .aItems _ _ _ => 6
  | .aDone _ _ => 5
  | .inCb (.die _ _) => 4
  | .die _ _ => 3
  | .inCb (.setFut _) => 2
  | .setFut _ => 1
  | _ => 0

/-- The interrupted watch, when its callback does not call `close()`. -/
private inductive Down (sec : Bool) : WPc → Prop where
  | items : Down sec (.aItems sec .eEpoll [])
  | done : Down sec (.aDone sec .eEpoll)
  | cbDie : Down sec (.inCb (.die true false))
  | die : Down sec (.die true false)
  | cbSet : Down sec (.inCb (.setFut false))
  | setFut : Down sec (.setFut false)
  | fin : Down sec .finished

private theorem down_step {cfg : Cfg} {sec : Bool} {s s' : St} {a : Act} (h : Down sec s.w) (hn : a ≠ .cbClose) (hs : step cfg s a = some s') :
    Down sec s'.w ∧ left s'.w + (if isWorker a then 1 else 0) = left s.w := by
  have same : isWorker a = false → ∀ {x : St}, x.w = s.w → Down sec x.w ∧ left x.w + (if isWorker a then 1 else 0) = left s.w := by
    intro h1 x h2; rw [h2, h1]; exact ⟨h, by simp⟩
  cases a with
  | w =>
    simp only [step] at hs
    have h1 : Result.eEpoll.keepsRunning = false := by decide
    have h2 : Result.eEpoll.isError = true := by decide
    generalize hw : s.w = w at h
    cases h <;> simp [wStep, hw, h1, h2, callCb] at hs <;> subst hs
    · exact ⟨.done, rfl⟩
    · exact ⟨.cbDie, rfl⟩
    · exact ⟨.cbSet, rfl⟩
    · exact ⟨.fin, rfl⟩
  | cbReturn =>
    simp only [step] at hs
    split at hs
    · rename_i n hw
      simp only [Option.some.injEq] at hs; subst hs
      rw [hw] at h
      cases h <;> rw [hw]
      · exact ⟨.die, rfl⟩
      · exact ⟨.setFut, rfl⟩
    · cases hs
  | cbClose => exact absurd rfl hn
  | wOpen => simp only [step] at hs; split at hs
             · rename_i hw; rw [hw] at h; cases h
             · cases hs
  | wWake => simp only [step] at hs; split at hs
             · rename_i hw; rw [hw] at h; cases h
             · cases hs
  | wWakeErr => simp only [step] at hs; split at hs
                · rename_i hw; rw [hw] at h; cases h
                · cases hs
  | oClose =>
    simp only [step] at hs
    split at hs
    · simp only [Option.some.injEq] at hs; subst hs; exact same rfl rfl
    · cases hs
  | oDtor =>
    simp only [step] at hs
    split at hs
    · simp only [Option.some.injEq] at hs; subst hs; exact same rfl rfl
    · cases hs
  | o =>
    simp only [step, oStep] at hs
    split at hs
    · split at hs
      · cases hs
      · rename_i hc; simp only [Option.some.injEq] at hs; subst hs; exact same rfl (closeStep_frame hc).2.1
      · rename_i hc; simp only [Option.some.injEq] at hs; subst hs; exact same rfl (closeStep_frame hc).2.1
    · split at hs
      · cases hs
      · rename_i hc; simp only [Option.some.injEq] at hs; subst hs; exact same rfl (closeStep_frame hc).2.1
      · rename_i hc; simp only [Option.some.injEq] at hs; subst hs; exact same rfl (closeStep_frame hc).2.1
    · split at hs
      · split at hs
        · cases hs
        · simp only [Option.some.injEq] at hs; subst hs; exact same rfl rfl
      · simp only [Option.some.injEq] at hs; subst hs; exact same rfl rfl
    · simp only [Option.some.injEq] at hs; subst hs; exact same rfl rfl
    · cases hs

/-- C148: the interrupted watch has ended after exactly six steps of its own thread, two of them returns of the callback; until then there is always a
next step. -/
theorem C148_ends_partial (cfg : Cfg) (s s1 s2 : St) (sec : Bool) (hw : s.w = .aWait sec)
    (hs : step cfg s (waited (.failed eintr)) = some s1) (acts : List Act) (hn : ∀ a ∈ acts, a ≠ .cbClose) (hr : run cfg s1 acts = some s2) :
    acts.countP isWorker ≤ 6 ∧ (s2.w = .finished ↔ acts.countP isWorker = 6) ∧
    (s2.w ≠ .finished → (step cfg s2 .w).isSome ∨ (step cfg s2 .cbReturn).isSome) := by
  simp only [waited, step, hw, Option.some.injEq] at hs
  subst hs
  have h : ∀ (acts : List Act) (s s' : St), (∀ a ∈ acts, a ≠ .cbClose) → Down sec s.w → run cfg s acts = some s' →
      Down sec s'.w ∧ left s'.w + acts.countP isWorker = left s.w := by
    intro acts
    induction acts with
    | nil => intro s s' _ h hr; simp [run] at hr; subst hr; exact ⟨h, by simp⟩
    | cons a as ih =>
      intro s s' hall h hr
      simp only [run] at hr
      split at hr
      · cases hr
      · rename_i s1 hs1
        obtain ⟨h1, h2⟩ := down_step h (hall a (by simp)) hs1
        obtain ⟨h3, h4⟩ := ih s1 s' (fun b hb => hall b (by simp [hb])) h1 hr
        refine ⟨h3, ?_⟩
        rw [List.countP_cons, ← h2, ← h4]; omega
  obtain ⟨h1, h2⟩ := h acts _ s2 hn .items hr
  simp only [left] at h2
  have h3 : Result.eEpoll.keepsRunning = false := by decide
  have h4 : Result.eEpoll.isError = true := by decide
  generalize hw2 : s2.w = w at h1 h2
  refine ⟨by omega, ?_, ?_⟩
  · cases h1 <;> simp only at h2 <;> constructor <;> intro h <;> first | rfl | (clear hr; omega) | (exfalso; clear hr; omega) | cases h
  · intro hne
    cases h1 <;> simp [step, wStep, hw2, h3, h4] at hne ⊢

private def cfgS : Cfg := { path := b!"/d", dirOk := true, fdOk := true }
/-- A watch that works; its process is then stopped and continued. -/
private def interruptedRun : List Act :=
  [.w, .w, .w, .cbReturn, .wOpen [] .eFanotify, .w, .w, .w, .wOpen [] .pending, .w, .w,
   .wWake [.ke [⟨b!"/d/a", .create, .file, none⟩] .pending], .w, .w, .cbReturn, .w, .w,
   waited (.failed eintr), .w, .w, .cbReturn, .w, .cbReturn, .w]

private theorem ranS {o : Option St} {p : St → Prop} [DecidablePred p] (h : (match o with | some a => decide (p a) | none => false) = true) :
    ∃ a, o = some a ∧ p a := by
  cases o with
  | none => simp at h
  | some a => exact ⟨a, rfl, by simpa using h⟩

/-- What happens: the watch ends by itself. -/
private theorem interrupted_ends : ∃ s, run cfgS (init cfgS) interruptedRun = some s ∧
    (s.w = .finished ∧ callbacks s.log = [liveMsg b!"/d" true, ⟨b!"/d/a", .create, .file, none⟩, epollError b!"/d", dieMsg b!"/d" false]) :=
  ranS (by decide +kernel)

/-- C148_full does not hold of the code: a signal ends the watch. -/
theorem C148_refuted : ¬ C148_full := by
  intro h
  obtain ⟨s, hs, hw, _⟩ := interrupted_ends
  refine h cfgS rfl rfl interruptedRun s ?_ hs hw
  intro a ha
  simp only [interruptedRun, waited, List.mem_cons, List.not_mem_nil, or_false] at ha
  rcases ha with rfl | rfl | rfl | rfl | rfl | rfl | rfl | rfl | rfl | rfl | rfl | rfl | rfl | rfl | rfl | rfl | rfl | rfl | rfl | rfl | rfl | rfl | rfl | rfl <;>
    simp [NotClosing, NoFailure, waited]

/-- A waiting watch, as `C148_interrupted_partial` and `C148_ends_partial` ask for. -/
example : ∃ s, run cfgS (init cfgS) (interruptedRun.take 17) = some s ∧ (s.w = .aWait true) := ranS (by decide +kernel)

/-- And one as `C148_undisturbed_partial` asks for. -/
example : (∀ a ∈ interruptedRun.take 17, NotClosing a ∧ NoFailure a) ∧ (run cfgS (init cfgS) (interruptedRun.take 17)).isSome = true := by
  refine ⟨?_, by decide +kernel⟩
  intro a ha
  simp only [interruptedRun, waited, List.take, List.mem_cons, List.not_mem_nil, or_false] at ha
  rcases ha with rfl | rfl | rfl | rfl | rfl | rfl | rfl | rfl | rfl | rfl | rfl | rfl | rfl | rfl | rfl | rfl | rfl <;>
    simp [NotClosing, NoFailure]

private theorem run_snoc2 {cfg : Cfg} {s s1 s2 : St} {a b : Act} {acts : List Act} (h1 : step cfg s a = some s1) (h2 : step cfg s1 b = some s2) :
    run cfg s (a :: b :: acts) = run cfg s2 acts := by simp only [run, h1, h2]

private theorem told_items (cfg : Cfg) (sec : Bool) : ∀ (items : List Item), (∀ i ∈ items, ∃ evs, i = Item.ke evs .pending) → ∀ (s : St), s.w = .aItems sec .pending items →
    ∃ acts s2, (∀ a ∈ acts, a = .w ∨ a = .cbReturn) ∧ run cfg s acts = some s2 ∧ s2.w = .aWait sec ∧ callbacks s2.log = callbacks s.log ++ items.flatMap itemEvents := by
  intro items
  induction items with
  | nil =>
    intro _ s hw
    refine ⟨[.w], { s with w := .aWait sec }, by simp, ?_, rfl, by simp⟩
    simp only [run, step, wStep, hw]
    rfl
  | cons i items ih =>
    intro hi s hw
    obtain ⟨evs, rfl⟩ := hi i (by simp)
    have hev : ∀ (evs : List Ev) (s : St), s.w = .aEvs sec evs .pending items →
        ∃ acts s2, (∀ a ∈ acts, a = .w ∨ a = .cbReturn) ∧ run cfg s acts = some s2 ∧ s2.w = .aItems sec .pending items ∧ callbacks s2.log = callbacks s.log ++ evs := by
      intro evs
      induction evs with
      | nil =>
        intro s hw
        exact ⟨[.w], { s with w := .aItems sec .pending items }, by simp, by simp only [run, step, wStep, hw], rfl, by simp⟩
      | cons e evs ihe =>
        intro s hw
        obtain ⟨acts, s2, h1, h2, h3, h4⟩ := ihe { callCb s e (.aEvs sec evs .pending items) with w := .aEvs sec evs .pending items } rfl
        refine ⟨.w :: .cbReturn :: acts, s2, ?_, ?_, h3, ?_⟩
        · intro a ha
          simp only [List.mem_cons] at ha
          rcases ha with rfl | rfl | ha
          · exact .inl rfl
          · exact .inr rfl
          · exact h1 a ha
        · rw [run_snoc2 (s1 := callCb s e (.aEvs sec evs .pending items)) (by simp only [step, wStep, hw]) rfl]
          exact h2
        · rw [h4]
          show callbacks (s.log ++ [.cb e]) ++ evs = _
          rw [callbacks_append]; simp [callbacks]
    obtain ⟨a1, s1, g1, g2, g3, g4⟩ := hev evs { s with w := .aEvs sec evs .pending items } rfl
    obtain ⟨a2, s2, k1, k2, k3, k4⟩ := ih (fun j hj => hi j (by simp [hj])) s1 g3
    refine ⟨.w :: (a1 ++ a2), s2, ?_, ?_, k3, ?_⟩
    · intro a ha
      simp only [List.mem_cons, List.mem_append] at ha
      rcases ha with rfl | ha | ha
      · exact .inl rfl
      · exact g1 a ha
      · exact k1 a ha
    · have hw1 : step cfg s .w = some { s with w := .aEvs sec evs .pending items } := by simp only [step, wStep, hw]
      simp only [run, hw1]
      have happ : ∀ (a1 : List Act) (s s1 : St), run cfg s a1 = some s1 → run cfg s (a1 ++ a2) = run cfg s1 a2 := by
        intro a1
        induction a1 with
        | nil => intro s s1 h; simp [run] at h; subst h; rfl
        | cons a a1 ih =>
          intro s s1 h
          simp only [run, List.cons_append] at h ⊢
          split at h
          · cases h
          · exact ih _ _ h
      rw [happ a1 _ s1 g2, k2]
    · rw [k4, g4]; simp [itemEvents]

/-- C148, a wait that was not interrupted: whatever it answers (also nothing), its events are delivered in order and the watch waits again. -/
theorem C148_ready_partial (cfg : Cfg) (s s1 : St) (sec : Bool) (hw : s.w = .aWait sec) (items : List Item) (hi : ∀ i ∈ items, ∃ evs, i = Item.ke evs .pending)
    (hs : step cfg s (waited (.ready items)) = some s1) :
    ∃ acts s2, (∀ a ∈ acts, a = .w ∨ a = .cbReturn) ∧ run cfg s1 acts = some s2 ∧ s2.w = .aWait sec ∧ callbacks s2.log = callbacks s.log ++ items.flatMap itemEvents := by
  simp only [waited, step, hw] at hs
  split at hs
  · cases hs
    obtain ⟨acts, s2, h1, h2, h3, h4⟩ := told_items cfg sec items hi { s with w := .aItems sec .pending items } rfl
    exact ⟨acts, s2, h1, h2, h3, h4⟩
  · cases hs

/-- Met: a waiting watch gets two entries with three events. -/
example : ∃ s, run cfgS (init cfgS) (interruptedRun.take 17) = some s ∧ (s.w = .aWait true ∧
    (step cfgS s (waited (.ready [.ke [⟨b!"/a", .create, .file, none⟩, ⟨b!"/b", .create, .file, none⟩] .pending, .ke [⟨b!"/a", .modify, .file, none⟩] .pending]))).isSome = true) :=
  ranS (by decide +kernel)

end Verif.Props
