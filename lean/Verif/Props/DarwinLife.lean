import Verif.Lemmas.DarwinLifeEnd
import Verif.Props.Darwin
/-!
# The life of a watcher on Darwin: C95 - C102

`Reachable true d`: what the system documents about stopping a stream holds (see `Model/DarwinLife.lean`); C102 is about
systems for which it does not. `d`: whether the path is an existing directory.
-/
namespace Verif.Props.DLife
open Verif Verif.Model Verif.Model.DLife Verif.Spec.DLife Verif.Lemmas.DLife
open Verif.Model.Darwin (Note recvAll)
open Verif.Spec.Darwin (AlternatesFrom lifeOf)

/-! ### Examples to run -/

private def made (p : Str) : Note := { path := p, flags := 0x10100#32 }
private def changed (p : Str) : Note := { path := p, flags := 0x11000#32 }
private def evMade (p : Str) : Ev := ⟨p, .create, .file, none⟩
private def up : List Act := [.w, .w, .w, .cbReturn, .opened true, .w]
private def batch (b : List Note) : List Act := [.notify b, .enter, .tryLock 0]
private def one : List Act := [.k, .k, .kReturn]
private def closing : List Act := [.oClose, .o, .o, .o]
private def ending : List Act := [.w, .w, .w, .w, .w, .cbReturn, .w]
private def life : List Act := up ++ batch [made b!"/d/a", made b!"/d/b"] ++ one ++ one ++ [.k] ++ closing ++ ending ++ [.o]
private def logOf (acts : List Act) : Option (List Obs) := (run true true {} acts).map St.log

example : logOf life = some [.cb (.live true), .cbRet, .cb (.ev (evMade b!"/d/a")), .cbRet, .cb (.ev (evMade b!"/d/b")), .cbRet, .closeCall,
    .cb (.die true), .cbRet, .closeRet true] := by decide +kernel

/-! ## C95 -/

/-- The callback has got a whole story when the worker is done. -/
private theorem whole {d : Bool} {acts : List Act} {s : St} (h : Inv d acts s) (hw : s.w = .finished) :
    ∃ r, s.fut = some r ∧ ((r = false ∧ callbacks s.log = [.live false, .die false] ∧ opens acts = []) ∨
      (callbacks s.log = .live true :: (recvAll {} s.taken.flatten).out.map .ev ++ [.die r] ∧ opens acts = [r] ∧ d = true)) := by
  obtain ⟨done, handled, ht⟩ := h.tell
  have hst := ht.story
  rw [hw] at hst
  obtain ⟨r, hf, hst⟩ := hst
  refine ⟨r, hf, hst.imp id ?_⟩
  rintro ⟨h1, h2, h3⟩
  refine ⟨?_, h2, h3⟩
  have hs : s.stream = false := by
    cases hs : s.stream with
    | false => rfl
    | true => have := h.ctl.inw hs; rw [hw] at this; cases this
  have hk := (h.ctl.quiet hs).1
  have hn := ht.notes
  have hc := ht.ctx
  rw [hk] at hn hc
  simp only [restK, esK, List.append_nil] at hn hc
  rw [h1, ← hn, hc]

private theorem ended_of {d : Bool} {acts : List Act} {s : St} (h : Inv d acts s) (hw : s.w = .finished) :
    ∃ a r, s.fut = some r ∧ Ended a r (callbacks s.log) ∧ (r = true → a = true) := by
  obtain ⟨r, hf, ⟨rfl, hc, _⟩ | ⟨hc, _⟩⟩ := whole h hw
  · exact ⟨false, false, hf, ⟨[], by simpa using hc⟩, by simp⟩
  · exact ⟨true, r, hf, ⟨_, hc⟩, fun _ => rfl⟩

/-- C95: in every reachable state the callback has seen nothing, or the live message and then only events, or a whole
story ending in the die message; and when the worker is done, a whole story. -/
theorem C95_live_first_die_last (d : Bool) (s : St) (h : Reachable true d s) :
    (callbacks s.log = [] ∨ Begun (callbacks s.log) ∨ ∃ a b, Ended a b (callbacks s.log)) ∧
    (s.w = .finished → ∃ a b, Ended a b (callbacks s.log)) := by
  obtain ⟨acts, h⟩ := h
  have hi := inv_reached h
  refine ⟨?_, fun hw => ?_⟩
  · obtain ⟨done, handled, ht⟩ := hi.tell
    have hst := ht.story
    have two : ∀ (c : List Msg), c = [.live false, .die false] → (c = [] ∨ Begun c ∨ ∃ a b, Ended a b c) :=
      fun c e => .inr (.inr ⟨false, false, [], by simpa using e⟩)
    have some' : ∀ (c : List Msg), c = .live true :: done.map .ev → (c = [] ∨ Begun c ∨ ∃ a b, Ended a b c) :=
      fun c e => .inr (.inl ⟨true, done, e⟩)
    have all' : ∀ (c : List Msg) (r : Bool), c = .live true :: done.map .ev ++ [.die r] → (c = [] ∨ Begun c ∨ ∃ a b, Ended a b c) :=
      fun c r e => .inr (.inr ⟨true, r, done, e⟩)
    cases hw : s.w with
    | start => rw [hw] at hst; exact .inl hst.1
    | check => rw [hw] at hst; exact .inl hst.1
    | live pre => rw [hw] at hst; exact .inl hst.1
    | inLive pre => rw [hw] at hst; exact .inr (.inl ⟨pre, [], hst.1⟩)
    | liveClose c pre => rw [hw] at hst; exact .inr (.inl ⟨pre, [], hst.1⟩)
    | opening => rw [hw] at hst; exact .inr (.inl ⟨true, [], hst.1⟩)
    | ask => rw [hw] at hst; exact some' _ hst.1
    | sleep => rw [hw] at hst; exact some' _ hst.1
    | close ok => rw [hw] at hst; exact some' _ hst.1
    | flush ok => rw [hw] at hst; exact some' _ hst.1
    | leave ok => rw [hw] at hst; exact some' _ hst.1
    | die p q =>
      rw [hw] at hst
      rcases hst with ⟨_, _, h, _⟩ | ⟨_, h, _⟩
      · exact .inr (.inl ⟨false, [], h⟩)
      · exact some' _ h
    | inDie p q => rw [hw] at hst; rcases hst with ⟨_, _, h, _⟩ | ⟨_, h, _⟩; exact two _ h; exact all' _ _ h
    | dieClose c p q => rw [hw] at hst; rcases hst with ⟨_, _, h, _⟩ | ⟨_, h, _⟩; exact two _ h; exact all' _ _ h
    | setFut r => rw [hw] at hst; rcases hst with ⟨_, h, _⟩ | ⟨h, _⟩; exact two _ h; exact all' _ _ h
    | finished => rw [hw] at hst; obtain ⟨r, _, ⟨_, h, _⟩ | ⟨h, _⟩⟩ := hst; exact two _ h; exact all' _ _ h
  · obtain ⟨a, r, _, h, _⟩ := ended_of hi hw
    exact ⟨a, r, h⟩

/-- C95: although live and die messages come from one thread and events from others, no two calls of the callback
overlap. -/
theorem C95_one_at_a_time (d : Bool) (s : St) (h : Reachable true d s) : OneAtATime false s.log := by
  obtain ⟨acts, h⟩ := h
  exact (inv_reached h).seen.one

/-- C95: between the live and the die message there are only events that are not about the watcher itself. -/
theorem C95_messages (d : Bool) (path : Str) (s : St) (h : Reachable true d s) (hw : s.w = .finished) :
    ∃ a b, Spec.Ended path a b ((callbacks s.log).map (shown path)) := by
  obtain ⟨acts, h⟩ := h
  obtain ⟨r, _, ⟨rfl, hc, _⟩ | ⟨hc, _⟩⟩ := whole (inv_reached h) hw
  · rw [hc]; exact ⟨false, false, [], rfl, by simp⟩
  · rw [hc]
    have hm : ∀ l : List Ev, (l.map Msg.ev).map (shown path) = l := by
      intro l; induction l with
      | nil => rfl
      | cons x l ih => simp only [List.map_cons, ih]; rfl
    refine ⟨true, r, (recvAll {} s.taken.flatten).out, ?_, ?_⟩
    · simp only [List.cons_append, List.map_cons, List.map_append, List.map_nil, hm]; rfl
    · intro m hm'
      left
      exact recvAll_types _ {} (by simp) m hm'

example : ∃ s, Reachable true true s ∧ s.w = .finished := ⟨_, ⟨life, rfl⟩, rfl⟩

/-! ## C96 -/

/-- C96: the first `close()` answers what the die message says, and all later ones answer false. -/
theorem C96_close_answers (d : Bool) (s : St) (h : Reachable true d s) :
    answered s.log = [] ∨ ∃ live r n, answered s.log = r :: List.replicate n false ∧ Ended live r (callbacks s.log) ∧ (r = true → live = true) := by
  obtain ⟨acts, h⟩ := h
  have hi := inv_reached h
  rcases hi.seen.rets with ha | ⟨r, n, hf, ha⟩
  · exact .inl ha
  · obtain ⟨a, r', hf', he, hr⟩ := ended_of hi (hi.ctl.fin.1 (by simp [hf]))
    rw [hf] at hf'; injection hf' with hf'; subst hf'
    exact .inr ⟨a, r, n, ha, he, hr⟩

/-- C96: all is reported well exactly if the path was good, nobody had closed before the start, and the stream was
opened. -/
theorem C96_what_success_means (d : Bool) (acts : List Act) (s : St) (h : run true d {} acts = some s) (hw : s.w = .finished) :
    ∃ live r, Ended live r (callbacks s.log) ∧ (r = true ↔ opens acts = [true]) ∧ (live = true ↔ opens acts ≠ []) ∧ (live = true → d = true) := by
  obtain ⟨r, _, ⟨rfl, hc, ho⟩ | ⟨hc, ho, hd⟩⟩ := whole (inv_reached h) hw
  · exact ⟨false, false, ⟨[], by simpa using hc⟩, by simp [ho], by simp [ho], by simp⟩
  · exact ⟨true, r, ⟨_, hc⟩, by simp [ho], by simp [ho], fun _ => hd⟩

example : (run true true {} (life ++ [.oClose, .o, .o])).map (fun s => answered s.log) = some [true, false] := by decide +kernel
example : (run true true {} ([.w, .w, .w, .cbReturn, .opened false, .w] ++ closing ++ [.w, .w, .w, .w, .cbReturn, .w] ++ [.o])).map (fun s => answered s.log) =
    some [false] := by decide +kernel

/-! ## C97 -/

/-- When the worker is done, nobody but the owner can do anything. -/
private theorem done_step {d : Bool} {s : St} {a : Act} (hc : Ctl s) (hw : s.w = .finished) (ha : isOwner a = false) : step true d s a = none := by
  have hs : s.stream = false := by
    cases hs : s.stream with
    | false => rfl
    | true => have := hc.inw hs; rw [hw] at this; cases this
  obtain ⟨hk, hp, he⟩ := hc.quiet hs
  cases a <;> simp [isOwner] at ha <;> simp [step, wStep, kStep, hw, hk, hp, he, hs]

private theorem owner_keeps {d : Bool} {s s' : St} {a : Act} (ha : isOwner a = true) (hs : step true d s a = some s') :
    s'.w = s.w ∧ callbacks s'.log = callbacks s.log := by
  cases a with
  | o =>
    simp only [step, oStep] at hs
    split at hs <;> (try unfold closeStep at hs) <;> (repeat' split at hs) <;> simp at hs <;> (try subst hs) <;> grind
  | oClose => simp only [step] at hs; split at hs; injection hs with hs; subst hs; exact ⟨rfl, cbs_cc _⟩; cases hs
  | oDtor => simp only [step] at hs; split at hs; injection hs with hs; subst hs; exact ⟨rfl, cbs_dc _⟩; cases hs
  | _ => simp [isOwner] at ha

private theorem done_run {d : Bool} {s s' : St} {acts : List Act} (hc : Ctl s) (hw : s.w = .finished) (hr : run true d s acts = some s') :
    Ctl s' ∧ s'.w = .finished ∧ callbacks s'.log = callbacks s.log := by
  refine run_keeps (P := fun x => Ctl x ∧ x.w = .finished ∧ callbacks x.log = callbacks s.log) ?_ acts s s' ⟨hc, hw, rfl⟩ hr
  rintro x a x' ⟨h1, h2, h3⟩ hx
  cases ha : isOwner a with
  | false => rw [done_step h1 h2 ha] at hx; cases hx
  | true =>
    obtain ⟨k1, k2⟩ := owner_keeps ha hx
    exact ⟨ctl_step h1 hx, k1.trans h2, k2.trans h3⟩

private theorem mem_answered {b : Bool} {l : List Obs} (h : Obs.closeRet b ∈ l) : b ∈ answered l := by
  induction l with
  | nil => cases h
  | cons y l ih =>
    rcases List.mem_cons.1 h with h | h
    · rw [← h]; simp [answered]
    · have h' := ih h
      cases y <;> simp [answered, h']

private theorem over {d : Bool} {acts : List Act} {s : St} (hi : Inv d acts s) (h : (∃ b, Obs.closeRet b ∈ s.log) ∨ Obs.dtorRet ∈ s.log) : s.w = .finished := by
  rcases h with ⟨b, hb⟩ | h
  · rcases hi.seen.rets with ha | ⟨r, n, hf, _⟩
    · have := mem_answered hb; rw [ha] at this; cases this
    · exact hi.ctl.fin.1 (by simp [hf])
  · exact hi.ctl.gone (hi.seen.dret.1 h)

/-- C97: after a `close()` or the destructor has returned, no schedule delivers another event, and nobody but the owner
does anything: neither the worker nor a thread of the system touches the object, the callback or the context. -/
theorem C97_silence (d : Bool) (s s' : St) (acts : List Act) (h : Reachable true d s)
    (hc : (∃ b, Obs.closeRet b ∈ s.log) ∨ Obs.dtorRet ∈ s.log) (hr : run true d s acts = some s') :
    callbacks s'.log = callbacks s.log ∧ ∀ a, isOwner a = false → step true d s' a = none := by
  obtain ⟨pre, h⟩ := h
  have hi := inv_reached h
  obtain ⟨h1, h2, h3⟩ := done_run hi.ctl (over hi hc) hr
  exact ⟨h3, fun a ha => done_step h1 h2 ha⟩

/-- C97: `close()` and the destructor return only after the whole story was told. -/
theorem C97_waits (d : Bool) (s : St) (h : Reachable true d s) (hc : (∃ b, Obs.closeRet b ∈ s.log) ∨ Obs.dtorRet ∈ s.log) :
    ∃ a b, Ended a b (callbacks s.log) := by
  obtain ⟨pre, h⟩ := h
  have hi := inv_reached h
  obtain ⟨a, r, _, he, _⟩ := ended_of hi (over hi hc)
  exact ⟨a, r, he⟩

example : logOf (up ++ [.oDtor, .o, .o, .o] ++ ending ++ [.o, .o]) = some [.cb (.live true), .cbRet, .dtorCall, .cb (.die true), .cbRet, .dtorRet] := by decide +kernel

/-! ## C98 -/

/-- C98: the worker makes at most thirteen steps in its life if callbacks do not call `close()`. -/
theorem C98_worker_steps (d : Bool) (acts : List Act) (s : St) (h : run true d {} acts = some s) (hc : ∀ a ∈ acts, closesItself a = false) :
    (acts.filter isWorker).length ≤ 13 := by
  have main : ∀ (acts : List Act) (s s' : St), (∀ a ∈ acts, closesItself a = false) → run true d s acts = some s' →
      wLeft s'.w + (acts.filter isWorker).length ≤ wLeft s.w := by
    intro acts
    induction acts with
    | nil => intro s s' _ hr; injection hr with hr; subst hr; simp
    | cons a as ih =>
      intro s s' hc hr
      simp only [run] at hr
      split at hr
      · cases hr
      · rename_i x hx
        have h1 := wLeft_step hx (by rintro rfl; exact absurd (hc _ (List.mem_cons_self ..)) (by simp [closesItself]))
        have h2 := ih x s' (fun a ha => hc a (List.mem_cons_of_mem _ ha)) hr
        simp only [List.filter_cons]
        cases ha : isWorker a <;> simp [ha] at h1 ⊢ <;> omega
  have := main acts {} s hc h
  simp [wLeft] at this
  omega

/-- C98, the full claim: once the stop flag is set, the number of events still delivered is bounded. -/
def C98_full : Prop := ∀ (d : Bool) (s : St), Reachable true d s → Released s → ∃ bound, ∀ (acts : List Act) (s' : St),
  (∀ a ∈ acts, closesItself a = false) → run true d s acts = some s' → (callbacks s'.log).length ≤ bound + (callbacks s.log).length

private def stuckAt (log : List Obs) (taken : List (List Note)) : St :=
  { is := .released, signals := 1, w := .close true, o := .closing .valid, stream := true, log := log, taken := taken }
private def again : List Act := batch [changed b!"/d/a"] ++ one ++ [.k]

private theorem starves : ∀ (n : Nat) log taken, ∃ log' taken', run true true (stuckAt log taken) (List.replicate n again).flatten = some (stuckAt log' taken') ∧
    (callbacks log').length = n + (callbacks log).length := by
  intro n
  induction n with
  | zero => intro log taken; exact ⟨log, taken, rfl, by simp⟩
  | succ n ih =>
    intro log taken
    have h1 : run true true (stuckAt log taken) again =
        some (stuckAt (log ++ [.cb (.ev ⟨b!"/d/a", .modify, .file, none⟩)] ++ [.cbRet]) (taken ++ [[changed b!"/d/a"]])) := by rfl
    obtain ⟨log', taken', h2, h3⟩ := ih (log ++ [.cb (.ev ⟨b!"/d/a", .modify, .file, none⟩)] ++ [.cbRet]) (taken ++ [[changed b!"/d/a"]])
    refine ⟨log', taken', ?_, ?_⟩
    · rw [List.replicate_succ, List.flatten_cons, run_append, h1]; exact h2
    · rw [h3, cbs_ret, cbs_cb, List.length_append]; simp; omega

/-- The full claim does not hold of the code: the worker waits for the mutex, which threads of the system may take again
and again as long as files change. -/
theorem C98_full_refuted : ¬ C98_full := by
  intro h
  obtain ⟨bound, hb⟩ := h true (stuckAt [.cb (.live true), .cbRet, .closeCall] []) ⟨[.w, .w, .w, .cbReturn, .opened true, .oClose, .o, .o, .w], rfl⟩ rfl
  obtain ⟨log', taken', h1, h2⟩ := starves (bound + 1) [.cb (.live true), .cbRet, .closeCall] []
  have := hb _ _ ?_ h1
  · have h3 : (callbacks (stuckAt log' taken').log).length = (callbacks log').length := rfl
    rw [h3, h2] at this
    simp only [stuckAt] at this
    omega
  · intro a ha
    simp only [List.mem_flatten, List.mem_replicate] at ha
    obtain ⟨l, ⟨_, rfl⟩, hl⟩ := ha
    revert a
    decide

/-- C98 (partial: no new notifications). Then threads of the system and the worker make at most `stillToDo` more steps.
Missing: what happens while files go on changing, for which the claim is false. -/
theorem C98_close_terminates_partial (d : Bool) (s s' : St) (acts : List Act) (hns : NobodyInside s)
    (hc : ∀ a ∈ acts, closesItself a = false ∧ ∀ b, a ≠ .notify b) (hr : run true d s acts = some s') :
    (acts.filter (fun a => !isOwner a)).length ≤ stillToDo s := by
  have main : ∀ (acts : List Act) (s s' : St), (∀ a ∈ acts, closesItself a = false ∧ ∀ b, a ≠ .notify b) → run true d s acts = some s' →
      potential s' + (acts.filter (fun a => !isOwner a)).length ≤ potential s := by
    intro acts
    induction acts with
    | nil => intro s s' _ hr; injection hr with hr; subst hr; simp
    | cons a as ih =>
      intro s s' hc hr
      simp only [run] at hr
      split at hr
      · cases hr
      · rename_i x hx
        have h1 := potential_step hx (hc a (List.mem_cons_self ..)).2 (hc a (List.mem_cons_self ..)).1
        have h2 := ih x s' (fun a ha => hc a (List.mem_cons_of_mem _ ha)) hr
        simp only [List.filter_cons]
        cases ha : isOwner a <;> simp [ha] at h1 ⊢ <;> omega
  have h1 := main acts s s' hc hr
  have h2 : potential s ≤ stillToDo s := by
    obtain ⟨n1, n2, n3⟩ := hns
    have hw : wLeft s.w ≤ 13 := by
      cases hw : s.w with
      | liveClose c p => exact absurd hw (n1 c p)
      | dieClose c p q => exact absurd hw (n2 c p q)
      | _ => simp [wLeft]
    cases hk : s.k with
    | selfClose c es ns => exact absurd hk (n3 c es ns)
    | _ => simp only [potential, sysLeft, stillToDo, hk, kLeft, load]; omega
  omega

/-- C98 (partial: no callback is inside a `close()`): no stop signal is lost and nobody is stuck: from every state in
which the stop flag is set there is a way to the end without new notifications and new calls of the owner, and there every
waiting `close()` or destructor goes on. -/
theorem C98_close_returns_partial (d : Bool) (s : St) (h : Reachable true d s) (hrel : Released s) (hns : NobodyInside s) :
    ∃ acts s', (∀ a ∈ acts, closesItself a = false ∧ (∀ b, a ≠ .notify b) ∧ a ≠ .oClose ∧ a ≠ .oDtor) ∧ run true d s acts = some s' ∧ s'.w = .finished ∧
      (s'.o ≠ .idle → s'.o ≠ .gone → (oStep s').isSome = true) := by
  obtain ⟨pre, h⟩ := h
  have hi := inv_reached h
  obtain ⟨acts, s', h1, h2, h3⟩ := reach_end (d := d) _ s (Nat.le_refl _) hi.ctl hrel hns
  refine ⟨acts, s', h3, h1, h2, fun k1 k2 => ?_⟩
  have hf := (inv_run hi h1).ctl.fin.2 h2
  cases ho : s'.o with
  | idle => exact absurd ho k1
  | gone => exact absurd ho k2
  | dtorFuture =>
    cases hff : s'.fut with
    | none => rw [hff] at hf; cases hf
    | some b => cases hv : s'.valid <;> simp [oStep, ho, hff, hv]
  | closing c =>
    cases c with
    | cas => by_cases hp : s'.is = .pending <;> simp [oStep, ho, closeStep, hp]
    | signal => simp [oStep, ho, closeStep]
    | valid => cases hv : s'.valid <;> simp [oStep, ho, closeStep, hv]
    | get =>
      cases hff : s'.fut with
      | none => rw [hff] at hf; cases hf
      | some b => simp [oStep, ho, closeStep, hff]
  | dtorClosing c =>
    cases c with
    | cas => by_cases hp : s'.is = .pending <;> simp [oStep, ho, closeStep, hp]
    | signal => simp [oStep, ho, closeStep]
    | valid => cases hv : s'.valid <;> simp [oStep, ho, closeStep, hv]
    | get =>
      cases hff : s'.fut with
      | none => rw [hff] at hf; cases hf
      | some b => simp [oStep, ho, closeStep, hff]

/-- C98: the flag is set by the first step of `close()` and of the destructor, and it stays set. -/
theorem C98_flag (d : Bool) (s s' : St) (acts : List Act) (h : Reachable true d s)
    (hc : Released s ∨ (∃ c, c ≠ .cas ∧ (s.o = .closing c ∨ s.o = .dtorClosing c)) ∨ s.o = .dtorFuture ∨ s.o = .gone)
    (hr : run true d s acts = some s') : Released s' := by
  obtain ⟨pre, h⟩ := h
  have hi := inv_reached h
  have h0 : s.is = .released := by
    rcases hc with h | ⟨c, hc, h | h⟩ | h | h
    · exact h
    · exact hi.ctl.orel (by rw [h]; cases c <;> first | rfl | exact absurd rfl hc)
    · exact hi.ctl.orel (by rw [h]; cases c <;> first | rfl | exact absurd rfl hc)
    · exact hi.ctl.orel (by rw [h]; rfl)
    · exact hi.ctl.orel (by rw [h]; rfl)
  exact run_keeps (P := fun x => x.is = .released) (fun x a x' hx hs => is_released hs hx) acts s s' h0 hr

private theorem nobody {s : St} (h1 : (match s.w with | .liveClose _ _ | .dieClose _ _ _ => false | _ => true) = true)
    (h2 : (match s.k with | .selfClose _ _ _ => false | _ => true) = true) : NobodyInside s :=
  ⟨fun c p e => (by rw [e] at h1; cases h1), fun c p q e => (by rw [e] at h1; cases h1), fun c es ns e => (by rw [e] at h2; cases h2)⟩

example : ∃ s, run true true {} (up ++ batch [made b!"/d/a"] ++ [.k] ++ closing) = some s ∧ Released s ∧ NobodyInside s ∧ stillToDo s = 16 :=
  ⟨_, rfl, rfl, nobody rfl rfl, rfl⟩
example : ∀ a ∈ life, closesItself a = false := by decide

/-! ## C99 -/

private theorem inside_k {d : Bool} {s s' : St} {a : Act} {c : ClosePc} {es : List Ev} {ns : List Note} (hc : Ctl s) (hk : s.k = .selfClose c es ns)
    (hs : step true d s a = some s') : (∃ c', s'.k = .selfClose c' es ns) ∧ callbacks s'.log = callbacks s.log := by
  have hst : s.stream = true := by
    cases hst : s.stream with
    | false => have := (hc.quiet hst).1; rw [hk] at this; cases this
    | true => rfl
  have hin := hc.inw hst
  have hfl := hc.fl
  have hfin := hc.fin
  have hval := hc.valid
  have hfut : s.fut = none := by
    cases hf : s.fut with
    | none => rfl
    | some b => have := hfin.1 (by simp [hf]); rw [this] at hin; cases hin
  have hv : s.valid = true := by
    cases hv : s.valid with
    | false => have := hval hv; rw [this] at hin; cases hin
    | true => rfl
  cases a with
  | w =>
    simp only [step, wStep] at hs
    split at hs <;> (try unfold closeStep at hs) <;> (repeat' split at hs) <;> simp at hs <;> (try subst hs) <;> grind [inWatch]
  | k =>
    simp only [step, kStep, hk] at hs
    unfold closeStep at hs
    (repeat' split at hs) <;> simp at hs <;> (try subst hs) <;> grind
  | o =>
    simp only [step, oStep] at hs
    split at hs <;> (try unfold closeStep at hs) <;> (repeat' split at hs) <;> simp at hs <;> (try subst hs) <;> grind
  | _ =>
    simp only [step, hk] at hs
    (repeat' split at hs) <;> simp at hs <;> (try subst hs) <;> grind [inWatch, St.locked]

/-- The worker is inside a `close()` that its callback has called. -/
private def wInside (w : WPc) (w' : WPc) : Prop :=
  (∃ c c' p, w = .liveClose c p ∧ w' = .liveClose c' p) ∨ (∃ c c' p q, w = .dieClose c p q ∧ w' = .dieClose c' p q)

private theorem inside_w {d : Bool} {s s' : St} {a : Act} (hc : Ctl s) (hw : wInside s.w s.w) (hs : step true d s a = some s') :
    wInside s.w s'.w ∧ callbacks s'.log = callbacks s.log := by
  have hst : s.stream = false := by
    cases hst : s.stream with
    | false => rfl
    | true =>
      have := hc.inw hst
      rcases hw with ⟨c, c', p, h, _⟩ | ⟨c, c', p, q, h, _⟩ <;> (rw [h] at this; cases this)
  obtain ⟨q1, q2, q3⟩ := hc.quiet hst
  have hnf : s.w ≠ .finished := by
    rcases hw with ⟨c, c', p, h, _⟩ | ⟨c, c', p, q, h, _⟩ <;> (rw [h]; simp)
  have hfut : s.fut = none := by
    cases hf : s.fut with
    | none => rfl
    | some b => exact absurd (hc.fin.1 (by simp [hf])) hnf
  have hv : s.valid = true := by
    cases hv : s.valid with
    | false => exact absurd (hc.valid hv) hnf
    | true => rfl
  cases ha : isOwner a with
  | true =>
    obtain ⟨k1, k2⟩ := owner_keeps ha hs
    rw [k1]; exact ⟨hw, k2⟩
  | false =>
    rcases hw with ⟨c, c', p, h, _⟩ | ⟨c, c', p, q, h, _⟩
    · cases a with
      | w =>
        simp only [step, wStep, h] at hs
        cases c <;> simp [closeStep, hfut, hv] at hs
        · by_cases hp : s.is = .pending <;> simp [hp] at hs <;> subst hs <;> exact ⟨.inl ⟨_, _, p, h, rfl⟩, rfl⟩
        · subst hs; exact ⟨.inl ⟨_, _, p, h, rfl⟩, rfl⟩
        · subst hs; exact ⟨.inl ⟨_, _, p, h, rfl⟩, rfl⟩
      | o => cases ha
      | oClose => cases ha
      | oDtor => cases ha
      | _ => simp [step, kStep, h, q1, q2, q3, hst] at hs
    · cases a with
      | w =>
        simp only [step, wStep, h] at hs
        cases c <;> simp [closeStep, hfut, hv] at hs
        · by_cases hp : s.is = .pending <;> simp [hp] at hs <;> subst hs <;> exact ⟨.inr ⟨_, _, p, q, h, rfl⟩, rfl⟩
        · subst hs; exact ⟨.inr ⟨_, _, p, q, h, rfl⟩, rfl⟩
        · subst hs; exact ⟨.inr ⟨_, _, p, q, h, rfl⟩, rfl⟩
      | o => cases ha
      | oClose => cases ha
      | oDtor => cases ha
      | _ => simp [step, kStep, h, q1, q2, q3, hst] at hs

private theorem nothing_returned {d : Bool} {acts : List Act} {s : St} (hi : Inv d acts s) (hw : s.w ≠ .finished) :
    answered s.log = [] ∧ Obs.dtorRet ∉ s.log := by
  refine ⟨?_, fun h => hw (hi.ctl.gone (hi.seen.dret.1 h))⟩
  rcases hi.seen.rets with h | ⟨r, n, hf, _⟩
  · exact h
  · exact absurd (hi.ctl.fin.1 (by simp [hf])) hw

/-- C99: a callback that gets an event of a file (on a thread of the system) and calls `close()` never returns: in every
continuation it is still inside that call, no further event is delivered, and no `close()` of the owner and no destructor
returns. The worker waits for the mutex that this thread has, and this thread for the worker. -/
theorem C99_close_in_event_callback_hangs (d : Bool) (s s' : St) (acts : List Act) (c : ClosePc) (es : List Ev) (ns : List Note) (h : Reachable true d s)
    (hk : s.k = .selfClose c es ns) (hr : run true d s acts = some s') :
    (∃ c', s'.k = .selfClose c' es ns) ∧ callbacks s'.log = callbacks s.log ∧ answered s'.log = [] ∧ Obs.dtorRet ∉ s'.log := by
  obtain ⟨pre, h⟩ := h
  have hi := inv_reached h
  obtain ⟨h1, h2, h3⟩ := run_keeps (P := fun x => Ctl x ∧ (∃ c', x.k = .selfClose c' es ns) ∧ callbacks x.log = callbacks s.log) (by
    rintro x a x' ⟨k1, ⟨c', k2⟩, k3⟩ hx
    obtain ⟨j1, j2⟩ := inside_k k1 k2 hx
    exact ⟨ctl_step k1 hx, j1, j2.trans k3⟩) acts s s' ⟨hi.ctl, ⟨c, hk⟩, rfl⟩ hr
  have hi' := inv_run hi hr
  have hw : s'.w ≠ .finished := by
    intro hw
    obtain ⟨c', hk'⟩ := h2
    cases hst : s'.stream with
    | false => have := (h1.quiet hst).1; rw [hk'] at this; cases this
    | true => have := h1.inw hst; rw [hw] at this; cases this
  exact ⟨h2, h3, nothing_returned hi' hw⟩

/-- C99: the same for a callback that gets the live or the die message (on the worker's thread). -/
theorem C99_close_in_message_callback_hangs (d : Bool) (s s' : St) (acts : List Act) (h : Reachable true d s)
    (hw : (∃ c p, s.w = .liveClose c p) ∨ ∃ c p q, s.w = .dieClose c p q) (hr : run true d s acts = some s') :
    ((∃ c p, s'.w = .liveClose c p) ∨ ∃ c p q, s'.w = .dieClose c p q) ∧ callbacks s'.log = callbacks s.log ∧ answered s'.log = [] ∧ Obs.dtorRet ∉ s'.log := by
  obtain ⟨pre, h⟩ := h
  have hi := inv_reached h
  obtain ⟨h1, h2, h3⟩ := run_keeps (P := fun x => Ctl x ∧ wInside x.w x.w ∧ callbacks x.log = callbacks s.log) (by
    rintro x a x' ⟨k1, k2, k3⟩ hx
    obtain ⟨j1, j2⟩ := inside_w k1 k2 hx
    refine ⟨ctl_step k1 hx, ?_, j2.trans k3⟩
    rcases j1 with ⟨c, c', p, _, h⟩ | ⟨c, c', p, q, _, h⟩
    · exact .inl ⟨c', c', p, h, h⟩
    · exact .inr ⟨c', c', p, q, h, h⟩) acts s s' ⟨hi.ctl, by
      rcases hw with ⟨c, p, h⟩ | ⟨c, p, q, h⟩
      · exact .inl ⟨c, c, p, h, h⟩
      · exact .inr ⟨c, c, p, q, h, h⟩, rfl⟩ hr
  have hi' := inv_run hi hr
  have hnf : s'.w ≠ .finished := by
    rcases h2 with ⟨c, c', p, h, _⟩ | ⟨c, c', p, q, h, _⟩ <;> (rw [h]; simp)
  refine ⟨?_, h3, nothing_returned hi' hnf⟩
  rcases h2 with ⟨c, c', p, h, _⟩ | ⟨c, c', p, q, h, _⟩
  · exact .inl ⟨c, p, h⟩
  · exact .inr ⟨c, p, q, h⟩

example : ∃ s, run true true {} (up ++ batch [made b!"/d/a"] ++ [.k, .k, .kClose, .k, .k, .k, .w]) = some s ∧ s.k = .selfClose .get [] [] ∧ s.w = .close true ∧
    step true true s .w = none ∧ step true true s .k = none := ⟨_, rfl, rfl, rfl, rfl, rfl⟩
example : ∃ s, run true true {} [.w, .w, .w, .cbClose] = some s ∧ ∃ c p, s.w = .liveClose c p := ⟨_, rfl, _, _, rfl⟩

/-! ## C100 -/

/-- C100: on a path that is not an existing directory the callback gets exactly the two messages `e/self/live@` and
`e/self/die@`, no stream is opened, and no `close()` returns true. -/
theorem C100_bad_path (acts : List Act) (s : St) (h : run true false {} acts = some s) :
    (callbacks s.log <+: [.live false, .die false]) ∧ (s.w = .finished → callbacks s.log = [.live false, .die false]) ∧
    opens acts = [] ∧ true ∉ answered s.log := by
  have hi := inv_reached h
  obtain ⟨done, handled, ht⟩ := hi.tell
  have hst := ht.story
  have key : (callbacks s.log <+: [.live false, .die false]) ∧ (s.w = .finished → callbacks s.log = [.live false, .die false]) ∧ opens acts = [] := by
    cases hw : s.w with
    | start => rw [hw] at hst; rw [hst.1, hst.2]; simp
    | check => rw [hw] at hst; simp [Story] at hst
    | live pre => rw [hw] at hst; rw [hst.1, hst.2.1]; simp
    | inLive pre => rw [hw] at hst; cases pre <;> simp [Story] at hst; rw [hst.1, hst.2]; simp
    | liveClose c pre => rw [hw] at hst; cases pre <;> simp [Story] at hst; rw [hst.1, hst.2]; simp
    | die p q => rw [hw] at hst; simp [Story] at hst; rw [hst.2.2.1, hst.2.2.2]; simp
    | inDie p q => rw [hw] at hst; simp [Story] at hst; rw [hst.2.2.1, hst.2.2.2]; simp
    | dieClose c p q => rw [hw] at hst; simp [Story] at hst; rw [hst.2.2.1, hst.2.2.2]; simp
    | setFut r => rw [hw] at hst; simp [Story] at hst; rw [hst.2.1, hst.2.2]; simp
    | finished => rw [hw] at hst; simp [Story] at hst; rw [hst.2.1, hst.2.2]; simp
    | _ => rw [hw] at hst; simp [Story] at hst
  refine ⟨key.1, key.2.1, key.2.2, ?_⟩
  rcases hi.seen.rets with ha | ⟨r, n, hf, ha⟩
  · rw [ha]; simp
  · obtain ⟨r', hf', ⟨rfl, _⟩ | ⟨_, _, hd⟩⟩ := whole hi (hi.ctl.fin.1 (by simp [hf]))
    · rw [hf] at hf'; injection hf' with hf'; subst hf'; rw [ha]; simp
    · cases hd

/-- C100, the full claim: a `close()` called before the live message was sent returns false. -/
def C100_full : Prop := ∀ (d : Bool) (s : St), Reachable true d s → ∀ l1 l2 l3,
  s.log = l1 ++ .closeCall :: l2 ++ .closeRet true :: l3 → callbacks l1 ≠ []

/-- The full claim does not hold of the code: `close()` may fall between the worker's check of the flag and the live
message. -/
theorem C100_full_refuted : ¬ C100_full := by
  intro h
  exact h true _ ⟨[.w, .w] ++ closing ++ [.w, .cbReturn, .opened true] ++ ending ++ [.o], rfl⟩
    [] [.cb (.live true), .cbRet, .cb (.die true), .cbRet] [] rfl rfl

/-- The watcher will never say it is alive. -/
private def Doomed (s : St) : Prop := Msg.live true ∉ callbacks s.log ∧ match s.w with
  | .start => s.is = .released
  | .check => s.is = .released
  | .live p => p = false
  | .inLive p => p = false
  | .liveClose _ p => p = false
  | .die p q => p = false ∧ q = false
  | .inDie p q => p = false ∧ q = false
  | .dieClose _ p q => p = false ∧ q = false
  | .setFut r => r = false
  | .finished => s.fut = some false
  | _ => False

private theorem doomed_step {d : Bool} {s s' : St} {a : Act} (hc : Ctl s) (h : Doomed s) (hs : step true d s a = some s') : Doomed s' := by
  have hst : s.stream = false := by
    cases hst : s.stream with
    | false => rfl
    | true => have := hc.inw hst; have := h.2; cases hw : s.w <;> simp_all [inWatch]
  obtain ⟨q1, q2, q3⟩ := hc.quiet hst
  unfold Doomed at h ⊢
  obtain ⟨h1, h2⟩ := h
  cases ha : isOwner a with
  | true =>
    obtain ⟨k1, k2⟩ := owner_keeps ha hs
    have hf : s'.fut = s.fut := by
      cases a with
      | o =>
        simp only [step, oStep] at hs
        split at hs <;> (try unfold closeStep at hs) <;> (repeat' split at hs) <;> simp at hs <;> (try subst hs) <;> grind
      | oClose => simp only [step] at hs; split at hs; injection hs with hs; subst hs; rfl; cases hs
      | oDtor => simp only [step] at hs; split at hs; injection hs with hs; subst hs; rfl; cases hs
      | _ => simp [isOwner] at ha
    have hr := is_released hs
    rw [k1, k2, hf]
    refine ⟨h1, ?_⟩
    cases hw : s.w <;> simp only [hw] at h2 ⊢ <;> first | exact hr h2 | exact h2
  | false =>
    cases a with
    | w =>
      simp only [step, wStep] at hs
      split at hs <;> (try unfold closeStep at hs) <;> (repeat' split at hs) <;> simp at hs <;> (try subst hs) <;> grind
    | o => cases ha
    | oClose => cases ha
    | oDtor => cases ha
    | opened ok =>
      simp only [step] at hs
      split at hs
      · rename_i hw; rw [hw] at h2; exact absurd h2 (by simp)
      · cases hs
    | cbReturn =>
      simp only [step] at hs
      (repeat' split at hs) <;> simp at hs <;> (try subst hs) <;> grind
    | cbClose =>
      simp only [step] at hs
      (repeat' split at hs) <;> simp at hs <;> (try subst hs) <;> grind
    | _ => simp [step, kStep, q1, q2, q3, hst] at hs

private theorem mem_callbacks {m : Msg} {l : List Obs} (h : Obs.cb m ∈ l) : m ∈ callbacks l := by
  induction l with
  | nil => cases h
  | cons y l ih =>
    rcases List.mem_cons.1 h with h | h
    · rw [← h]; simp [callbacks]
    · have h' := ih h
      cases y <;> simp [callbacks, h']

/-- C100 (partial: the flag is set before the worker's check). Then no `close()` ever returns true, and the live message
is `e/self/live@`. Missing: closes between the check and the live message, for which the claim is false. -/
theorem C100_early_close_fails_partial (d : Bool) (s s' : St) (acts : List Act) (h : Reachable true d s) (hrel : Released s)
    (hw : s.w = .start ∨ s.w = .check) (hr : run true d s acts = some s') :
    true ∉ answered s'.log ∧ Obs.cb (.live true) ∉ s'.log := by
  obtain ⟨pre, h⟩ := h
  have hi := inv_reached h
  obtain ⟨done, handled, ht⟩ := hi.tell
  have hst := ht.story
  have hd : Doomed s := by
    rcases hw with hw | hw
    · rw [hw] at hst; exact ⟨by rw [hst.1]; simp, by rw [hw]; exact hrel⟩
    · rw [hw] at hst; exact ⟨by rw [hst.1]; simp, by rw [hw]; exact hrel⟩
  have hd' := (run_keeps (P := fun x => Ctl x ∧ Doomed x) (fun x a x' hx hs => ⟨ctl_step hx.1 hs, doomed_step hx.1 hx.2 hs⟩) acts s s' ⟨hi.ctl, hd⟩ hr).2
  have hi' := inv_run hi hr
  refine ⟨?_, fun hl => hd'.1 (mem_callbacks hl)⟩
  rcases hi'.seen.rets with ha | ⟨r, n, hf, ha⟩
  · rw [ha]; simp
  · have hfin := hi'.ctl.fin.1 (by simp [hf])
    have := hd'.2
    rw [hfin] at this
    rw [hf] at this
    injection this with this; subst this
    rw [ha]; simp

example : ∃ s, run true true {} ([.w] ++ closing) = some s ∧ Released s ∧ s.w = .check := ⟨_, rfl, rfl, rfl⟩
example : (run true false {} [.w, .w, .cbReturn, .w, .cbReturn, .w]).map (fun s => callbacks s.log) = some [.live false, .die false] := by decide +kernel

/-! ## C101 -/

/-- C101: when the worker is done after an `s/self/live@`, the events are exactly those of the batches whose handling was
begun (C44 - C47 say what these are): none added, none left out, each batch as a whole; every batch the system sent was
handled or dropped, never both; and if the calls of `event_recv` come to the mutex in the order in which they were made,
the batches were handled in the order in which they were sent. -/
theorem C101_delivers_exactly (d : Bool) (acts : List Act) (s : St) (h : run true d {} acts = some s) (hw : s.w = .finished)
    (hl : Obs.cb (.live true) ∈ s.log) :
    ∃ r, callbacks s.log = .live true :: (recvAll {} s.taken.flatten).out.map .ev ++ [.die r] ∧ List.Perm (s.taken ++ s.dropped) (notified acts) ∧
      ((∀ i, Act.tryLock i ∈ acts → i = 0) → List.Sublist s.taken (notified acts)) := by
  have hi := inv_reached h
  have hst : s.stream = false := by
    cases hst : s.stream with
    | false => rfl
    | true => have := hi.ctl.inw hst; rw [hw] at this; cases this
  obtain ⟨_, hp, he⟩ := hi.ctl.quiet hst
  obtain ⟨r, _, ⟨_, hc, _⟩ | ⟨hc, _, _⟩⟩ := whole hi hw
  · exact absurd (mem_callbacks hl) (by rw [hc]; simp)
  · have h1 := hi.bat.all
    rw [hp, he, List.append_nil, List.append_nil] at h1
    refine ⟨r, hc, h1, fun h0 => ?_⟩
    have h2 := hi.bat.order h0
    rw [hp, he, List.append_nil, List.append_nil] at h2
    exact h2

/-- C101: create and destroy events about a path alternate in the whole life, whatever the schedule (C44 carried over). -/
theorem C101_alternates (d : Bool) (s : St) (h : Reachable true d s) (hw : s.w = .finished) :
    ∃ (a r : Bool) (es : List Ev), callbacks s.log = .live a :: es.map .ev ++ [.die r] ∧ ∀ p, AlternatesFrom true (lifeOf p es) := by
  obtain ⟨acts, h⟩ := h
  obtain ⟨r, _, ⟨rfl, hc, _⟩ | ⟨hc, _, _⟩⟩ := whole (inv_reached h) hw
  · exact ⟨false, false, [], by simpa using hc, fun _ => trivial⟩
  · exact ⟨true, r, _, hc, fun p => Props.C44_darwin_alternates _ p⟩

/-- The worker is closing only after the stop signal. -/
private structure Told (s : St) : Prop where
  sem : s.signals ≠ 0 → s.is = .released
  cl : ∀ ok, s.w = .close ok → s.is = .released
  fl : ∀ ok, s.w = .flush ok → s.is = .released
  wsig : ∀ p, s.w = .liveClose .signal p → s.is = .released
  dsig : ∀ p q, s.w = .dieClose .signal p q → s.is = .released
  ksig : ∀ es ns, s.k = .selfClose .signal es ns → s.is = .released
  osig : s.o = .closing .signal ∨ s.o = .dtorClosing .signal → s.is = .released

private theorem told_step {d : Bool} {s s' : St} {a : Act} (hc : Ctl s) (h : Told s) (hs : step true d s a = some s') : Told s' := by
  have hsig := hc.sig
  obtain ⟨h1, h2, h3, h4, h5, h6, h7⟩ := h
  cases a with
  | w =>
    simp only [step, wStep] at hs
    split at hs <;> (try unfold closeStep at hs) <;> (repeat' split at hs) <;> simp at hs <;> (try subst hs) <;> constructor <;> grind
  | k =>
    simp only [step, kStep] at hs
    split at hs <;> (try unfold closeStep at hs) <;> (repeat' split at hs) <;> simp at hs <;> (try subst hs) <;> constructor <;> grind
  | o =>
    simp only [step, oStep] at hs
    split at hs <;> (try unfold closeStep at hs) <;> (repeat' split at hs) <;> simp at hs <;> (try subst hs) <;> constructor <;> grind
  | _ =>
    simp only [step] at hs
    (repeat' split at hs) <;> simp at hs <;> (try subst hs) <;> constructor <;> grind

private theorem told_init : Told {} := by constructor <;> simp

/-- While the flag is not set and calls of `event_recv` do not overlap, no batch is dropped. -/
private theorem keeps_all {d : Bool} : ∀ (acts pre : List Act) (s s' : St), run true d {} pre = some s → Ctl s → Told s → s.dropped = [] →
    Serial d (pre ++ acts) → run true d s acts = some s' → s'.is = .pending → s'.dropped = [] := by
  intro acts
  induction acts with
  | nil => intro pre s s' _ _ _ hd _ hr _; injection hr with hr; subst hr; exact hd
  | cons a as ih =>
    intro pre s s' hp hc ht hd hser hr hpend
    simp only [run] at hr
    split at hr
    · cases hr
    · rename_i x hx
      have hxp : x.is = .pending := by
        rcases (ctl_step hc hx).sig with h | h
        · exact h
        · have := run_keeps (P := fun x => x.is = .released) (fun x a x' hx hs => is_released hs hx) as x s' h hr
          rw [this] at hpend; cases hpend
      have hsp : s.is = .pending := by
        rcases hc.sig with h | h
        · exact h
        · have := is_released hx h; rw [this] at hxp; cases hxp
      refine ih (pre ++ [a]) x s' (by rw [run_append, hp]; simp [run, hx]) (ctl_step hc hx) (told_step hc ht hx) ?_ (by simpa using hser) hr hpend
      cases a with
      | tryLock i =>
        have hk := hser pre i as s rfl hp
        have hl : s.left = true → False := by
          intro hl
          have hlw := hc.left hl
          simp only [step] at hx
          split at hx
          · cases hx
          · rename_i b hb
            have := (hc.quiet hlw.2.2).2.2
            rw [this] at hb; simp at hb
        have hfl := ht.fl
        simp only [step] at hx
        (repeat' split at hx) <;> simp at hx <;> (try subst hx) <;> grind [St.locked]
      | w =>
        simp only [step, wStep] at hx
        split at hx <;> (try unfold closeStep at hx) <;> (repeat' split at hx) <;> simp at hx <;> (try subst hx) <;> grind
      | k =>
        simp only [step, kStep] at hx
        split at hx <;> (try unfold closeStep at hx) <;> (repeat' split at hx) <;> simp at hx <;> (try subst hx) <;> grind
      | o =>
        simp only [step, oStep] at hx
        split at hx <;> (try unfold closeStep at hx) <;> (repeat' split at hx) <;> simp at hx <;> (try subst hx) <;> grind
      | _ =>
        simp only [step] at hx
        (repeat' split at hx) <;> simp at hx <;> (try subst hx) <;> exact hd

/-- With no batch waiting and none coming, none is dropped. -/
private theorem none_left {d : Bool} : ∀ (acts : List Act) (s s' : St), s.pending = [] → s.entered = [] → s.dropped = [] →
    (∀ a ∈ acts, ∀ b, a ≠ .notify b) → run true d s acts = some s' → s'.dropped = [] := by
  intro acts
  induction acts with
  | nil => intro s s' _ _ hd _ hr; injection hr with hr; subst hr; exact hd
  | cons a as ih =>
    intro s s' hp he hd hn hr
    simp only [run] at hr
    split at hr
    · cases hr
    · rename_i x hx
      have key : x.pending = [] ∧ x.entered = [] ∧ x.dropped = [] := by
        cases a with
        | notify b => exact absurd rfl (hn _ (List.mem_cons_self ..) b)
        | w =>
          simp only [step, wStep] at hx
          split at hx <;> (try unfold closeStep at hx) <;> (repeat' split at hx) <;> simp at hx <;> (try subst hx) <;> grind
        | k =>
          simp only [step, kStep] at hx
          split at hx <;> (try unfold closeStep at hx) <;> (repeat' split at hx) <;> simp at hx <;> (try subst hx) <;> grind
        | o =>
          simp only [step, oStep] at hx
          split at hx <;> (try unfold closeStep at hx) <;> (repeat' split at hx) <;> simp at hx <;> (try subst hx) <;> grind
        | _ =>
          simp only [step, hp, he] at hx
          (repeat' split at hx) <;> simp at hx <;> (try subst hx) <;> grind
      exact ih x s' key.1 key.2.1 key.2.2 (fun a ha => hn a (List.mem_cons_of_mem _ ha)) hr

/-- C101: if the system makes its calls one after the other and in order, and all it had to tell was handed over or being
handled before anybody calls `close()`, then the events are those of everything the system has notified. -/
theorem C101_nothing_dropped (d : Bool) (pre post : List Act) (s0 s : St) (h0 : run true d {} pre = some s0) (hpend : ¬ Released s0)
    (hq : s0.pending = [] ∧ s0.entered = []) (hser : Serial d pre) (h : run true d s0 post = some s) (hn : notified post = [])
    (hord : ∀ i, Act.tryLock i ∈ pre ++ post → i = 0) (hw : s.w = .finished) (hl : Obs.cb (.live true) ∈ s.log) :
    ∃ r, callbacks s.log = .live true :: (recvAll {} (notified pre).flatten).out.map .ev ++ [.die r] := by
  have hi := inv_reached h0
  have hp0 : s0.is = .pending := by
    rcases hi.ctl.sig with h | h
    · exact h
    · exact absurd h hpend
  have hd0 := keeps_all pre [] {} s0 rfl ctl_init told_init rfl (by simpa using hser) h0 hp0
  have hno : ∀ a ∈ post, ∀ b, a ≠ .notify b := by
    intro a ha b e
    subst e
    have : b ∈ notified post := by
      clear h hord hn
      induction post with
      | nil => cases ha
      | cons y l ih =>
        rcases List.mem_cons.1 ha with ha | ha
        · rw [← ha]; simp [notified]
        · have := ih ha; cases y <;> simp [notified, this]
    rw [hn] at this; cases this
  have hd := none_left post s0 s hq.1 hq.2 hd0 hno h
  have hrun : run true d {} (pre ++ post) = some s := by rw [run_append, h0]; exact h
  obtain ⟨r, h1, h2, h3⟩ := C101_delivers_exactly d (pre ++ post) s hrun hw hl
  have h4 := h3 hord
  rw [hd, List.append_nil] at h2
  have h5 := h4.eq_of_length h2.length_eq
  have h6 : notified (pre ++ post) = notified pre := by rw [notified_append, hn, List.append_nil]
  rw [h5, h6] at h1
  exact ⟨r, h1⟩

/-- `Serial` of a given schedule, by running it. -/
private def serialB (d : Bool) : St → List Act → Bool
  | _, [] => true
  | s, a :: as => (match a with | .tryLock _ => decide (s.k = .free) | _ => true) &&
    match step true d s a with
    | none => true
    | some s' => serialB d s' as

private theorem serial_of {d : Bool} : ∀ (acts : List Act) (s : St), serialB d s acts = true → ∀ pre i post s', acts = pre ++ .tryLock i :: post →
    run true d s pre = some s' → s'.k = .free := by
  intro acts
  induction acts with
  | nil => intro s _ pre i post s' e; cases pre <;> cases e
  | cons a as ih =>
    intro s hb pre i post s' e hr
    simp only [serialB, Bool.and_eq_true] at hb
    cases pre with
    | nil =>
      injection e with e1 e2
      subst e1; injection hr with hr; subst hr
      simpa using hb.1
    | cons x pre =>
      injection e with e1 e2
      subst e1
      simp only [run] at hr
      split at hr
      · cases hr
      · rename_i y hy
        have h2 := hb.2
        rw [hy] at h2
        exact ih y h2 pre i post s' e2 hr

example : Serial true (up ++ batch [made b!"/d/a", made b!"/d/b"] ++ one) := serial_of _ {} (by decide +kernel)
example : ∃ s0 s, run true true {} (up ++ batch [made b!"/d/a", made b!"/d/b"] ++ one) = some s0 ∧ ¬ Released s0 ∧ s0.pending = [] ∧ s0.entered = [] ∧
    run true true s0 (one ++ [.k] ++ closing ++ ending) = some s ∧ s.w = .finished ∧ s.dropped = [] :=
  ⟨_, _, rfl, by simp [Released], rfl, rfl, rfl, rfl, rfl⟩
/-- A batch that comes while the worker is closing is dropped, although the code flushes the stream to get it. -/
example : ∃ s, run true true {} (up ++ [.notify [made b!"/d/a"]] ++ closing ++ [.w, .w, .enter, .tryLock 0, .w, .w, .w, .cbReturn, .w]) = some s ∧ s.w = .finished ∧
    s.dropped = [[made b!"/d/a"]] ∧ callbacks s.log = [.live true, .die true] := ⟨_, rfl, rfl, rfl, rfl⟩

/-! ## C102 -/

/-- C102, the full claim: even if the system's stopping functions return before the last calls of `event_recv` have, the
watcher never uses memory it has given back, and stays silent once it was destroyed. -/
def C102_full : Prop := ∀ (waits d : Bool) (s : St), Reachable waits d s →
  s.ub = false ∧ ∀ acts s', Obs.dtorRet ∈ s.log → run waits d s acts = some s' → callbacks s'.log = callbacks s.log

private def overtaken : List Act := up ++ [.notify [made b!"/d/a"], .enter] ++ [.oDtor, .o, .o, .o] ++ ending ++ [.o, .o]
private def sneaks : List Act :=
  up ++ [.notify [made b!"/d/a"], .enter] ++ [.oDtor, .o, .o, .o] ++ [.w, .w, .w, .tryLock 0, .w, .w, .cbReturn, .w] ++ [.o, .o]

/-- The full claim does not hold of the code: a call of `event_recv` that was begun, and then overtaken by the end of
`watch`, uses the context and the mutex on a stack that is gone. -/
theorem C102_full_refuted : ¬ C102_full := by
  intro h
  have := (h false true _ ⟨overtaken ++ [.tryLock 0], rfl⟩).1
  revert this; decide

/-- In the same way, an event comes after the destructor has returned. -/
theorem C102_late_event : ∃ s s', run false true {} sneaks = some s ∧ Obs.dtorRet ∈ s.log ∧ run false true s [.k, .k] = some s' ∧
    callbacks s'.log = callbacks s.log ++ [.ev (evMade b!"/d/a")] := ⟨_, _, rfl, by decide +kernel, rfl, rfl⟩

/-- C102 (partial: the system behaves as documented). Then the context is never used after `watch` has returned, and the
watcher is silent once it was destroyed. Missing: a system that does not wait, for which the claim is false. -/
theorem C102_no_use_after_return_partial (d : Bool) (s : St) (h : Reachable true d s) :
    s.ub = false ∧ ∀ acts s', Obs.dtorRet ∈ s.log → run true d s acts = some s' → callbacks s'.log = callbacks s.log := by
  refine ⟨?_, fun acts s' hd hr => (C97_silence d s s' acts h (.inr hd) hr).1⟩
  obtain ⟨acts, h⟩ := h
  exact (inv_reached h).ctl.ub

example : ∃ s, run true true {} (up ++ [.notify [made b!"/d/a"], .enter] ++ [.oDtor, .o, .o, .o] ++ [.w, .w]) = some s ∧ step true true s .w = none := ⟨_, rfl, rfl⟩

end Verif.Props.DLife
