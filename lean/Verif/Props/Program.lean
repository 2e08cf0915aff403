import Verif.Lemmas.Program2
import Verif.Lemmas.Program3
import Verif.Props.Lifecycle
/-!
# The command line programs while they watch: C118 - C121
-/

namespace Verif.Props
open Verif Verif.Model Verif.Model.Life Verif.Model.Prog Verif.Spec Verif.Spec.Prog Verif.Spec.Hd Verif.Lemmas.Life Verif.Lemmas.Prog

/-! ## C118 -/

/-- C118: at any time, the program has printed one line per event, in order, and nothing else; the events are a story
that has not begun, has begun or is complete. -/
theorem C118_lines (fmt : Event → Str) (cfg : Cfg) (p : P) (h : Runs fmt cfg p) :
    ∃ es, Lines fmt es p.out ∧ (es = [] ∨ Begun cfg.path es ∨ ∃ a d, Ended cfg.path a d es) := by
  have hi := pinv h
  exact ⟨_, hi.lines, (C10_live_first_die_last cfg p.life hi.reach).1⟩

private theorem live_err (path : Str) (a : Bool) : IsErrorMsg (liveMsg path a) ↔ a = false := by
  cases a <;> simp [IsErrorMsg, liveMsg]

private theorem die_err (path : Str) (a : Bool) : IsErrorMsg (dieMsg path a) ↔ a = false := by
  cases a <;> simp [IsErrorMsg, dieMsg]

private theorem ended_last {path : Str} {a d : Bool} {l : List Ev} (h : Ended path a d l) : l.getLast? = some (dieMsg path d) := by
  obtain ⟨ms, rfl, _⟩ := h
  rw [List.getLast?_append]; rfl

private theorem exit_core (fmt : Event → Str) (cfg : Cfg) (p : P) (h : Runs fmt cfg p) (c : Nat) (hc : p.phase = .exited c) :
    (c = 0 ∨ c = 1) ∧ ∃ a d, Lines fmt (callbacks p.life.log) p.out ∧ Ended cfg.path a d (callbacks p.life.log) ∧ (c = 0 ↔ d = true) ∧
      (c = 0 ↔ ∀ e ∈ callbacks p.life.log, ¬ IsErrorMsg e) := by
  have hi := pinv h
  have hp := hi.phase
  simp only [PhaseInv, hc] at hp
  obtain ⟨hgone, b, hb, rfl⟩ := hp
  refine ⟨by cases b <;> simp, ?_⟩
  have hf := fut_reachable hi.reach
  have hfs := hf.f4 (.inr hgone)
  have hw : p.life.w = .finished := by
    cases hx : decide (p.life.w = .finished) with
    | true => simpa using hx
    | false =>
      have := hf.f1.2 (by simpa using hx)
      rw [this] at hfs; cases hfs
  have hret : Obs.closeRet b ∈ p.life.log := Lemmas.Handle.mem_rets.1 (by rw [hb]; simp)
  have hbt : b = true ↔ p.life.fut = some true := by
    constructor
    · rintro rfl; exact (hf.f7 hret).2
    · intro hfut
      cases hfd : cfg.fdOk with
      | false => exact absurd hfut (broken_reachable hfd hi.reach).2
      | true =>
        have ht := (sig_reachable hfd hi.reach).ret ⟨b, hret⟩
        have := Lemmas.Handle.mem_rets.2 (ht.2 hfut)
        rw [hb] at this
        simpa using this
  have h0 : (if b = true then 0 else 1) = 0 ↔ b = true := by cases b <;> simp
  rw [h0]
  rcases C20_error_announced_before_die cfg p.life hi.reach hw with ⟨h1, mids, h2, h3⟩ | ⟨h1, h2⟩ | ⟨h1, mids, r, h2, h3, h4⟩
  · obtain ⟨a, d, hE⟩ := (C10_live_first_die_last cfg p.life hi.reach).2 hw
    have hd : d = true := by
      have e := ended_last hE
      rw [h2] at e
      cases d with
      | true => rfl
      | false => rw [show (liveMsg cfg.path true :: mids ++ [dieMsg cfg.path true]).getLast? = some (dieMsg cfg.path true) from by
          rw [List.getLast?_append]; rfl] at e; simp [dieMsg] at e
    subst hd
    refine ⟨a, true, hi.lines, hE, by rw [hbt]; simp [h1], ?_⟩
    rw [hbt]
    simp only [h1, true_iff]
    intro e he
    rw [h2] at he
    simp only [List.cons_append, List.mem_cons, List.mem_append, List.mem_singleton] at he
    rcases he with rfl | he | he
    · rw [live_err]; simp
    · exact h3 e he
    · rcases he with rfl | he
      · rw [die_err]; simp
      · cases he
  · refine ⟨false, false, hi.lines, ⟨[], by rw [h2]; rfl, by simp⟩, by rw [hbt]; simp [h1], ?_⟩
    rw [hbt]
    simp only [h1, Option.some.injEq, Bool.false_eq_true, false_iff]
    intro hall
    exact hall _ (by rw [h2]; exact List.mem_cons_self) ((live_err _ _).2 rfl)
  · obtain ⟨a, d, hE⟩ := (C10_live_first_die_last cfg p.life hi.reach).2 hw
    have hd : d = false := by
      cases d with
      | false => rfl
      | true =>
        have e := ended_last hE
        rw [h2, List.getLast?_append] at e
        simp [dieMsg] at e
    subst hd
    refine ⟨a, false, hi.lines, hE, by rw [hbt]; simp [h1], ?_⟩
    rw [hbt]
    simp only [h1, Option.some.injEq, Bool.false_eq_true, false_iff]
    intro hall
    exact hall _ (by rw [h2]; simp) h3

/-- C118: when the program has ended, with whatever stop signal and however the threads were scheduled, its status is 0 or 1,
it has printed the whole story from the live to the die message, and the status is 0 exactly if no line reports
an error; in particular, exactly if the last line is the die message of success. -/
theorem C118_exit_status (fmt : Event → Str) (cfg : Cfg) (p : P) (h : Runs fmt cfg p) (c : Nat) (hc : p.phase = .exited c) :
    (c = 0 ∨ c = 1) ∧ ∃ a d es, Lines fmt es p.out ∧ Ended cfg.path a d es ∧ (c = 0 ↔ d = true) ∧ (c = 0 ↔ ∀ e ∈ es, ¬ IsErrorMsg e) := by
  obtain ⟨h1, a, d, h2⟩ := exit_core fmt cfg p h c hc
  exact ⟨h1, a, d, _, h2⟩

/-- C118: a program that has ended does nothing any more, and the watcher's thread has ended before it. -/
theorem C118_ended (fmt : Event → Str) (cfg : Cfg) (p : P) (h : Runs fmt cfg p) (c : Nat) (hc : p.phase = .exited c) :
    p.life.w = .finished ∧ ∀ a, pstep fmt cfg p a = none := by
  have hi := pinv h
  have hp := hi.phase
  simp only [PhaseInv, hc] at hp
  have hf := fut_reachable hi.reach
  have hfs := hf.f4 (.inr hp.1)
  refine ⟨?_, ?_⟩
  · cases hx : decide (p.life.w = .finished) with
    | true => simpa using hx
    | false =>
      have := hf.f1.2 (by simpa using hx)
      rw [this] at hfs; cases hfs
  · intro a; cases a <;> simp [pstep, hc]

/-- C118: the same status comes from the model of the arguments (`Model/Cli.lean`), with what `close()` answered here. -/
theorem C118_main (fmt : Event → Str) (cfg : Cfg) (p : P) (h : Runs fmt cfg p) (c : Nat) (hc : p.phase = .exited c)
    (env : Cli.Env) (argv : List Str) (r : Cli.Run) (w : Cli.Wait) (hr : Cli.main env argv = .ok r) (hw : r.watched = some (cfg.path, w))
    (hclose : env.closeOk = true ↔ Obs.closeRet true ∈ p.life.log) : r.exit = c := by
  have hi := pinv h
  have hp := hi.phase
  simp only [PhaseInv, hc] at hp
  obtain ⟨_, b, hb, rfl⟩ := hp
  rw [← Lemmas.Handle.mem_rets, hb] at hclose
  have he : env.closeOk = b := by
    cases b <;> cases hx : env.closeOk <;> simp [hx] at hclose ⊢
  simp only [Cli.main] at hr
  cases ht : Cli.tryParse env argv with
  | abort => rw [ht] at hr; cases hr
  | ub => rw [ht] at hr; cases hr
  | ok o =>
    rw [ht] at hr
    simp only [Cli.Res.bind] at hr
    split at hr
    · simp at hr; subst hr; cases hw
    · split at hr
      · simp at hr; subst hr; cases hw
      · split at hr
        · simp at hr; subst hr; cases hw
        · simp at hr; subst hr; simp [he]

private def cfgD : Cfg := { path := b!"/d", dirOk := true, fdOk := true }
private def cfgF : Cfg := { path := b!"/f", dirOk := false, fdOk := true }

private def up : List Life.Act := [.w, .w, .w, .cbReturn, .wOpen [] .pending, .w, .w,
  .wWake [.ke [⟨b!"/d/f", .create, .file, none⟩] .pending], .w, .w, .cbReturn, .w, .w]
private def down : List Life.Act := [.o, .o, .o, .o, .wWake [.il], .w, .w, .w, .w, .cbReturn, .w, .o]
private def dtor : List Life.Act := [.o, .o, .o, .o]
private def bad : List Life.Act := [.w, .w, .cbReturn, .w, .cbReturn, .w, .o, .o, .o, .o, .o]
private def hasty : List Life.Act := [.o, .o, .o, .o, .w, .w, .w, .w, .w, .cbReturn, .w, .cbReturn, .w, .o]

private def acts (now : Int) (l : List Life.Act) : List PAct := l.map fun a => .life a now now

private theorem ranP {o : Option P} {p : P → Prop} [DecidablePred p]
    (h : (match o with | some a => decide (p a) | _ => false) = true) : ∃ a, o = some a ∧ p a := by
  cases o with
  | none => cases h
  | some a => exact ⟨a, rfl, by simpa using h⟩

private theorem good_prog : ∃ p, prun jsonLine cfgD (start cfgD) (acts 5 up ++ [.go] ++ acts 7 down ++ acts 8 dtor) = some p ∧
    p.phase = .exited 0 ∧ p.out.length = 3 := ranP (by decide +kernel)
private theorem bad_prog : ∃ p, prun Cli.tinyShow cfgF (start cfgF) ([.go] ++ acts 7 bad ++ acts 8 dtor) = some p ∧
    p.phase = .exited 1 ∧ p.out = [b!"create watcher e/self/live@/f\n", b!"destroy watcher e/self/die@/f\n"] := ranP (by decide +kernel)
private theorem hasty_prog : ∃ p, prun Cli.tinyShow cfgD (start cfgD) ([.go] ++ acts 7 hasty ++ acts 8 dtor) = some p ∧
    p.phase = .exited 1 ∧ p.out = [b!"create watcher e/self/live@/d\n", b!"destroy watcher e/self/die@/d\n"] := ranP (by decide +kernel)

/-- Met: a program that prints three lines of JSON and exits with 0, and one that exits with 1. -/
example : ∃ p, Runs jsonLine cfgD p ∧ p.phase = .exited 0 ∧ p.out.length = 3 := by
  obtain ⟨p, h1, h2, h3⟩ := good_prog; exact ⟨p, ⟨_, h1⟩, h2, h3⟩
example : ∃ p, Runs Cli.tinyShow cfgF p ∧ p.phase = .exited 1 := by
  obtain ⟨p, h1, h2, _⟩ := bad_prog; exact ⟨p, ⟨_, h1⟩, h2⟩

/-! ## C119 -/

/-- C119 in full: a program that watches a directory, and with which nothing goes wrong, exits with 0. -/
def C119_full : Prop :=
  ∀ (fmt : Event → Str) (cfg : Cfg) (acts : List PAct) (p : P) (c : Nat), cfg.dirOk = true → cfg.fdOk = true → (∀ a ∈ acts, Healthy a) →
    prun fmt cfg (start cfg) acts = some p → p.phase = .exited c → c = 0

/-- C119 as stated is false of the code: if the input ends, or the time has passed, before the watcher's thread has looked at
the stop signal, the program reports that it could not begin, and exits with 1. -/
theorem C119_refuted : ¬ C119_full := by
  intro h
  obtain ⟨p, h1, h2, _⟩ := hasty_prog
  have := h Cli.tinyShow cfgD _ p 1 rfl rfl ?_ h1 h2
  · cases this
  · intro a ha
    simp [acts, hasty, dtor] at ha
    rcases ha with h | h | h | h | h | h | h | h | h | h | h | h | h | h | h | h | h | h | h | h <;> first | (subst h; trivial) | trivial

/-- C119 (partial): with which nothing goes wrong, a program exits with 0 exactly if its first line says that the watch began. -/
theorem C119_healthy_partial (fmt : Event → Str) (cfg : Cfg) (acts : List PAct) (p : P) (c : Nat) (hH : ∀ a ∈ acts, Healthy a)
    (hr : prun fmt cfg (start cfg) acts = some p) (hc : p.phase = .exited c) :
    ∃ es, Lines fmt es p.out ∧ (c = 0 ↔ es.head? = some (liveMsg cfg.path true)) := by
  have hi : HInvL p.life := hinv_prun acts _ _ (hinv_start cfg) hH hr
  have hR : Runs fmt cfg p := ⟨acts, hr⟩
  obtain ⟨_, a, d, h1, h2, h3, _⟩ := exit_core fmt cfg p hR c hc
  refine ⟨_, h1, ?_⟩
  have hw := (C118_ended fmt cfg p hR c hc).1
  rw [h3]
  rcases C20_error_announced_before_die cfg p.life (pinv hR).reach hw with ⟨_, mids, e, _⟩ | ⟨_, e⟩ | ⟨_, mids, r, e, e2, _⟩
  · have := ended_last h2
    rw [e, List.getLast?_append] at this
    rw [e]
    cases d with
    | true => simp
    | false => simp [dieMsg] at this
  · have := ended_last h2
    rw [e] at this ⊢
    cases d with
    | true => simp [dieMsg] at this
    | false => simp [liveMsg]
  · exact absurd e2 (hi.2.2 _ (by rw [e]; simp) rfl)

/-- C119 (partial): if the input ends, or the time has passed, after the first line was printed, and nothing goes wrong, a
program that watches a directory exits with 0. -/
theorem C119_after_first_line_partial (fmt : Event → Str) (cfg : Cfg) (hd : cfg.dirOk = true) (pre post : List PAct) (q p : P) (c : Nat)
    (hH : ∀ a ∈ pre ++ .go :: post, Healthy a) (hq : prun fmt cfg (start cfg) pre = some q) (hout : q.out ≠ [])
    (hr : prun fmt cfg q (.go :: post) = some p) (hc : p.phase = .exited c) : c = 0 := by
  have happ : prun fmt cfg (start cfg) (pre ++ .go :: post) = some p := prun_append _ _ _ hq hr
  have hR : Runs fmt cfg p := ⟨_, happ⟩
  have hQ := pinv (⟨_, hq⟩ : Runs fmt cfg q)
  have hwait : q.phase = .waiting := by
    simp only [prun, pstep] at hr
    split at hr
    · cases hr
    · rename_i hs
      split at hs
      · assumption
      · cases hs
  have hHp : ∀ a ∈ pre, Healthy a := fun a ha => hH a (List.mem_append_left _ ha)
  have hE := early_prun hd pre _ _ (pinv_start fmt cfg) (hinv_start cfg) (fun _ => early_init cfg) hHp hq hwait
  have hi : HInvL p.life := hinv_prun _ _ _ (hinv_start cfg) hH happ
  obtain ⟨_, a, d, h1, h2, h3, _⟩ := exit_core fmt cfg p hR c hc
  have hw := (C118_ended fmt cfg p hR c hc).1
  obtain ⟨x, hx⟩ := prun_log _ _ _ hr
  have hne : callbacks q.life.log ≠ [] := by
    intro h0
    have := hQ.lines
    rw [h0] at this
    cases hh : q.out with
    | nil => exact hout hh
    | cons o os => rw [hh] at this; cases this
  rw [h3]
  rcases C20_error_announced_before_die cfg p.life (pinv hR).reach hw with ⟨_, mids, e, _⟩ | ⟨_, e⟩ | ⟨_, mids, r, e, e2, _⟩
  · have := ended_last h2
    rw [e, List.getLast?_append] at this
    cases d with
    | true => rfl
    | false => simp [dieMsg] at this
  · exfalso
    rw [hx] at e
    cases hh : callbacks q.life.log with
    | nil => exact hne hh
    | cons y ys =>
      rw [hh] at e
      simp at e
      exact hE.2.2 (by rw [hh, e.1]; exact List.mem_cons_self)
  · exact absurd e2 (hi.2.2 _ (by rw [e]; simp) rfl)

/-- C119 (partial): a program given something that is no directory prints exactly the two messages of failure and exits with 1. -/
theorem C119_no_directory_partial (fmt : Event → Str) (cfg : Cfg) (hd : cfg.dirOk = false) (p : P) (h : Runs fmt cfg p) (c : Nat)
    (hc : p.phase = .exited c) : c = 1 ∧ Lines fmt [liveMsg cfg.path false, dieMsg cfg.path false] p.out := by
  have hw := (C118_ended fmt cfg p h c hc).1
  have hb := (C18_bad_path cfg hd p.life (pinv h).reach).2.1 hw
  obtain ⟨h1, a, d, h2, h3, h4, _⟩ := exit_core fmt cfg p h c hc
  rw [hb] at h2 h3
  refine ⟨?_, h2⟩
  have := ended_last h3
  cases d with
  | true => simp [dieMsg] at this
  | false =>
    rcases h1 with rfl | rfl
    · simp at h4
    · rfl

/-- Met: nothing goes wrong in the run that ends with 0, and it has printed its first line before the input ends. -/
example : (∀ a ∈ acts 5 up ++ .go :: (acts 7 down ++ acts 8 dtor), Healthy a) ∧ ∃ q p, prun jsonLine cfgD (start cfgD) (acts 5 up) = some q ∧ q.out ≠ [] ∧
    prun jsonLine cfgD q (.go :: (acts 7 down ++ acts 8 dtor)) = some p ∧ p.phase = .exited 0 := by
  refine ⟨?_, ?_⟩
  · intro a ha
    simp [acts, up, down, dtor] at ha
    repeat' rcases ha with ha | ha
    all_goals ((try subst ha); simp [Healthy, Mild])
    exact ⟨_, _, ⟨rfl, rfl⟩, .inl rfl⟩
  · obtain ⟨q, h1, h2⟩ : ∃ q, prun jsonLine cfgD (start cfgD) (acts 5 up) = some q ∧
        (q.out ≠ [] ∧ (prun jsonLine cfgD q (.go :: (acts 7 down ++ acts 8 dtor))).map P.phase = some (.exited 0)) :=
      ranP (by decide +kernel)
    cases hp : prun jsonLine cfgD q (.go :: (acts 7 down ++ acts 8 dtor)) with
    | none => rw [hp] at h2; exact absurd h2.2 (by simp)
    | some p => rw [hp] at h2; exact ⟨q, p, h1, h2.1, hp, by simpa using h2.2⟩

/-! ## C120 -/

/-- C120 in full: when the watch has ended and all its events were printed, the Rust program ends at its next poll. -/
def C120_full : Prop :=
  ∀ (cfg : Cfg) (p p' : RP), cfg.fdOk = true → RRuns Spec.Bind.utf8 cfg p → p.rs.h.life.w = .finished → p.rs.chan = [] →
    rpstep Spec.Bind.utf8 cfg p .poll = .ok (some p') → p'.phase ≠ .selecting

private theorem ranRP {o : Outcome (Option RP)} {p : RP → Prop} [DecidablePred p]
    (h : (match o with | .ok (some a) => decide (p a) | _ => false) = true) : ∃ a, o = .ok (some a) ∧ p a := by
  cases o with
  | ok a =>
    cases a with
    | none => cases h
    | some a => exact ⟨a, rfl, by simpa using h⟩
  | ub => cases h

private def ractsP (now : Int) (l : List Life.Act) : List RPAct := l.map fun a => .life a now now

/-- A Rust program that watches something that is no directory. -/
private theorem rust_bad : ∃ p, rprun Spec.Bind.utf8 cfgF (rstart cfgF) (ractsP 3 [.w, .w, .cbReturn, .w, .cbReturn, .w] ++ [.poll, .poll]) = .ok (some p) ∧
    p.rs.h.life.w = .finished ∧ p.rs.chan = [] ∧ p.phase = .selecting ∧ p.rs.call = none ∧ p.rs.gone = false ∧ p.out.length = 2 := ranRP (by decide +kernel)

/-- What the code does instead: without Ctrl-C the program never ends, whatever has become of the watch. -/
theorem C120_never_ends_partial (cfg : Cfg) (acts : List RPAct) (p : RP) (hn : RPAct.ctrlC ∉ acts)
    (hr : rprun Spec.Bind.utf8 cfg (rstart cfg) acts = .ok (some p)) : p.phase = .selecting :=
  (rprun_inv acts _ _ (rpinv_start cfg) hr).2 rfl hn

/-- C120 as stated is false of the code: told that the path is no directory, the program goes on waiting. -/
theorem C120_refuted : ¬ C120_full := by
  intro h
  obtain ⟨p, h1, h2, h3, h4, h5, h6, _⟩ := rust_bad
  have hi := rpinv (⟨_, h1⟩ : RRuns Spec.Bind.utf8 cfgF p)
  have hs : Handle.rstep Spec.Bind.utf8 cfgF p.rs .poll = .ok (some { p.rs with polls := p.rs.polls ++ [.pending] }) := by
    have := hi.rs.senders h6
    simp [Handle.rstep, h5, h6, h3, this]
  exact h cfgF p { p with rs := { p.rs with polls := p.rs.polls ++ [.pending] } } rfl ⟨_, h1⟩ h2 h3
    (by simp [rpstep, h4, hs, Outcome.bind_ok, pure]) h4

/-! ## C121 -/

/-- C121: what the Rust program has printed is, one for one and in order, a beginning of the events of the watch; what
is missing waits in the channel. -/
theorem C121_prints_in_order (cfg : Cfg) (p : RP) (h : RRuns Spec.Bind.utf8 cfg p) :
    OneForOne (callbacks p.rs.h.life.log) (p.out ++ p.rs.chan) := by
  have hi := rpinv h
  rw [hi.out]; exact hi.rs.same

/-- C121: with a working stop signal, no schedule, no events and no moment of Ctrl-C lead the program to undefined behaviour. -/
theorem C121_safe (cfg : Cfg) (hfd : cfg.fdOk = true) : ∀ (acts : List RPAct) (m : String), rprun Spec.Bind.utf8 cfg (rstart cfg) acts ≠ .ub m := by
  have main : ∀ (acts : List RPAct) (p : RP) (m : String), RPInv cfg p → rprun Spec.Bind.utf8 cfg p acts ≠ .ub m := by
    intro acts
    induction acts with
    | nil => intro p m _ h; cases h
    | cons a as ih =>
      intro p m hi hr
      simp only [rprun] at hr
      cases hs : rpstep Spec.Bind.utf8 cfg p a with
      | ub m' => exact rpstep_ok hfd hi a m' hs
      | ok o =>
        rw [hs] at hr
        cases o with
        | none => simp only [Outcome.bind_ok] at hr; cases hr
        | some q => simp only [Outcome.bind_ok] at hr; exact ih q m (rpinv_step hi hs) hr
  intro acts m
  exact main acts _ m (rpinv_start cfg)

/-- C121: and when `main` returns, the watch is over: the thread has ended after the whole story. -/
theorem C121_over_when_returning (cfg : Cfg) (hfd : cfg.fdOk = true) (p : RP) (h : RRuns Spec.Bind.utf8 cfg p) (hr : p.phase = .returning) :
    p.rs.h.life.w = .finished ∧ ∃ a d, Ended cfg.path a d (callbacks p.rs.h.life.log) := by
  have hi := rpinv h
  have hp := hi.phase
  simp only [RPhaseInv, hr] at hp
  have hC : p.rs.h.inC = false := by
    cases hx : p.rs.h.inC with
    | false => rfl
    | true => exact absurd (hi.rs.gone hp).1 (hi.rs.busy.1 hx)
  have hw := Lemmas.Handle.ended_of_rets hfd hi.rs.h hC (hi.rs.gone hp).2
  exact ⟨hw, (C10_live_first_die_last cfg p.rs.h.life hi.rs.h.reach).2 hw⟩

/-- Without a working stop signal it can be undefined: `drop` does not wait, and the thread's next event goes to a freed
channel while the process is still there. -/
theorem C121_mute_is_undefined : ∃ m, rprun Spec.Bind.utf8 { path := b!"/d", dirOk := true, fdOk := false } (rstart { path := b!"/d", dirOk := true, fdOk := false })
    ([.ctrlC] ++ ractsP 0 [.o, .o, .o, .o, .w, .w, .w, .w, .w]) = .ub m :=
  ⟨"fwd_ev on a freed sender", by decide +kernel⟩

/-- Met: Ctrl-C after two of three events were printed. -/
example : ∃ p, RRuns Spec.Bind.utf8 cfgD p ∧ p.phase = .returning ∧ p.out.length = 2 ∧ p.rs.chan.length = 1 := by
  obtain ⟨p, h1, h2⟩ : ∃ p, rprun Spec.Bind.utf8 cfgD (rstart cfgD) (ractsP 5 up ++ [.poll, .poll, .ctrlC] ++ ractsP 6 down ++ ractsP 7 dtor) = .ok (some p) ∧
      p.phase = .returning ∧ p.out.length = 2 ∧ p.rs.chan.length = 1 := ranRP (by decide +kernel)
  exact ⟨p, ⟨_, h1⟩, h2⟩

end Verif.Props
