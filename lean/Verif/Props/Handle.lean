import Verif.Lemmas.Handle2
import Verif.Lemmas.Utf8
import Verif.Props.Lifecycle
/-!
# C handles, the Rust stream and the Python object over the two threads of a watch: C109 - C115
-/

namespace Verif.Props
open Verif Verif.Model Verif.Model.Life Verif.Model.Handle Verif.Spec Verif.Spec.Hd Verif.Lemmas.Life Verif.Lemmas.Handle

private theorem hinv {cfg : Cfg} {h : H} (hr : HReach cfg h) : HInv cfg h := by
  obtain ⟨acts, hr⟩ := hr
  exact hrun_inv acts _ _ (hinv_open cfg) hr

private theorem rinv {cfg : Cfg} {r : RS} (hr : RReach Spec.Bind.utf8 cfg r) : RInv cfg r := by
  obtain ⟨acts, hr⟩ := hr
  exact rrun_inv acts _ _ (rinv_new cfg) hr

private theorem pinv {cfg : Cfg} {p : PS} (hr : PReach cfg p) : PInv cfg p := by
  obtain ⟨acts, hr⟩ := hr
  exact prun_inv acts _ _ (pinv_new cfg) hr

private theorem rets_log {cfg : Cfg} {h : H} (hi : HInv cfg h) (hC : h.inC = false) : h.rets = Lemmas.Handle.rets h.life.log := by
  rcases hi.out hC with ⟨_, _, h3, _⟩ | ⟨_, _, h3, _⟩ <;> exact h3

private theorem freed_iff {cfg : Cfg} {h : H} (hi : HInv cfg h) (hC : h.inC = false) : h.freed = true ↔ true ∈ h.rets := by
  rcases hi.out hC with ⟨h1, _, _, h4⟩ | ⟨h1, _, _, l, h4, _⟩
  · simp [h1, h4]
  · simp [h1, h4]

/-- After a call has returned, the whole story was told, and the answers agree with its end. -/
private theorem story {cfg : Cfg} (hfd : cfg.fdOk = true) {h : H} (hi : HInv cfg h) (hC : h.inC = false) (hr : h.rets ≠ []) :
    ∃ a d, Ended cfg.path a d (callbacks h.life.log) ∧ (true ∈ h.rets ↔ d = true) ∧ (d = true → a = true) := by
  have hl := rets_log hi hC
  have hx : ∃ b, Obs.closeRet b ∈ h.life.log := by
    cases hh : h.rets with
    | nil => exact absurd hh hr
    | cons b bs => exact ⟨b, mem_rets.1 (by rw [← hl, hh]; exact List.mem_cons_self)⟩
  obtain ⟨a, d, h1, h2, h3⟩ := C11_close_agrees_with_die cfg hfd h.life hi.reach hx
  exact ⟨a, d, h1, by rw [hl, mem_rets]; exact h2, h3⟩

/-! ## C109 -/

/-- C109: once `wtr_watcher_close` has returned, whatever it answered and whatever the watcher's thread did meanwhile,
the callback has received the whole story from the live to the die message; the call (or an earlier one)
answered true exactly if the die message says success. -/
theorem C109_answers (cfg : Cfg) (hfd : cfg.fdOk = true) (h : H) (hr : HReach cfg h) (hC : h.inC = false) (hne : h.rets ≠ []) :
    ∃ a d, Ended cfg.path a d (callbacks h.life.log) ∧ (true ∈ h.rets ↔ d = true) := by
  obtain ⟨a, d, h1, h2, _⟩ := story hfd (hinv hr) hC hne
  exact ⟨a, d, h1, h2⟩

/-- C109: it answers true at most once, and that is the last call (even with a broken stop signal). -/
theorem C109_true_is_last (cfg : Cfg) (h : H) (hr : HReach cfg h) : ∀ l b m, h.rets = l ++ b :: m → m ≠ [] → b = false := by
  intro l b m he hm
  have key : true ∉ h.rets ∨ ∃ l', h.rets = l' ++ [true] ∧ true ∉ l' := by
    cases hC : h.inC with
    | true => exact .inl ((hinv hr).inn hC).2.1
    | false =>
      rcases (hinv hr).out hC with ⟨_, _, _, h4⟩ | ⟨_, _, _, l', h4, h5⟩
      · exact .inl h4
      · exact .inr ⟨l', h4, h5⟩
  cases b with
  | false => rfl
  | true =>
    exfalso
    rcases key with hk | ⟨l', h4, h5⟩
    · exact hk (by rw [he]; simp)
    · rcases List.eq_nil_or_concat m with hm' | ⟨m', x, rfl⟩
      · exact hm hm'
      · rw [he] at h4
        have : (l ++ true :: m') ++ [x] = l' ++ [true] := by simpa using h4
        have := (List.append_inj' this rfl).1
        exact h5 (by rw [← this]; simp)

/-- C109: the only undefined use of a handle is a call after one that answered true. -/
theorem C109_undefined_only_after_true (cfg : Cfg) : ∀ (acts : List HAct) (h : H) (m : String), HReach cfg h →
    hrun cfg h acts = .ub m → ∃ pre post h', acts = pre ++ .close :: post ∧ hrun cfg h pre = .ok (some h') ∧ true ∈ h'.rets := by
  intro acts
  induction acts with
  | nil => intro h m _ hr; cases hr
  | cons a as ih =>
    intro h m hh hr
    simp only [hrun] at hr
    cases hs : hstep cfg h a with
    | ub m' =>
      obtain ⟨rfl, h2, h3⟩ := hstep_ub hs
      exact ⟨[], as, h, rfl, rfl, (freed_iff (hinv hh) h2).1 h3⟩
    | ok o =>
      rw [hs] at hr
      cases o with
      | none => simp only [Outcome.bind_ok] at hr; cases hr
      | some h1 =>
        simp only [Outcome.bind_ok] at hr
        have hh1 : HReach cfg h1 := by
          obtain ⟨acts0, h0⟩ := hh
          refine ⟨acts0 ++ [a], ?_⟩
          have app : ∀ (l : List HAct) (x : H), hrun cfg x l = .ok (some h) → hrun cfg x (l ++ [a]) = .ok (some h1) := by
            intro l
            induction l with
            | nil => intro x hx; simp only [hrun, Outcome.ok.injEq, Option.some.injEq] at hx; subst hx; simp [hrun, hs, Outcome.bind_ok]
            | cons b bs ih2 =>
              intro x hx
              simp only [hrun, List.cons_append] at hx ⊢
              cases hb : hstep cfg x b with
              | ub m => rw [hb] at hx; cases hx
              | ok o =>
                rw [hb] at hx
                cases o with
                | none => simp only [Outcome.bind_ok] at hx; cases hx
                | some y => simp only [Outcome.bind_ok] at hx ⊢; exact ih2 y hx
          exact app acts0 _ h0
        obtain ⟨pre, post, h', e1, e2, e3⟩ := ih h1 m hh1 hr
        exact ⟨a :: pre, post, h', by rw [e1]; rfl, by simp only [hrun, hs, Outcome.bind_ok]; exact e2, e3⟩

/-- C109: and such a call is undefined. -/
theorem C109_undefined_after_true (cfg : Cfg) (h : H) (hr : HReach cfg h) (hC : h.inC = false) (ht : true ∈ h.rets) :
    ∃ m, hstep cfg h .close = .ub m := by
  have := (freed_iff (hinv hr) hC).2 ht
  exact ⟨"close() on a deleted watch", by simp [hstep, hC, this]⟩

/-- C109: the simple model of handles in `Model/Bindings.lean`, in which a call is one step, is right: with a
working stop signal there is a result the first call takes, and all answers are those of the simple model. -/
theorem C109_simple_model (cfg : Cfg) (hfd : cfg.fdOk = true) (h : H) (hr : HReach cfg h) (hC : h.inC = false) :
    ∃ r o, closes (List.replicate h.rets.length false) (.fresh r) = .ok (h.rets, o) ∧ (o = .freed ↔ h.freed = true) := by
  have hi := hinv hr
  have spent : ∀ n, closes (List.replicate n false) .spent = .ok (List.replicate n false, .spent) := by
    intro n
    induction n with
    | zero => rfl
    | succ n ih =>
      have e : Model.Bind.cCloseObj false .spent = .ok (false, .spent) := rfl
      simp only [List.replicate_succ, closes, e, Outcome.bind_ok, ih, pure]
  have hfr := freed_iff hi hC
  by_cases ht : true ∈ h.rets
  · -- it answered true: then at the first call
    have hl := rets_log hi hC
    rcases hi.out hC with ⟨_, _, _, h4⟩ | ⟨h1, _, _, l, h4, h5⟩
    · exact absurd ht h4
    · have hlnil : l = [] := by
        cases l with
        | nil => rfl
        | cons b bs =>
          exfalso
          cases b with
          | true => exact h5 List.mem_cons_self
          | false =>
            -- an answer false before would have taken the result
            have := tail_false hfd hi.reach
            rw [← hl, h4] at this
            simp at this
      subst hlnil
      refine ⟨true, .freed, ?_, by simp [h1]⟩
      simp only [h4]
      rfl
  · refine ⟨false, if h.rets = [] then .fresh false else .spent, ?_, ?_⟩
    · cases hrs : h.rets with
      | nil => rfl
      | cons b bs =>
        have hall : h.rets = List.replicate h.rets.length false := by
          refine List.eq_replicate_iff.2 ⟨rfl, ?_⟩
          intro x hx
          cases x with
          | false => rfl
          | true => exact absurd hx ht
        have hb : b :: bs = List.replicate (bs.length + 1) false := by rw [← hrs, hall, hrs]; simp
        have hbs := (List.cons.inj hb)
        have e : Model.Bind.cCloseObj false (.fresh false) = .ok (false, .spent) := rfl
        simp only [List.length_cons, List.replicate_succ, closes, e, Outcome.bind_ok, spent, pure, reduceCtorEq, if_false]
        rw [hbs.1, ← hbs.2]
    · constructor
      · intro ho; split at ho <;> cases ho
      · intro hf; exact absurd (hfr.1 hf) ht

private def cfgH : Cfg := { path := b!"/d", dirOk := true, fdOk := true }
private def cfgBad : Cfg := { path := b!"/f", dirOk := false, fdOk := true }
private def cfgMute : Cfg := { path := b!"/d", dirOk := true, fdOk := false }

/-- The watch begins; a file event comes. -/
private def lifeUp : List Life.Act := [.w, .w, .w, .cbReturn, .wOpen [] .pending, .w, .w,
  .wWake [.ke [⟨b!"/d/f", .create, .file, none⟩] .pending], .w, .w, .cbReturn, .w, .w]
/-- A call of `close()` gets to wait for the result; the watcher's thread ends; `close()` returns. -/
private def lifeDown : List Life.Act := [.o, .o, .o, .o, .wWake [.il], .w, .w, .w, .w, .cbReturn, .w, .o]
/-- The destructor. -/
private def lifeDtor : List Life.Act := [.o, .o, .o, .o]
/-- The thread of a watch that cannot begin, and a `close()`. -/
private def lifeBad : List Life.Act := [.w, .w, .cbReturn, .w, .cbReturn, .w, .o, .o, .o, .o, .o]

private def goodH : List HAct := lifeUp.map .life ++ [.close] ++ lifeDown.map .life ++ lifeDtor.map .life
private def badH : List HAct := [.close] ++ lifeBad.map .life

private theorem ranH {o : Outcome (Option H)} {p : H → Prop} [DecidablePred p]
    (h : (match o with | .ok (some a) => decide (p a) | _ => false) = true) : ∃ a, o = .ok (some a) ∧ p a := by
  cases o with
  | ok a =>
    cases a with
    | none => cases h
    | some a => exact ⟨a, rfl, by simpa using h⟩
  | ub => cases h

private theorem good_ran : ∃ h, hrun cfgH (hopen cfgH) goodH = .ok (some h) ∧ h.inC = false ∧ h.rets = [true] ∧ h.freed = true ∧
    (callbacks h.life.log).length = 3 := ranH (by decide +kernel)
private theorem bad_ran : ∃ h, hrun cfgBad (hopen cfgBad) badH = .ok (some h) ∧ h.inC = false ∧ h.rets = [false] ∧ h.freed = false ∧
    (callbacks h.life.log).length = 2 := ranH (by decide +kernel)

/-- Met: a watch that is closed after an event, and a watch of something that is no directory; the call after the
first is undefined. -/
example : ∃ h, HReach cfgH h ∧ h.inC = false ∧ h.rets ≠ [] ∧ true ∈ h.rets := by
  obtain ⟨h, h1, h2, h3, _⟩ := good_ran
  exact ⟨h, ⟨_, h1⟩, h2, by simp [h3], by simp [h3]⟩
example : ∃ h, HReach cfgBad h ∧ h.inC = false ∧ h.rets ≠ [] := by
  obtain ⟨h, h1, h2, h3, _⟩ := bad_ran
  exact ⟨h, ⟨_, h1⟩, h2, by simp [h3]⟩
example : ∃ m, hrun cfgH (hopen cfgH) (goodH ++ [.close]) = .ub m :=
  ⟨"close() on a deleted watch", by decide +kernel⟩

/-! ## C110 -/

/-- C110 in full: after `wtr_watcher_close` has returned, the object was deleted. -/
def C110_full : Prop := ∀ (cfg : Cfg) (h : H), cfg.fdOk = true → HReach cfg h → h.inC = false → h.rets ≠ [] → h.freed = true

/-- C110 as stated is false of the code: if the path is no directory, `close()` answers false and the object is
never deleted, not by further calls either. -/
theorem C110_refuted : ¬ C110_full := by
  intro hf
  obtain ⟨h, h1, h2, h3, h4, _⟩ := bad_ran
  have := hf cfgBad h rfl ⟨_, h1⟩ h2 (by simp [h3])
  rw [h4] at this; cases this

/-- C110 (partial): exactly the calls that answer true delete the object; with a working stop signal that is when
the watch ended well. -/
theorem C110_deleted_iff_partial (cfg : Cfg) (h : H) (hr : HReach cfg h) (hC : h.inC = false) :
    (h.freed = true ↔ true ∈ h.rets) ∧
    (cfg.fdOk = true → h.rets ≠ [] → (h.freed = true ↔ dieMsg cfg.path true ∈ callbacks h.life.log)) := by
  have hi := hinv hr
  refine ⟨freed_iff hi hC, fun hfd hne => ?_⟩
  obtain ⟨a, d, h1, h2, _⟩ := story hfd hi hC hne
  rw [freed_iff hi hC, h2]
  have := C10_exactly_once cfg.path a d _ h1 true true
  cases d with
  | true =>
    simp only [true_iff]
    refine List.count_pos_iff.1 ?_
    rw [this.2]; simp
  | false =>
    simp only [Bool.false_eq_true, false_iff]
    intro hm
    have := List.count_pos_iff.2 hm
    simp_all

/-- C110 (partial): what was not deleted by the first call is not deleted by later ones, for any number of calls. -/
theorem C110_leaked_for_good_partial (cfg : Cfg) (hfd : cfg.fdOk = true) (h : H) (hr : HReach cfg h) (hC : h.inC = false)
    (hne : h.rets ≠ []) (hfr : h.freed = false) (acts : List HAct) (h' : H) (hrun' : hrun cfg h acts = .ok (some h')) : h'.freed = false := by
  have hi := hinv hr
  have hi' := hrun_inv acts h h' hi hrun'
  cases hx : h'.freed with
  | false => rfl
  | true =>
    exfalso
    have hC' : h'.inC = false := by
      cases hc : h'.inC with
      | false => rfl
      | true => rw [(hi'.inn hc).1] at hx; cases hx
    have grow : ∃ x, h'.life.log = h.life.log ++ x := by
      have : ∀ (acts : List HAct) (h h' : H), hrun cfg h acts = .ok (some h') → ∃ x, h'.life.log = h.life.log ++ x := by
        intro acts
        induction acts with
        | nil => intro h h' hh; simp only [hrun, Outcome.ok.injEq, Option.some.injEq] at hh; subst hh; exact ⟨[], by simp⟩
        | cons a as ih =>
          intro h h' hh
          simp only [hrun] at hh
          cases hs : hstep cfg h a with
          | ub m => rw [hs] at hh; cases hh
          | ok o =>
            rw [hs] at hh
            cases o with
            | none => simp only [Outcome.bind_ok] at hh; cases hh
            | some h1 =>
              simp only [Outcome.bind_ok] at hh
              obtain ⟨x, hx⟩ := hstep_log hs
              obtain ⟨y, hy⟩ := ih h1 h' hh
              exact ⟨x ++ y, by rw [hy, hx, List.append_assoc]⟩
      exact this acts h h' hrun'
    obtain ⟨x, hx2⟩ := grow
    have ht := (freed_iff hi' hC').1 hx
    rw [rets_log hi' hC', hx2, rets_append] at ht
    have hne' : Lemmas.Handle.rets h.life.log ≠ [] := by rw [← rets_log hi hC]; exact hne
    have htail := tail_false hfd hi'.reach
    rw [hx2, rets_append] at htail
    cases hl : Lemmas.Handle.rets h.life.log with
    | nil => exact hne' hl
    | cons b bs =>
      rw [hl] at ht htail
      simp only [List.cons_append, List.tail_cons] at htail
      rcases List.mem_append.1 ht with h1 | h1
      · exact absurd ((freed_iff hi hC).2 (by rw [rets_log hi hC, hl]; exact h1)) (by simp [hfr])
      · exact htail (List.mem_append_right _ h1)

/-! ## C111 -/

/-- C111: at any time, what the stream has yielded and what is waiting in the channel are the events of the
callback, one for one and in order: the stream loses, repeats and reorders nothing. -/
theorem C111_stream_in_order (cfg : Cfg) (r : RS) (hr : RReach Spec.Bind.utf8 cfg r) :
    OneForOne (callbacks r.h.life.log) (yielded r.polls ++ r.chan) := (rinv hr).same

/-- C111: so a program that polls until nothing is pending, after a `close` that returned (whatever it answered),
has seen the whole story from the live to the die message. -/
theorem C111_whole_story (cfg : Cfg) (hfd : cfg.fdOk = true) (r : RS) (hr : RReach Spec.Bind.utf8 cfg r) (hc : r.call = none)
    (hne : r.h.rets ≠ []) (hch : r.chan = []) :
    ∃ a d l, Ended cfg.path a d l ∧ OneForOne l (yielded r.polls) := by
  have hi := rinv hr
  have hC : r.h.inC = false := by
    cases hx : r.h.inC with
    | false => rfl
    | true => exact absurd hc (hi.busy.1 hx)
  obtain ⟨a, d, h1, _⟩ := story hfd hi.h hC hne
  refine ⟨a, d, _, h1, ?_⟩
  have := hi.same
  rw [hch, List.append_nil] at this
  exact this

/-- C111: names a C string can carry and that are UTF-8 arrive unchanged. -/
theorem C111_names_unchanged (s : Str) (h0 : Spec.Bind.NoNul s) (hu : Spec.Bind.utf8 s = true) : asText s = s := by
  have : upToNul s = s := by rw [← cRead_upToNul]; exact Lemmas.Bind.cRead_eq h0
  rw [asText, this, if_pos hu]

example : asText [47, 100, 255] = [] ∧ asText b!"/d/f" = b!"/d/f" := by decide +kernel

private def upR : List RAct := lifeUp.map (fun a => .life a 5 6)
private def downR : List RAct := lifeDown.map (fun a => .life a 7 8)
private def dtorR : List RAct := lifeDtor.map (fun a => .life a 9 9)
private def goodR : List RAct := [.poll] ++ upR ++ [.poll, .close] ++ downR ++ dtorR ++ [.poll, .poll, .poll]

private theorem ranR {o : Outcome (Option RS)} {p : RS → Prop} [DecidablePred p]
    (h : (match o with | .ok (some a) => decide (p a) | _ => false) = true) : ∃ a, o = .ok (some a) ∧ p a := by
  cases o with
  | ok a =>
    cases a with
    | none => cases h
    | some a => exact ⟨a, rfl, by simpa using h⟩
  | ub => cases h

private theorem goodR_ran : ∃ r, rrun Spec.Bind.utf8 cfgH (rnew cfgH) goodR = .ok (some r) ∧ r.call = none ∧ r.gone = false ∧ r.h.rets = [true] ∧
    r.h.life.w = .finished ∧ r.chan = [] ∧ r.polls = [.pending, .event ⟨5, b!"s/self/live@/d", none, .Create, .Watcher⟩,
      .event ⟨5, b!"/d/f", none, .Create, .File⟩, .event ⟨7, b!"s/self/die@/d", none, .Destroy, .Watcher⟩, .pending] :=
  ranR (by decide +kernel)

example : ∃ r, RReach Spec.Bind.utf8 cfgH r ∧ r.call = none ∧ r.h.rets ≠ [] ∧ r.chan = [] ∧ (yielded r.polls).length = 3 := by
  obtain ⟨r, h1, h2, _, h3, _, h5, h6⟩ := goodR_ran
  exact ⟨r, ⟨_, h1⟩, h2, by simp [h3], h5, by rw [h6]; rfl⟩

/-! ## C112 -/

/-- C112 in full: when the watch has ended and all events were yielded, the stream ends. -/
def C112_full : Prop :=
  ∀ (cfg : Cfg) (r r' : RS), cfg.fdOk = true → RReach Spec.Bind.utf8 cfg r → r.call = none → r.h.life.w = .finished → r.chan = [] →
    rstep Spec.Bind.utf8 cfg r .poll = .ok (some r') → r'.polls = r.polls ++ [.ended]

/-- What the code does instead: no poll ever answers that the stream has ended. A loop over the stream, as in
`watcher-rs/src/main.rs`, goes on for ever. -/
theorem C112_never_ends (cfg : Cfg) (r : RS) (hr : RReach Spec.Bind.utf8 cfg r) : Polled.ended ∉ r.polls := (rinv hr).never

theorem C112_refuted : ¬ C112_full := by
  intro hf
  obtain ⟨r, h1, h2, h3, _, h4, h5, h6⟩ := goodR_ran
  have hs : rstep Spec.Bind.utf8 cfgH r .poll = .ok (some { r with polls := r.polls ++ [.pending] }) := by
    have := (rinv ⟨_, h1⟩).senders h3
    simp [rstep, h2, h3, h5, this]
  have := hf cfgH r _ rfl ⟨_, h1⟩ h2 h4 h5 hs
  simp at this

/-- C112 (partial): after the watch has ended, only what is in the channel comes; then every poll answers
"pending". -/
theorem C112_quiet_partial (cfg : Cfg) (r r' : RS) (hr : RReach Spec.Bind.utf8 cfg r) (hw : r.h.life.w = .finished) (a : RAct)
    (hs : rstep Spec.Bind.utf8 cfg r a = .ok (some r')) :
    r'.h.life.w = .finished ∧ yielded r'.polls ++ r'.chan = yielded r.polls ++ r.chan ∧
    (a = .poll → r.chan = [] → r'.polls = r.polls ++ [.pending]) := by
  have hi := rinv hr
  cases a with
  | life a now inner =>
    simp only [rstep] at hs
    split at hs
    · cases hs
    · cases hh : hstep cfg r.h (.life a) with
      | ub m => rw [hh] at hs; cases hs
      | ok o =>
        rw [hh] at hs
        cases o with
        | none => simp only [Outcome.bind_ok] at hs; cases hs
        | some h1 =>
          simp only [Outcome.bind_ok, empty_of_finished hw hh] at hs
          simp only [List.isEmpty_nil, Bool.not_true, Bool.false_and, Bool.false_eq_true, if_false, pure, Outcome.ok.injEq, Option.some.injEq,
            List.map_nil, List.append_nil] at hs
          subst hs
          have hf := (finished_hstep hw hh).1
          simp only [back]
          split
          · exact ⟨hf, rfl, fun h => by cases h⟩
          · split <;> exact ⟨hf, rfl, fun h => by cases h⟩
  | poll =>
    simp only [rstep] at hs
    split at hs
    · simp at hs
    · rename_i hx
      simp at hx
      split at hs
      · rename_i e es hch
        simp at hs; subst hs
        exact ⟨hw, by simp [yielded_append, yielded, hch], fun _ h => by rw [hch] at h; cases h⟩
      · rename_i hch
        simp at hs; subst hs
        have := hi.senders hx.2
        simp [hw, yielded_append, yielded, this]
  | close =>
    simp only [rstep] at hs
    split at hs
    · cases hs
    · cases hh : hstep cfg r.h .close with
      | ub m => rw [hh] at hs; cases hs
      | ok o =>
        rw [hh] at hs
        cases o with
        | none => simp only [Outcome.bind_ok] at hs; cases hs
        | some h1 =>
          simp only [Outcome.bind_ok, pure, Outcome.ok.injEq, Option.some.injEq] at hs
          subst hs
          exact ⟨(finished_hstep hw hh).1, rfl, fun h => by cases h⟩
  | drop =>
    simp only [rstep] at hs
    split at hs
    · cases hs
    · cases hh : hstep cfg r.h .close with
      | ub m => rw [hh] at hs; cases hs
      | ok o =>
        rw [hh] at hs
        cases o with
        | none => simp only [Outcome.bind_ok] at hs; cases hs
        | some h1 =>
          simp only [Outcome.bind_ok, pure, Outcome.ok.injEq, Option.some.injEq] at hs
          subst hs
          exact ⟨(finished_hstep hw hh).1, rfl, fun h => by cases h⟩

example : ∃ r, RReach Spec.Bind.utf8 cfgH r ∧ r.h.life.w = .finished ∧ r.chan = [] := by
  obtain ⟨r, h1, _, _, _, h4, h5, _⟩ := goodR_ran
  exact ⟨r, ⟨_, h1⟩, h4, h5⟩

/-! ## C113 -/

/-- C113 in full: no safe Rust program (calls of `close`, polls, and a drop) reaches undefined behaviour. -/
def C113_full : Prop := ∀ (cfg : Cfg) (acts : List RAct) (m : String), rrun Spec.Bind.utf8 cfg (rnew cfg) acts ≠ .ub m

/-- `close()` answers `Ok`, then the watch leaves its scope. -/
theorem C113_refuted_by_close : ¬ C113_full := by
  intro h
  exact h cfgH (upR ++ [.close] ++ downR ++ dtorR ++ [.drop]) "close() on a deleted watch" (by decide +kernel)

/-- The watch just leaves its scope, in a process that has run out of descriptors: the stop signal cannot be
written, `drop` does not wait for the thread, and its next event goes to a freed channel. -/
theorem C113_refuted_by_drop : ∃ m, rrun Spec.Bind.utf8 cfgMute (rnew cfgMute)
    ([.drop] ++ [Life.Act.o, .o, .o, .o, .w, .w, .w, .w, .w].map (fun a => .life a 0 0)) = .ub m :=
  ⟨"fwd_ev on a freed sender", by decide +kernel⟩

/-- C113 (partial: the stop signal works): undefined behaviour comes only from using the watch (closing or dropping it)
after a `close` that answered `Ok`. -/
theorem C113_safe_partial (cfg : Cfg) (hfd : cfg.fdOk = true) : ∀ (acts : List RAct) (r : RS) (m : String), RReach Spec.Bind.utf8 cfg r →
    rrun Spec.Bind.utf8 cfg r acts = .ub m →
    ∃ pre a post r', acts = pre ++ a :: post ∧ (a = .close ∨ a = .drop) ∧ rrun Spec.Bind.utf8 cfg r pre = .ok (some r') ∧ true ∈ r'.h.rets := by
  have main : ∀ (acts : List RAct) (r : RS) (m : String), RInv cfg r → rrun Spec.Bind.utf8 cfg r acts = .ub m →
      ∃ pre a post r', acts = pre ++ a :: post ∧ (a = .close ∨ a = .drop) ∧ rrun Spec.Bind.utf8 cfg r pre = .ok (some r') ∧ true ∈ r'.h.rets := by
    intro acts
    induction acts with
    | nil => intro r m _ h; cases h
    | cons a as ih =>
      intro r m hi hr
      simp only [rrun] at hr
      cases hs : rstep Spec.Bind.utf8 cfg r a with
      | ub m' =>
        rcases rstep_ub hi hs with ⟨h1, h2, h3, h4⟩ | ⟨h1, h2⟩
        · have hC : r.h.inC = false := by
            cases hx : r.h.inC with
            | false => rfl
            | true => exact absurd h2 (hi.busy.1 hx)
          exact ⟨[], a, as, r, rfl, h1, rfl, (freed_iff hi.h hC).1 h4⟩
        · have hC : r.h.inC = false := by
            cases hx : r.h.inC with
            | false => rfl
            | true => exact absurd (hi.gone h1).1 (hi.busy.1 hx)
          exact absurd (ended_of_rets hfd hi.h hC (hi.gone h1).2) h2
      | ok o =>
        rw [hs] at hr
        cases o with
        | none => simp only [Outcome.bind_ok] at hr; cases hr
        | some r1 =>
          simp only [Outcome.bind_ok] at hr
          obtain ⟨pre, b, post, r', e1, e2, e3, e4⟩ := ih r1 m (rstep_inv hi hs) hr
          exact ⟨a :: pre, b, post, r', by rw [e1]; rfl, e2, by simp only [rrun, hs, Outcome.bind_ok]; exact e3, e4⟩
  intro acts r m hr h
  exact main acts r m (rinv hr) h

/-- C113 (partial): in particular a program that never calls `close` is safe, however often it polls and whenever it
drops the watch. -/
theorem C113_drop_only_partial (cfg : Cfg) (hfd : cfg.fdOk = true) (acts : List RAct) (hn : RAct.close ∉ acts) :
    ∃ o, rrun Spec.Bind.utf8 cfg (rnew cfg) acts = .ok o := by
  cases h : rrun Spec.Bind.utf8 cfg (rnew cfg) acts with
  | ok o => exact ⟨o, rfl⟩
  | ub m =>
    exfalso
    -- until the drop returns no call has answered; after it nothing can be called
    have main : ∀ (acts : List RAct) (r : RS), RInv cfg r → RAct.close ∉ acts →
        (r.gone = false → r.h.rets = [] ∧ r.call ≠ some .close) →
        ∀ m, rrun Spec.Bind.utf8 cfg r acts ≠ .ub m := by
      intro acts
      induction acts with
      | nil => intro r _ _ _ m hm; cases hm
      | cons a as ih =>
        intro r hi hn hg m hr
        simp only [List.mem_cons, not_or] at hn
        simp only [rrun] at hr
        cases hs : rstep Spec.Bind.utf8 cfg r a with
        | ub m' =>
          rcases rstep_ub hi hs with ⟨_, h2, h3, h4⟩ | ⟨h1, h2⟩
          · have hC : r.h.inC = false := by
              cases hx : r.h.inC with
              | false => rfl
              | true => exact absurd h2 (hi.busy.1 hx)
            have := (freed_iff hi.h hC).1 h4
            rw [(hg h3).1] at this; cases this
          · have hC : r.h.inC = false := by
              cases hx : r.h.inC with
              | false => rfl
              | true => exact absurd (hi.gone h1).1 (hi.busy.1 hx)
            exact absurd (ended_of_rets hfd hi.h hC (hi.gone h1).2) h2
        | ok o =>
          rw [hs] at hr
          cases o with
          | none => simp only [Outcome.bind_ok] at hr; cases hr
          | some r1 =>
            simp only [Outcome.bind_ok] at hr
            refine ih r1 (rstep_inv hi hs) hn.2 ?_ m hr
            intro hg1
            cases a with
            | close => exact absurd rfl hn.1
            | poll =>
              simp only [rstep] at hs
              split at hs
              · simp at hs
              · split at hs <;> (simp at hs; subst hs; exact hg hg1)
            | drop =>
              simp only [rstep] at hs
              split at hs
              · cases hs
              · rename_i hx
                simp at hx
                cases hh : hstep cfg r.h .close with
                | ub m => rw [hh] at hs; cases hs
                | ok o =>
                  rw [hh] at hs
                  cases o with
                  | none => simp only [Outcome.bind_ok] at hs; cases hs
                  | some h1 =>
                    simp only [Outcome.bind_ok, pure, Outcome.ok.injEq, Option.some.injEq] at hs
                    subst hs
                    exact ⟨by simp only; rw [hclose_rets hh]; exact (hg hx.2).1, by simp⟩
            | life a now inner =>
              simp only [rstep] at hs
              split at hs
              · cases hs
              · cases hh : hstep cfg r.h (.life a) with
                | ub m => rw [hh] at hs; cases hs
                | ok o =>
                  rw [hh] at hs
                  cases o with
                  | none => simp only [Outcome.bind_ok] at hs; cases hs
                  | some h1 =>
                    simp only [Outcome.bind_ok] at hs
                    split at hs
                    · cases hs
                    · simp only [pure, Outcome.ok.injEq, Option.some.injEq] at hs
                      subst hs
                      obtain ⟨l1, l2⟩ := hlife_len hh
                      simp only [back] at hg1 ⊢
                      cases hc1 : h1.inC with
                      | true =>
                        simp only [hc1, if_true] at hg1 ⊢
                        obtain ⟨g1, g2⟩ := hg hg1
                        refine ⟨?_, g2⟩
                        cases hx : r.h.inC with
                        | false => rw [(l1 hx).1] at hc1; cases hc1
                        | true =>
                          rcases l2 hx with ⟨_, k⟩ | ⟨k, _⟩
                          · rw [k]; exact g1
                          · rw [k] at hc1; cases hc1
                      | false =>
                        simp only [hc1, Bool.false_eq_true, if_false] at hg1 ⊢
                        cases hcall : r.call with
                        | none =>
                          simp only [hcall] at hg1 ⊢
                          have hx : r.h.inC = false := by
                            cases hx : r.h.inC with
                            | false => rfl
                            | true => exact absurd hcall (hi.busy.1 hx)
                          exact ⟨by rw [(l1 hx).2]; exact (hg hg1).1, by simp⟩
                        | some c =>
                          cases c with
                          | close =>
                            simp only [hcall] at hg1
                            exact absurd hcall (hg hg1).2
                          | drop => simp only [hcall] at hg1; cases hg1
    exact main acts (rnew cfg) (rinv_new cfg) hn (fun _ => ⟨rfl, by simp [rnew]⟩) m h

/-- C113: a watch that was closed with the answer `Ok` cannot be dropped: every program that does not leak it is
undefined. -/
theorem C113_close_then_drop_is_undefined (cfg : Cfg) (r : RS) (hr : RReach Spec.Bind.utf8 cfg r) (hc : r.call = none) (hg : r.gone = false)
    (ht : true ∈ r.h.rets) : ∃ m, rstep Spec.Bind.utf8 cfg r .drop = .ub m := by
  have hi := rinv hr
  have hC : r.h.inC = false := by
    cases hx : r.h.inC with
    | false => rfl
    | true => exact absurd hc (hi.busy.1 hx)
  have := (freed_iff hi.h hC).2 ht
  exact ⟨"close() on a deleted watch", by simp [rstep, hc, hg, hstep, hC, this, Outcome.bind_ub]⟩

example : RAct.close ∉ upR ++ [.drop] ++ downR ++ dtorR ∧
    ∃ r, rrun Spec.Bind.utf8 cfgH (rnew cfgH) (upR ++ [.drop] ++ downR ++ dtorR) = .ok (some r) ∧ r.gone = true ∧ r.h.freed = true :=
  ⟨by decide, ranR (by decide +kernel)⟩
example : ∃ r, RReach Spec.Bind.utf8 cfgH r ∧ r.call = none ∧ r.gone = false ∧ true ∈ r.h.rets := by
  obtain ⟨r, h1, h2, h3, h4, _⟩ := goodR_ran
  exact ⟨r, ⟨_, h1⟩, h2, h3, by simp [h4]⟩

/-! ## C114 -/

/-- C114 in full: the Python callback is called with the events of the library, one for one and in order. -/
def C114_full : Prop := ∀ (cfg : Cfg) (p : PS), PReach cfg p → EachHeard (callbacks p.h.life.log) p.told

/-- C114 (partial: events whose names are not UTF-8 are missing). The callback is called with the other events, in order, and
with nothing else. -/
theorem C114_in_order_partial (cfg : Cfg) (p : PS) (hr : PReach cfg p) : Heard (callbacks p.h.life.log) p.told := (pinv hr).same

private theorem each_of_heard {l : List Ev} {ps : List Model.Bind.PyEvent} (h : Heard l ps) (hu : ∀ e ∈ l, Readable e) : EachHeard l ps := by
  induction h with
  | nil => exact .nil
  | told _ h _ ih => exact .cons h (ih fun e he => hu e (List.mem_cons_of_mem _ he))
  | missed r _ _ => exact absurd (hu _ List.mem_cons_self) r

/-- C114 (partial: the names are UTF-8): as stated. -/
theorem C114_utf8_partial (cfg : Cfg) (p : PS) (hr : PReach cfg p) (hu : ∀ e ∈ callbacks p.h.life.log, Readable e) :
    EachHeard (callbacks p.h.life.log) p.told := each_of_heard (pinv hr).same hu

/-- C114 (partial likewise): once `close` has returned (or the `with` block was left, or the object deleted), it has received
the whole story from the live to the die message, and whatever happens next it is not called again. -/
theorem C114_nothing_after_close_partial (cfg : Cfg) (hfd : cfg.fdOk = true) (p : PS) (hr : PReach cfg p) (ha : p.attr = false) :
    (∃ a d l, Ended cfg.path a d l ∧ Heard l p.told) ∧
    ∀ acts p', prun Spec.Bind.utf8 cfg p acts = .ok (some p') → p'.told = p.told := by
  have hi := pinv hr
  obtain ⟨hC, hlen⟩ := hi.let_go ha
  have hne : p.h.rets ≠ [] := by intro h; rw [h] at hlen; cases hlen
  obtain ⟨a, d, h1, _⟩ := story hfd hi.h hC hne
  refine ⟨⟨a, d, _, h1, hi.same⟩, ?_⟩
  intro acts
  have main : ∀ (acts : List PAct) (p p' : PS), PInv cfg p → p.h.life.w = .finished → prun Spec.Bind.utf8 cfg p acts = .ok (some p') → p'.told = p.told := by
    intro acts
    induction acts with
    | nil => intro p p' _ _ h; simp only [prun, Outcome.ok.injEq, Option.some.injEq] at h; subst h; rfl
    | cons a as ih =>
      intro p p' hi hw h
      simp only [prun] at h
      cases hs : pstep Spec.Bind.utf8 cfg p a with
      | ub m => rw [hs] at h; cases h
      | ok o =>
        rw [hs] at h
        cases o with
        | none => simp only [Outcome.bind_ok] at h; cases h
        | some p1 =>
          simp only [Outcome.bind_ok] at h
          have hi1 := pstep_inv hi hs
          have key : p1.h.life.w = .finished ∧ p1.told = p.told := by
            cases a with
            | life a now inner =>
              simp only [pstep] at hs
              cases hh : hstep cfg p.h (.life a) with
              | ub m => rw [hh] at hs; cases hs
              | ok o =>
                rw [hh] at hs
                cases o with
                | none => simp only [Outcome.bind_ok] at hs; cases hs
                | some h1 =>
                  simp only [Outcome.bind_ok] at hs
                  split at hs
                  · cases hs
                  · simp only [pure, Outcome.ok.injEq, Option.some.injEq] at hs
                    subst hs
                    rw [empty_of_finished hw hh]
                    simp only [pback, List.filterMap_nil, List.append_nil]
                    split
                    · exact ⟨(finished_hstep hw hh).1, rfl⟩
                    · split <;> exact ⟨(finished_hstep hw hh).1, rfl⟩
            | close =>
              simp only [pstep] at hs
              split at hs
              · cases hs
              · split at hs
                · simp only [pure, Outcome.ok.injEq, Option.some.injEq] at hs
                  subst hs; exact ⟨hw, rfl⟩
                · cases hh : hstep cfg p.h .close with
                  | ub m => rw [hh] at hs; cases hs
                  | ok o =>
                    rw [hh] at hs
                    cases o with
                    | none => simp only [Outcome.bind_ok] at hs; cases hs
                    | some h1 =>
                      simp only [Outcome.bind_ok, pure, Outcome.ok.injEq, Option.some.injEq] at hs
                      subst hs
                      exact ⟨(finished_hstep hw hh).1, rfl⟩
            | del =>
              simp only [pstep] at hs
              split at hs
              · cases hs
              · split at hs
                · simp only [pure, Outcome.ok.injEq, Option.some.injEq] at hs
                  subst hs; exact ⟨hw, rfl⟩
                · cases hh : hstep cfg p.h .close with
                  | ub m => rw [hh] at hs; cases hs
                  | ok o =>
                    rw [hh] at hs
                    cases o with
                    | none => simp only [Outcome.bind_ok] at hs; cases hs
                    | some h1 =>
                      simp only [Outcome.bind_ok, pure, Outcome.ok.injEq, Option.some.injEq] at hs
                      subst hs
                      exact ⟨(finished_hstep hw hh).1, rfl⟩
          rw [ih p1 p' hi1 key.1 h, key.2]
  intro p' h
  exact main acts p p' hi (ended_of_rets hfd hi.h hC hne) h

private theorem ascii_app : ∀ (a s : Str), (∀ c ∈ a, c ≠ 0 ∧ c ≤ 0x7F) → upToNul (a ++ s) = a ++ upToNul s ∧ Spec.Bind.utf8 (a ++ upToNul s) = Spec.Bind.utf8 (upToNul s) := by
  intro a s
  induction a with
  | nil => intro _; exact ⟨rfl, rfl⟩
  | cons c a ih =>
    intro h
    obtain ⟨h1, h2⟩ := ih fun x hx => h x (List.mem_cons_of_mem _ hx)
    obtain ⟨h3, h4⟩ := h c List.mem_cons_self
    refine ⟨by simp only [List.cons_append, upToNul, if_neg h3, h1], ?_⟩
    rw [← h2]
    exact Lemmas.Utf8.utf8_app (ch := [c]) (.one h4) _

private theorem readable_end {path : Str} (hu : Spec.Bind.utf8 (upToNul path) = true) (b : Bool) : Readable (liveMsg path b) ∧ Readable (dieMsg path b) := by
  have key : ∀ a : Str, (∀ c ∈ a, c ≠ 0 ∧ c ≤ 0x7F) → Spec.Bind.utf8 (upToNul (a ++ path)) = true := by
    intro a ha
    obtain ⟨h1, h2⟩ := ascii_app a path ha
    rw [h1, h2, hu]
  refine ⟨⟨?_, fun a h => by simp [liveMsg] at h⟩, ⟨?_, fun a h => by simp [dieMsg] at h⟩⟩ <;> cases b <;> exact key _ (by decide)

/-- C114 (partial likewise): if the watched path is UTF-8 (as it is when it comes from a Python string), the first call is
about the live message and the last about the die message. -/
theorem C114_ends_partial (cfg : Cfg) (hfd : cfg.fdOk = true) (p : PS) (hr : PReach cfg p) (ha : p.attr = false)
    (hu : Spec.Bind.utf8 (upToNul cfg.path) = true) :
    ∃ a d first mids last, p.told = first :: mids ++ [last] ∧ SamePy (liveMsg cfg.path a) first ∧ SamePy (dieMsg cfg.path d) last := by
  obtain ⟨⟨a, d, l, ⟨ms, h1, _⟩, h2⟩, _⟩ := C114_nothing_after_close_partial cfg hfd p hr ha
  subst h1
  generalize p.told = told at h2
  cases h2 with
  | missed r _ => exact absurd (readable_end hu a).1 r
  | @told _ f _ ps _ hs ht =>
    have split : ∀ (ms : List Ev) (ps : List Model.Bind.PyEvent), Heard (ms ++ [dieMsg cfg.path d]) ps →
        ∃ mids last, ps = mids ++ [last] ∧ SamePy (dieMsg cfg.path d) last := by
      intro ms
      induction ms with
      | nil =>
        intro ps h
        cases h with
        | missed r _ => exact absurd (readable_end hu d).2 r
        | told _ hs ht => cases ht; exact ⟨[], _, rfl, hs⟩
      | cons m ms ih =>
        intro ps h
        cases h with
        | missed _ ht => exact ih _ ht
        | told _ _ ht =>
          obtain ⟨mids, last, g1, g2⟩ := ih _ ht
          exact ⟨_ :: mids, last, by rw [g1]; rfl, g2⟩
    obtain ⟨mids, last, g1, g2⟩ := split ms ps ht
    exact ⟨a, d, f, mids, last, by rw [g1]; rfl, hs, g2⟩

private def upP : List PAct := lifeUp.map (fun a => .life a 5 6)
private def downP : List PAct := (lifeDown ++ lifeDtor).map (fun a => .life a 7 8)

private theorem ranP {o : Outcome (Option PS)} {p : PS → Prop} [DecidablePred p]
    (h : (match o with | .ok (some a) => decide (p a) | _ => false) = true) : ∃ a, o = .ok (some a) ∧ p a := by
  cases o with
  | ok a =>
    cases a with
    | none => cases h
    | some a => exact ⟨a, rfl, by simpa using h⟩
  | ub => cases h

/-- A `with` block that is left, a second `close`, and the deletion. -/
private theorem with_ran : ∃ p, prun Spec.Bind.utf8 cfgH (pnew cfgH) (upP ++ [.close] ++ downP ++ [.close, .del]) = .ok (some p) ∧
    p.attr = false ∧ p.alive = false ∧ p.told.length = 3 ∧ p.h.freed = true := ranP (by decide +kernel)

example : ∃ p, PReach cfgH p ∧ p.attr = false ∧ p.told.length = 3 ∧ Spec.Bind.utf8 (upToNul cfgH.path) = true := by
  obtain ⟨p, h1, h2, _, h3, _⟩ := with_ran
  exact ⟨p, ⟨_, h1⟩, h2, h3, by decide +kernel⟩

/-- A file whose name is the byte 255 is made. -/
private theorem lost_name : ∃ p, prun Spec.Bind.utf8 cfgH (pnew cfgH) (([Life.Act.w, .w, .w, .cbReturn, .wOpen [] .pending, .w, .w,
    .wWake [.ke [⟨[47, 100, 47, 255], .create, .file, none⟩] .pending], .w, .w, .cbReturn, .w, .w].map (fun a => PAct.life a 5 6))) = .ok (some p) ∧
    callbacks p.h.life.log = [liveMsg b!"/d" true, ⟨[47, 100, 47, 255], .create, .file, none⟩] ∧
    p.told = [⟨5, b!"s/self/live@/d", none, b!"create", b!"watcher"⟩] := ranP (by decide +kernel)

/-- C114 as stated is false of the code: the names are decoded as UTF-8, and where that fails the event is lost. -/
theorem C114_refuted : ¬ C114_full := by
  intro h
  obtain ⟨p, h1, h2, h3⟩ := lost_name
  have := h cfgH p ⟨_, h1⟩
  rw [h2, h3] at this
  cases this with
  | cons _ t => cases t

/-! ## C115 -/

/-- C115 in full: no use of a Python `Watch` by one thread (`with`, `close` any number of times, deletion) reaches
undefined behaviour. -/
def C115_full : Prop := ∀ (cfg : Cfg) (acts : List PAct) (m : String), prun Spec.Bind.utf8 cfg (pnew cfg) acts ≠ .ub m

/-- C115 as stated is false of the code: without descriptors for the stop signal, the object can be deleted while
the watcher's thread still runs. -/
theorem C115_refuted : ¬ C115_full := by
  intro h
  exact h cfgMute ([.del] ++ [Life.Act.o, .o, .o, .o, .w, .w, .w, .w, .w].map (fun a => .life a 1 1)) "callback of a deleted object" (by decide +kernel)

/-- C115 (partial: the stop signal works): as stated. -/
theorem C115_safe_partial (cfg : Cfg) (hfd : cfg.fdOk = true) (acts : List PAct) : ∃ o, prun Spec.Bind.utf8 cfg (pnew cfg) acts = .ok o := by
  cases h : prun Spec.Bind.utf8 cfg (pnew cfg) acts with
  | ok o => exact ⟨o, rfl⟩
  | ub m =>
    exfalso
    have main : ∀ (acts : List PAct) (p : PS), PInv cfg p → ∀ m, prun Spec.Bind.utf8 cfg p acts ≠ .ub m := by
      intro acts
      induction acts with
      | nil => intro p _ m hm; cases hm
      | cons a as ih =>
        intro p hi m hr
        simp only [prun] at hr
        cases hs : pstep Spec.Bind.utf8 cfg p a with
        | ub m' =>
          obtain ⟨h1, h2⟩ := pstep_ub hi hs
          obtain ⟨h3, h4⟩ := hi.dead h1
          have := (hi.let_go h4).2
          exact h2 (ended_of_rets hfd hi.h h3 (by intro h; rw [h] at this; cases this))
        | ok o =>
          rw [hs] at hr
          cases o with
          | none => simp only [Outcome.bind_ok] at hr; cases hr
          | some p1 => simp only [Outcome.bind_ok] at hr; exact ih p1 (pstep_inv hi hs) m hr
    exact main acts _ (pinv_new cfg) m h

/-- C115: the C function is called at most once for a Python object, whatever is called on the object. -/
theorem C115_closed_at_most_once (cfg : Cfg) (p : PS) (hr : PReach cfg p) : p.h.rets.length ≤ 1 := by
  have hi := pinv hr
  cases hC : p.h.inC with
  | true => rw [hi.one hC]; simp
  | false =>
    cases ha : p.attr with
    | true => rw [hi.held ha hC]; simp
    | false => exact Nat.le_of_eq (hi.let_go ha).2

example : ∃ p, prun Spec.Bind.utf8 cfgH (pnew cfgH) (upP ++ [.close] ++ downP ++ [.close, .del]) = .ok (some p) ∧ p.h.rets.length = 1 := by
  obtain ⟨p, h1, h2, _⟩ := with_ran
  exact ⟨p, h1, ((pinv ⟨_, h1⟩).let_go h2).2⟩

end Verif.Props
