import Verif.Lemmas.NodeLife2
import Verif.Props.Lifecycle
/-!
# A watch in Node.js over the two threads of a watch: C128 - C131
-/

namespace Verif.Props
open Verif Verif.Model Verif.Model.Life Verif.Model.Handle Verif.Model.NodeLife Verif.Spec Verif.Spec.Hd Verif.Spec.Node
open Verif.Lemmas.Life Verif.Lemmas.Handle Verif.Lemmas.NodeLife

private def cfgN : Cfg := { path := b!"/d", dirOk := true, fdOk := true }
/-- A process without descriptors left. -/
private def cfgDeaf : Cfg := { path := b!"/d", dirOk := true, fdOk := false }

/-- Node.js makes the text itself of UTF-8 (and we do not care what of other bytes). -/
private def same (s : Str) : Str := s

/-- The thread starts, reads a batch, and tells of it: 2 × n steps for n events. -/
private def upN (evs : List Ev) : List NAct :=
  ([Life.Act.w, .w, .w, .cbReturn, .wOpen [] .pending, .w, .w, .wWake [.ke evs .pending], .w] ++ (evs.flatMap fun _ => [Life.Act.w, .cbReturn]) ++
    [Life.Act.w, .w]).map (fun a => .life a 5 6)
/-- While JavaScript is in `close()`: the thread ends, then the object is deleted. -/
private def downN : List NAct :=
  [Life.Act.o, .o, .o, .o, .wWake [.il], .w, .w, .w, .w, .cbReturn, .w, .o, .o, .o, .o, .o].map (fun a => .life a 7 8)

private theorem ranN {o : Outcome (Option NS)} {p : NS → Prop} [DecidablePred p]
    (h : (match o with | .ok (some a) => decide (p a) | _ => false) = true) : ∃ a, o = .ok (some a) ∧ p a := by
  cases o with
  | ok a =>
    cases a with
    | none => cases h
    | some a => exact ⟨a, rfl, by simpa using h⟩
  | ub => cases h

private def fileN : Ev := ⟨b!"/d/f", .create, .file, none⟩

/-- `close()` is called inside the first callback, and returns true; the other events are told after it returned. -/
private def goodN : List NAct := upN [fileN] ++ [.take, .close] ++ downN ++ [.done, .take, .done, .take, .done, .close]

private theorem good_ran : ∃ n, nrun same cfgN (nnew cfgN) goodN = .ok (some n) ∧ n.js = .idle ∧ n.queue = [] ∧ n.copies = 0 ∧
    n.log = [.came (liveMsg b!"/d" true) 5, .came fileN 5, .told ⟨5, b!"s/self/live@/d", none, some b!"create", some b!"watcher"⟩,
      .closeCall, .came (dieMsg b!"/d" true) 7, .closeRet true, .returned,
      .told ⟨5, b!"/d/f", none, some b!"create", some b!"file"⟩, .returned,
      .told ⟨7, b!"s/self/die@/d", none, some b!"destroy", some b!"watcher"⟩, .returned, .closeCall, .closeRet false] :=
  ranN (by decide +kernel)

/-! ## C128 -/

/-- C128: whatever the schedule of the threads, what is observed has an explanation as a first-in-first-out queue with
1024 places: each event of the library waits for JavaScript, unless 1024 wait then (and only then it is lost); each call
of the user's callback is with the event that has waited longest, and shows it with the nearest double for its time, the
same names and the documented words. What waits in the end is what the next calls will show. -/
theorem C128_exact (text : Str → Str) (cfg : Cfg) (n : NS) (hr : NReach text cfg n) :
    ∃ wait lost, Story text n.log wait lost ∧ AllSame text wait n.queue := by
  obtain ⟨⟨w, x, h1, h2, _⟩, _⟩ := (ninv hr).tells
  exact ⟨w, x, h1, h2⟩

/-- C128: the events of the story are those of the library's callback (to which C10 - C13, C18, C20 and C79 apply), in order. -/
theorem C128_library_events (text : Str → Str) (cfg : Cfg) (n : NS) (hr : NReach text cfg n) :
    (cameOf n.log).map Prod.fst = callbacks n.h.life.log := (ninv hr).tells.same

/-- C128: what a story means: the events told and then those waiting are, in order, the events of the library without the
lost ones, and the explanation is the only one. -/
theorem C128_story_meaning (text : Str → Str) (log : List NObs) (wait lost : List (Ev × Int)) (h : Story text log wait lost) :
    (∃ told, AllSame text told (toldOf log) ∧ (told ++ wait).Sublist (cameOf log) ∧ lost.Sublist (cameOf log) ∧
      told.length + wait.length + lost.length = (cameOf log).length ∧ (lost = [] → told ++ wait = cameOf log)) ∧
    (∀ wait' lost', Story text log wait' lost' → wait' = wait ∧ lost' = lost) := by
  constructor
  · induction h with
    | start => exact ⟨[], .nil, by simp, by simp, rfl, by simp [cameOf]⟩
    | @kept l w x e t _ hl ih =>
      obtain ⟨k, h1, h2, h3, h4, h5⟩ := ih
      refine ⟨k, by simpa [toldOf_append, toldOf] using h1, ?_, ?_, ?_, ?_⟩
      · rw [cameOf_append, ← List.append_assoc]; exact h2.append (List.Sublist.refl _)
      · rw [cameOf_append]; exact h3.trans (List.sublist_append_left _ _)
      · simp [cameOf_append, cameOf]; omega
      · intro hx; simp [cameOf_append, cameOf, ← h5 hx]
    | @lost l w x e t _ hl ih =>
      obtain ⟨k, h1, h2, h3, h4, h5⟩ := ih
      refine ⟨k, by simpa [toldOf_append, toldOf] using h1, ?_, ?_, ?_, by simp⟩
      · rw [cameOf_append]; exact h2.trans (List.sublist_append_left _ _)
      · rw [cameOf_append]; exact h3.append (List.Sublist.refl _)
      · simp [cameOf_append, cameOf]; omega
    | @told l w x e t j _ hs ih =>
      obtain ⟨k, h1, h2, h3, h4, h5⟩ := ih
      refine ⟨k ++ [(e, t)], ?_, by simpa [cameOf_append, cameOf] using h2, by simpa [cameOf_append, cameOf] using h3, ?_, ?_⟩
      · simp only [toldOf_append, toldOf]; exact allSame_append h1 (.cons hs .nil)
      · simp [cameOf_append, cameOf] at h4 ⊢; omega
      · intro hx; simpa [cameOf_append, cameOf] using h5 hx
    | @aside l w x o _ ho ih =>
      have e1 : cameOf (l ++ [o]) = cameOf l := by rw [cameOf_append]; cases o <;> simp_all [cameOf, Aside]
      have e2 : toldOf (l ++ [o]) = toldOf l := by rw [toldOf_append]; cases o <;> simp_all [toldOf, Aside]
      rw [e1, e2]; exact ih
  · induction h with
    | start =>
      intro w' x' h'
      generalize hl : ([] : List NObs) = l at h'
      cases h' <;> simp_all
    | @kept l w x e t _ hlt ih =>
      intro w' x' h'
      generalize hl : l ++ [NObs.came e t] = l1 at h'
      cases h' with
      | start => simp at hl
      | kept h _ => obtain ⟨rfl, hb⟩ := List.append_inj' hl rfl; simp at hb; obtain ⟨rfl, rfl⟩ := hb; obtain ⟨rfl, rfl⟩ := ih _ _ h; exact ⟨rfl, rfl⟩
      | lost h hx => obtain ⟨rfl, hb⟩ := List.append_inj' hl rfl; obtain ⟨rfl, rfl⟩ := ih _ _ h; omega
      | told h _ => obtain ⟨rfl, hb⟩ := List.append_inj' hl rfl; simp at hb
      | aside h ha => obtain ⟨rfl, hb⟩ := List.append_inj' hl rfl; simp at hb; subst hb; exact ha.elim
    | @lost l w x e t _ hlt ih =>
      intro w' x' h'
      generalize hl : l ++ [NObs.came e t] = l1 at h'
      cases h' with
      | start => simp at hl
      | kept h hx => obtain ⟨rfl, hb⟩ := List.append_inj' hl rfl; obtain ⟨rfl, rfl⟩ := ih _ _ h; omega
      | lost h _ => obtain ⟨rfl, hb⟩ := List.append_inj' hl rfl; simp at hb; obtain ⟨rfl, rfl⟩ := hb; obtain ⟨rfl, rfl⟩ := ih _ _ h; exact ⟨rfl, rfl⟩
      | told h _ => obtain ⟨rfl, hb⟩ := List.append_inj' hl rfl; simp at hb
      | aside h ha => obtain ⟨rfl, hb⟩ := List.append_inj' hl rfl; simp at hb; subst hb; exact ha.elim
    | @told l w x e t j _ hs ih =>
      intro w' x' h'
      generalize hl : l ++ [NObs.told j] = l1 at h'
      cases h' with
      | start => simp at hl
      | kept h hx => obtain ⟨rfl, hb⟩ := List.append_inj' hl rfl; simp at hb
      | lost h _ => obtain ⟨rfl, hb⟩ := List.append_inj' hl rfl; simp at hb
      | told h _ => obtain ⟨rfl, hb⟩ := List.append_inj' hl rfl; obtain ⟨h1, rfl⟩ := ih _ _ h; simp at h1; exact ⟨h1.2, rfl⟩
      | aside h ha => obtain ⟨rfl, hb⟩ := List.append_inj' hl rfl; simp at hb; subst hb; exact ha.elim
    | @aside l w x o _ ho ih =>
      intro w' x' h'
      generalize hl : l ++ [o] = l1 at h'
      cases h' with
      | start => simp at hl
      | kept h hx => obtain ⟨rfl, hb⟩ := List.append_inj' hl rfl; simp at hb; subst hb; exact ho.elim
      | lost h _ => obtain ⟨rfl, hb⟩ := List.append_inj' hl rfl; simp at hb; subst hb; exact ho.elim
      | told h _ => obtain ⟨rfl, hb⟩ := List.append_inj' hl rfl; simp at hb; subst hb; exact ho.elim
      | aside h _ => obtain ⟨rfl, hb⟩ := List.append_inj' hl rfl; exact ih _ _ h

/-- C128: `close()` answers once for the library, and then false; when it has returned (and the stop signal works), the
library has told its whole story, which ends with the die message that agrees with the answer, and tells nothing more. -/
theorem C128_whole_story (text : Str → Str) (cfg : Cfg) (hfd : cfg.fdOk = true) (n : NS) (hr : NReach text cfg n) (b : Bool) (bs : List Bool)
    (hb : closeRets n.log = b :: bs) :
    (∀ x ∈ bs, x = false) ∧ (∃ live, Ended cfg.path live b ((cameOf n.log).map Prod.fst)) ∧
    ∀ acts n', nrun text cfg n acts = .ok (some n') → cameOf n'.log = cameOf n.log := by
  have hi := ninv hr
  have hset : n.set = false := by
    cases hx : n.set with
    | false => rfl
    | true => rw [(hi.calls.held hx).2.2] at hb; cases hb
  obtain ⟨_, hC, b', k, h1, h2⟩ := hi.calls.let_go hset
  rw [hb] at h2
  simp at h2
  obtain ⟨rfl, rfl⟩ := h2
  refine ⟨fun x hx => (List.mem_replicate.1 hx).2, ?_, ?_⟩
  · have hl : n.h.rets = Lemmas.Handle.rets n.h.life.log := by
      rcases hi.calls.h.out hC with ⟨_, _, h3, _⟩ | ⟨_, _, h3, _⟩ <;> exact h3
    have hx : ∃ b, Obs.closeRet b ∈ n.h.life.log := ⟨b, mem_rets.1 (by rw [← hl, h1]; exact List.mem_cons_self)⟩
    obtain ⟨a, d, k1, k2, _⟩ := C11_close_agrees_with_die cfg hfd n.h.life hi.calls.h.reach hx
    rw [hi.tells.same]
    have : d = b := by
      have k3 : true ∈ [b] ↔ d = true := by rw [← h1, hl, mem_rets]; exact k2
      cases b <;> cases d <;> simp at k3 <;> rfl
    exact ⟨a, this ▸ k1⟩
  · have fin : n.h.life.w = .finished := ended_of_rets hfd hi.calls.h hC (by simp [h1])
    have gen : ∀ (acts : List NAct) (n n' : NS), n.h.life.w = .finished → nrun text cfg n acts = .ok (some n') → cameOf n'.log = cameOf n.log := by
      intro acts
      induction acts with
      | nil => intro n n' _ h; simp only [nrun, Outcome.ok.injEq, Option.some.injEq] at h; rw [h]
      | cons a as ih =>
        intro n n' hw h
        simp only [nrun] at h
        cases hs : nstep text cfg n a with
        | ub m => rw [hs] at h; cases h
        | ok o =>
          rw [hs] at h
          cases o with
          | none => simp only [Outcome.bind_ok] at h; cases h
          | some n1 =>
            simp only [Outcome.bind_ok] at h
            have one : n1.h.life.w = .finished ∧ cameOf n1.log = cameOf n.log := by
              cases a with
              | life a now inner =>
                simp only [nstep] at hs
                split at hs
                · cases hs
                · cases hh : hstep cfg n.h (.life a) with
                  | ub m => rw [hh] at hs; cases hs
                  | ok o =>
                    rw [hh] at hs
                    cases o with
                    | none => simp only [Outcome.bind_ok] at hs; cases hs
                    | some h1 =>
                      simp only [Outcome.bind_ok, empty_of_finished hw hh, List.isEmpty_nil, Bool.not_true, Bool.false_and,
                        Bool.false_eq_true, if_false, List.foldl_nil, pure, Outcome.ok.injEq, Option.some.injEq] at hs
                      subst hs
                      have hf := (finished_hstep hw hh).1
                      simp only [NodeLife.back]
                      split
                      · split
                        · exact ⟨hf, rfl⟩
                        · exact ⟨hf, by simp [cameOf_append, cameOf]⟩
                      · exact ⟨hf, rfl⟩
              | take =>
                simp only [nstep] at hs
                split at hs
                · simp at hs; subst hs; exact ⟨hw, by simp [cameOf_append, cameOf]⟩
                · simp at hs
              | done =>
                simp only [nstep] at hs
                split at hs
                · simp at hs; subst hs; exact ⟨hw, by simp [cameOf_append, cameOf]⟩
                · simp at hs
              | close =>
                simp only [nstep] at hs
                split at hs
                · simp at hs
                · split at hs
                  · simp at hs; subst hs; exact ⟨hw, by simp [cameOf_append, cameOf]⟩
                  · split at hs
                    · cases hs
                    · cases hh : hstep cfg n.h .close with
                      | ub m => rw [hh] at hs; cases hs
                      | ok o =>
                        rw [hh] at hs
                        cases o with
                        | none => simp only [Outcome.bind_ok] at hs; cases hs
                        | some h1 =>
                          simp only [Outcome.bind_ok, pure, Outcome.ok.injEq, Option.some.injEq] at hs
                          subst hs
                          exact ⟨(finished_hstep hw hh).1, by simp [cameOf_append, cameOf]⟩
            rw [ih n1 n' one.1 h, one.2]
    exact fun acts n' h => gen acts n n' fin h

/-- Met: a watch that is closed from inside the callback (which returns true), and once more. -/
example : ∃ n, NReach same cfgN n ∧ closeRets n.log = [true, false] ∧ (cameOf n.log).length = 3 ∧ (toldOf n.log).length = 3 := by
  obtain ⟨n, h1, _, _, _, h2⟩ := good_ran
  exact ⟨n, ⟨_, h1⟩, by rw [h2]; rfl, by rw [h2]; rfl, by rw [h2]; rfl⟩

/-! ## C129 -/

/-- C129: when files are not changed any more, the threads inside the library can make only so many steps before a `close()`
returns - a number known in advance, plus two for each warning while opening. It does not matter whether `close()` was called
inside the callback of the user. -/
theorem C129_close_is_bounded (text : Str → Str) (cfg : Cfg) (n : NS) (hr : NReach text cfg n) (hc : InClose n) :
    ∃ bound, ∀ acts n', (∀ a ∈ acts, QuietN a) → nrun text cfg n acts = .ok (some n') → InClose n' →
      acts.length ≤ bound + (acts.map openCostN).sum := by
  have gen : ∀ (acts : List NAct) (n n' : NS), NInv text cfg n → (∀ a ∈ acts, QuietN a) → nrun text cfg n acts = .ok (some n') →
      (InClose n → InClose n' → acts.length ≤ cost n.h.life.w + oCost n.h.life.o + (acts.map openCostN).sum) ∧
      (n.set = false → n'.set = false) := by
    intro acts
    induction acts with
    | nil => intro n n' _ _ h; simp only [nrun, Outcome.ok.injEq, Option.some.injEq] at h; subst h; simp
    | cons a as ih =>
      intro n n' hi hq h
      simp only [nrun] at h
      cases hs : nstep text cfg n a with
      | ub m => rw [hs] at h; cases h
      | ok o =>
        rw [hs] at h
        cases o with
        | none => simp only [Outcome.bind_ok] at h; cases h
        | some n1 =>
          simp only [Outcome.bind_ok] at h
          have hi1 := nstep_inv hi hs
          obtain ⟨g1, g2⟩ := ih n1 n' hi1 (fun b hb => hq b (List.mem_cons_of_mem _ hb)) h
          have hx : (n.set = false → n1.set = false) ∧ (InClose n → (n1.set = false ∨
              (InClose n1 ∧ 1 + (cost n1.h.life.w + oCost n1.h.life.o) ≤ cost n.h.life.w + oCost n.h.life.o + openCostN a))) := by
            cases a with
            | life a now inner =>
              have hqa : Quiet a := hq _ List.mem_cons_self
              simp only [nstep] at hs
              split at hs
              · cases hs
              · cases hh : hstep cfg n.h (.life a) with
                | ub m => rw [hh] at hs; cases hs
                | ok o =>
                  rw [hh] at hs
                  cases o with
                  | none => simp only [Outcome.bind_ok] at hs; cases hs
                  | some h1 =>
                    simp only [Outcome.bind_ok] at hs
                    split at hs
                    · cases hs
                    · simp only [pure, Outcome.ok.injEq, Option.some.injEq] at hs
                      have hcost := quiet_hstep hi.calls.h hqa hh
                      obtain ⟨b1, b2, b3, _, _⟩ := bridges_same text now inner (newCbs n.h.life.log h1.life.log) { n with h := h1 }
                      generalize (newCbs n.h.life.log h1.life.log).foldl (bridge text now inner) { n with h := h1 } = m at hs b1 b2 b3
                      simp only at b1 b2 b3
                      subst hs
                      simp only [NodeLife.back]
                      split
                      · rename_i f hf
                        split
                        · exact ⟨fun g => b2.trans g, fun _ => .inr ⟨⟨f, hf⟩, by rw [b1]; exact hcost⟩⟩
                        · exact ⟨fun _ => rfl, fun _ => .inl rfl⟩
                      · rename_i hne
                        exact ⟨fun g => b2.trans g, fun ⟨f, hf⟩ => absurd (b3.trans hf) (hne f)⟩
            | take =>
              simp only [nstep] at hs
              split at hs
              · rename_i hj _; simp at hs; subst hs; exact ⟨id, fun ⟨f, hf⟩ => by rw [hj] at hf; cases hf⟩
              · simp at hs
            | done =>
              simp only [nstep] at hs
              split at hs
              · rename_i hj; simp at hs; subst hs; exact ⟨id, fun ⟨f, hf⟩ => by rw [hj] at hf; cases hf⟩
              · simp at hs
            | close =>
              simp only [nstep] at hs
              split at hs
              · simp at hs
              · rename_i hne
                refine ⟨fun g => ?_, fun ⟨f, hf⟩ => absurd hf (hne f)⟩
                rw [if_pos (by simp [g])] at hs
                simp at hs; subst hs; exact g
          refine ⟨fun hc hc' => ?_, fun g => g2 (hx.1 g)⟩
          rcases hx.2 hc with k | ⟨k1, k2⟩
          · -- `close()` has returned for good
            exfalso
            have hset := g2 k
            have := (nrun_inv as n1 n' hi1 h).calls.let_go hset
            have hb := (nrun_inv as n1 n' hi1 h).calls.busy.2 hc'
            rw [this.2.1] at hb; cases hb
          · have := g1 k1 hc'
            simp only [List.length_cons, List.map_cons, List.sum_cons]
            omega
  exact ⟨_, fun acts n' hq h hc' => (gen acts n n' (ninv hr) hq h).1 hc hc'⟩

/-- C129: and it is never stuck, even without a working stop signal: some thread of the library can always go on, until `close()` has returned.
(In C++, calling `close()` inside the callback hangs, C16.) -/
theorem C129_never_stuck (text : Str → Str) (cfg : Cfg) (n : NS) (hr : NReach text cfg n) (hc : InClose n) (now inner : Int) :
    ∃ a n', QuietN (.life a now inner) ∧ openCostN (.life a now inner) = 0 ∧ nstep text cfg n (.life a now inner) = .ok (some n') := by
  have hi := ninv hr
  have hC := hi.calls.busy.2 hc
  obtain ⟨a, h', h1, _, h3, h4⟩ := hclose_progress hi.calls.h hC hi.calls.plain
  have hfr : n.freed = false := by
    cases hx : n.set with
    | true => exact (hi.calls.held hx).1
    | false => have := (hi.calls.let_go hx).2.1; rw [this] at hC; cases hC
  have hne : a ≠ .cbClose := fun e => by rw [e] at h1; exact h1
  refine ⟨a, NodeLife.back ((newCbs n.h.life.log h'.life.log).foldl (bridge text now inner) { n with h := h' }), h1, h3, ?_⟩
  simp only [nstep, if_neg hne, h4, Outcome.bind_ok, hfr, Bool.and_false, Bool.false_eq_true, if_false]
  rfl

/-- C129: so there is a way to the end, and there `close()` has returned an answer. -/
theorem C129_close_returns (text : Str → Str) (cfg : Cfg) (n : NS) (hr : NReach text cfg n) (hc : InClose n) :
    ∃ acts n', (∀ a ∈ acts, QuietN a) ∧ nrun text cfg n acts = .ok (some n') ∧ ¬ InClose n' ∧ closeRets n'.log ≠ [] := by
  have gen : ∀ (k : Nat) (n : NS), cost n.h.life.w + oCost n.h.life.o ≤ k → NReach text cfg n → InClose n →
      ∃ acts n', (∀ a ∈ acts, QuietN a) ∧ nrun text cfg n acts = .ok (some n') ∧ ¬ InClose n' := by
    intro k
    induction k with
    | zero =>
      intro n hk hr hc
      exfalso
      obtain ⟨a, n', h1, h2, h3⟩ := C129_never_stuck text cfg n hr hc 0 0
      have hi := ninv hr
      simp only [nstep] at h3
      split at h3
      · cases h3
      · cases hh : hstep cfg n.h (.life a) with
        | ub m => rw [hh] at h3; cases h3
        | ok o =>
          rw [hh] at h3
          cases o with
          | none => simp only [Outcome.bind_ok] at h3; cases h3
          | some h1' => have := quiet_hstep hi.calls.h h1 hh; simp [openCostN] at h2; omega
    | succ k ih =>
      intro n hk hr hc
      obtain ⟨a, n1, h1, h2, h3⟩ := C129_never_stuck text cfg n hr hc 0 0
      have hr1 : NReach text cfg n1 := by
        obtain ⟨acts, hacts⟩ := hr
        refine ⟨acts ++ [.life a 0 0], ?_⟩
        have app : ∀ (x : List NAct) (m : NS), nrun text cfg m x = .ok (some n) → nrun text cfg m (x ++ [.life a 0 0]) = .ok (some n1) := by
          intro x
          induction x with
          | nil => intro m hm; simp only [nrun, Outcome.ok.injEq, Option.some.injEq] at hm; subst hm; simp [nrun, h3]
          | cons y ys ihx =>
            intro m hm
            simp only [nrun, List.cons_append] at hm ⊢
            cases hs : nstep text cfg m y with
            | ub e => rw [hs] at hm; cases hm
            | ok o =>
              rw [hs] at hm
              cases o with
              | none => simp only [Outcome.bind_ok] at hm; cases hm
              | some m1 => simp only [Outcome.bind_ok] at hm ⊢; exact ihx m1 hm
        exact app acts _ hacts
      by_cases hc1 : InClose n1
      · have hcost : cost n1.h.life.w + oCost n1.h.life.o ≤ k := by
          have hi := ninv hr
          simp only [nstep] at h3
          split at h3
          · cases h3
          · cases hh : hstep cfg n.h (.life a) with
            | ub m => rw [hh] at h3; cases h3
            | ok o =>
              rw [hh] at h3
              cases o with
              | none => simp only [Outcome.bind_ok] at h3; cases h3
              | some h1' =>
                have hq := quiet_hstep hi.calls.h h1 hh
                simp only [Outcome.bind_ok] at h3
                split at h3
                · cases h3
                · simp only [pure, Outcome.ok.injEq, Option.some.injEq] at h3
                  obtain ⟨b1, _⟩ := bridges_same text 0 0 (newCbs n.h.life.log h1'.life.log) { n with h := h1' }
                  have : n1.h = h1' := by
                    rw [← h3]
                    simp only [NodeLife.back]
                    split
                    · split
                      · exact b1
                      · exact b1
                    · exact b1
                  rw [this]; simp [openCostN] at h2; omega
        obtain ⟨acts, n', k1, k2, k3⟩ := ih n1 hcost hr1 hc1
        refine ⟨.life a 0 0 :: acts, n', ?_, by simp [nrun, h3, k2], k3⟩
        intro b hb
        rcases List.mem_cons.1 hb with rfl | hb
        · exact h1
        · exact k1 b hb
      · exact ⟨[.life a 0 0], n1, by intro b hb; simp at hb; subst hb; exact h1, by simp [nrun, h3], hc1⟩
  obtain ⟨acts, n', h1, h2, h3⟩ := gen _ n (Nat.le_refl _) hr hc
  refine ⟨acts, n', h1, h2, h3, ?_⟩
  have hi' := nrun_inv acts n n' (ninv hr) h2
  have hset : n'.set = false := by
    -- a call that has ended has let go
    have keep : ∀ (acts : List NAct) (m m' : NS), NInv text cfg m → nrun text cfg m acts = .ok (some m') → (m.set = false ∨ InClose m) →
        (m'.set = false ∨ InClose m') := by
      intro acts
      induction acts with
      | nil => intro m m' _ hm; simp only [nrun, Outcome.ok.injEq, Option.some.injEq] at hm; subst hm; exact id
      | cons a as ih =>
        intro m m' hi hm hor
        simp only [nrun] at hm
        cases hs : nstep text cfg m a with
        | ub e => rw [hs] at hm; cases hm
        | ok o =>
          rw [hs] at hm
          cases o with
          | none => simp only [Outcome.bind_ok] at hm; cases hm
          | some m1 =>
            simp only [Outcome.bind_ok] at hm
            refine ih m1 m' (nstep_inv hi hs) hm ?_
            cases a with
            | life a now inner =>
              simp only [nstep] at hs
              split at hs
              · cases hs
              · cases hh : hstep cfg m.h (.life a) with
                | ub e => rw [hh] at hs; cases hs
                | ok o =>
                  rw [hh] at hs
                  cases o with
                  | none => simp only [Outcome.bind_ok] at hs; cases hs
                  | some h1 =>
                    simp only [Outcome.bind_ok] at hs
                    split at hs
                    · cases hs
                    · simp only [pure, Outcome.ok.injEq, Option.some.injEq] at hs
                      obtain ⟨_, b2, b3, _, _⟩ := bridges_same text now inner (newCbs m.h.life.log h1.life.log) { m with h := h1 }
                      generalize (newCbs m.h.life.log h1.life.log).foldl (bridge text now inner) { m with h := h1 } = k at hs b2 b3
                      simp only at b2 b3
                      subst hs
                      simp only [NodeLife.back]
                      split
                      · rename_i f hf
                        split
                        · exact .inr ⟨f, hf⟩
                        · exact .inl rfl
                      · rename_i hne
                        rcases hor with g | ⟨f, g⟩
                        · exact .inl (b2.trans g)
                        · exact absurd (b3.trans g) (hne f)
            | take =>
              simp only [nstep] at hs
              split at hs
              · rename_i hj _; simp at hs; subst hs
                rcases hor with g | ⟨f, g⟩
                · exact .inl g
                · rw [hj] at g; cases g
              · simp at hs
            | done =>
              simp only [nstep] at hs
              split at hs
              · rename_i hj; simp at hs; subst hs
                rcases hor with g | ⟨f, g⟩
                · exact .inl g
                · rw [hj] at g; cases g
              · simp at hs
            | close =>
              simp only [nstep] at hs
              split at hs
              · simp at hs
              · rename_i hne
                rcases hor with g | ⟨f, g⟩
                · rw [if_pos (by simp [g])] at hs
                  simp at hs; subst hs; exact .inl g
                · exact absurd g (hne f)
    rcases keep acts n n' (ninv hr) h2 (.inr hc) with g | g
    · exact g
    · exact absurd g h3
  obtain ⟨_, _, b, k, _, h5⟩ := hi'.calls.let_go hset
  rw [h5]; simp

/-- Met: `close()` is called inside the callback. -/
example : ∃ n, NReach same cfgN n ∧ InClose n ∧ n.js = .closing true := by
  obtain ⟨n, h1, h2⟩ : ∃ n, nrun same cfgN (nnew cfgN) (upN [fileN] ++ [.take, .close]) = .ok (some n) ∧ n.js = .closing true :=
    ranN (by decide +kernel)
  exact ⟨n, ⟨_, h1⟩, ⟨_, h2⟩, h2⟩

/-! ## C130 -/

/-- C130: the copies of events that are allocated at any time are those that wait, the one the callback is running with,
and those of all events lost so far; so when nothing waits and nothing runs, exactly the copies of the lost events are
still allocated (nobody will ever free them). -/
theorem C130_copies (text : Str → Str) (cfg : Cfg) (n : NS) (hr : NReach text cfg n) :
    ∃ wait lost, Story text n.log wait lost ∧ (n.queue = [] ↔ wait = []) ∧
      (n.js = .idle → n.copies = wait.length + lost.length) ∧ (n.js = .inCb → n.copies = wait.length + lost.length + 1) := by
  obtain ⟨⟨w, x, h1, h2, h3⟩, _⟩ := (ninv hr).tells
  have hl := allSame_length h2
  refine ⟨w, x, h1, ?_, fun h => by simpa [h, running] using h3, fun h => by simpa [h, running] using h3⟩
  rw [← List.length_eq_zero_iff, ← List.length_eq_zero_iff, hl]

/-- C130 in full: when nothing waits and no callback runs, every copy was freed. -/
def C130_all_freed : Prop := ∀ (text : Str → Str) (cfg : Cfg) (n : NS), NReach text cfg n → n.js = .idle → n.queue = [] → n.copies = 0

/-- One change of a file, from one wait to the next. -/
private def oneN : List NAct := [Life.Act.wWake [.ke [fileN] .pending], .w, .w, .cbReturn, .w, .w].map (fun a => .life a 5 6)

private def oneJ : Bind.JsEvent := jsOf same 5 6 fileN

private theorem nrun_append (text : Str → Str) (cfg : Cfg) (n m : NS) (a b : List NAct) (h : nrun text cfg n a = .ok (some m)) :
    nrun text cfg n (a ++ b) = nrun text cfg m b := by
  induction a generalizing n with
  | nil => simp only [nrun, Outcome.ok.injEq, Option.some.injEq] at h; subst h; rfl
  | cons x a ih =>
    simp only [List.cons_append, nrun] at h ⊢
    cases hs : nstep text cfg n x with
    | ub e => rw [hs] at h; cases h
    | ok o =>
      rw [hs] at h
      cases o with
      | none => cases h
      | some k => simp only [Outcome.bind_ok] at h ⊢; exact ih k h

/-- A watch that waits for changes. -/
private def waitN (l : List Obs) (q : List Bind.JsEvent) (c : Nat) (log : List NObs) : NS :=
  { h := { life := { sb := { fdOk := true }, w := .aWait false, log := l } }, queue := q, copies := c, log := log }

private theorem newCbs_one (l : List Obs) (e : Ev) : newCbs l (l ++ [.cb e]) = [e] := by
  simp [newCbs]

private theorem one_ran (l q c log) : nrun same cfgN (waitN l q c log) oneN =
    .ok (some (waitN (l ++ [.cb fileN]) (if q.length < 1024 then q ++ [oneJ] else q) (c + 1) (log ++ [.came fileN 5]))) := by
  have h0 : ∀ l : List Obs, newCbs l l = [] := fun l => by simp [newCbs]
  have h1 : itemsOk [.ke [fileN] .pending] = true ∧ hasIl [.ke [fileN] .pending] = false := by decide
  simp [oneN, nrun, nstep, hstep, inner, Life.step, wStep, waitN, settle, h0, newCbs_one, NodeLife.back, h1, callCb, Result.keepsRunning,
    bridge, oneJ, Bind.queueMax, cfgN]
  exact ⟨by decide, rfl⟩

private theorem many_ran (k : Nat) : ∀ (l q c log), q.length ≤ 1024 → ∃ l' q' log',
    nrun same cfgN (waitN l q c log) (List.replicate k oneN).flatten = .ok (some (waitN l' q' (c + k) log')) ∧ q'.length = min 1024 (q.length + k) := by
  induction k with
  | zero => intro l q c log h; exact ⟨l, q, log, rfl, by omega⟩
  | succ k ih =>
    intro l q c log h
    simp only [List.replicate_succ, List.flatten_cons]
    rw [nrun_append _ _ _ _ _ _ (one_ran l q c log)]
    split
    · obtain ⟨l', q', log', g1, g2⟩ := ih (l ++ [.cb fileN]) (q ++ [oneJ]) (c + 1) (log ++ [.came fileN 5]) (by simp; omega)
      refine ⟨l', q', log', ?_, ?_⟩
      · rw [g1]; congr 3; omega
      · rw [g2]; simp; omega
    · obtain ⟨l', q', log', g1, g2⟩ := ih (l ++ [.cb fileN]) q (c + 1) (log ++ [.came fileN 5]) h
      refine ⟨l', q', log', ?_, ?_⟩
      · rw [g1]; congr 3; omega
      · rw [g2]; omega

private theorem drain_ran (k : Nat) : ∀ (l q c log), q.length = k → ∃ log',
    nrun same cfgN (waitN l q c log) (List.replicate k [NAct.take, .done]).flatten = .ok (some (waitN l [] (c - k) log')) := by
  induction k with
  | zero => intro l q c log h; have : q = [] := List.length_eq_zero_iff.mp h; subst this; exact ⟨log, rfl⟩
  | succ k ih =>
    intro l q c log h
    cases q with
    | nil => simp at h
    | cons j q =>
      obtain ⟨log', g⟩ := ih l q (c - 1) (log ++ [.told j] ++ [.returned]) (by simpa using h)
      refine ⟨log', ?_⟩
      simp only [List.replicate_succ, List.flatten_cons]
      have : nrun same cfgN (waitN l (j :: q) c log) [NAct.take, .done] = .ok (some (waitN l q (c - 1) (log ++ [.told j] ++ [.returned]))) := rfl
      rw [nrun_append _ _ _ _ _ _ this, g]
      congr 3; omega

private theorem start_ran : ∃ l log, nrun same cfgN (nnew cfgN)
      ([Life.Act.w, .w, .w, .cbReturn, .wOpen [] .pending, .w, .w].map (fun a => .life a 5 6)) =
    .ok (some (waitN l [jsOf same 5 6 (liveMsg b!"/d" true)] 1 log)) := by
  exact ⟨[.cb (liveMsg b!"/d" true)], [.came (liveMsg b!"/d" true) 5], by decide +kernel⟩

/-- The full claim is refuted: `1023 + k` files are changed while JavaScript is busy, and then JavaScript takes all 1024 events that wait
(the first is the live message): `k` copies are never freed. -/
theorem C130_burst (k : Nat) : ∃ text cfg n, NReach text cfg n ∧ n.js = .idle ∧ n.queue = [] ∧ n.copies = k := by
  obtain ⟨l, log, h1⟩ := start_ran
  obtain ⟨l', q', log', h2, h3⟩ := many_ran (1023 + k) l [jsOf same 5 6 (liveMsg b!"/d" true)] 1 log (by simp)
  have h3' : q'.length = 1024 := by simp at h3; omega
  obtain ⟨log'', h4⟩ := drain_ran 1024 l' q' (1 + (1023 + k)) log' h3'
  refine ⟨same, cfgN, _, ⟨_, (nrun_append _ _ _ _ _ _ h1).trans ((nrun_append _ _ _ _ _ _ h2).trans h4)⟩, rfl, rfl, ?_⟩
  simp only [waitN]; omega

theorem C130_refuted : ¬ C130_all_freed := by
  intro h
  obtain ⟨text, cfg, n, h1, h2, h3, h4⟩ := C130_burst 1
  have := h text cfg n h1 h2 h3
  omega

/-! ## C131 -/

/-- The full claim: nothing JavaScript and the watcher's thread do together is undefined. -/
def C131_full : Prop := ∀ (text : Str → Str) (cfg : Cfg) (acts : List NAct) (m : String), nrun text cfg (nnew cfg) acts ≠ .ub m

/-- In a process without descriptors the stop signal cannot be written: `close()` frees what the watcher's thread uses next. -/
theorem C131_refuted : ¬ C131_full := fun h =>
  h same cfgDeaf ([.close] ++ [Life.Act.o, .o, .o, .o, .w, .w, .w, .w, .w].map (fun a => .life a 0 0)) "callback_bridge on a freed watcher_lifetime"
    (by decide +kernel)

/-- With a working stop signal no step is undefined. -/
theorem nstep_safe {text : Str → Str} {cfg : Cfg} (hfd : cfg.fdOk = true) {n : NS} (hi : NInv text cfg n) (a : NAct) (m : String) :
    nstep text cfg n a ≠ .ub m := by
  intro hs
  cases a with
  | life a now inner =>
    simp only [nstep] at hs
    split at hs
    · cases hs
    · cases hh : hstep cfg n.h (.life a) with
      | ub m' => exact absurd (hstep_ub hh).1 (by simp)
      | ok o =>
        rw [hh] at hs
        cases o with
        | none => simp only [Outcome.bind_ok] at hs; cases hs
        | some h1 =>
          simp only [Outcome.bind_ok] at hs
          split at hs
          · rename_i hx
            simp only [Bool.and_eq_true, Bool.not_eq_true'] at hx
            have hset : n.set = false := by
              cases hz : n.set with
              | false => rfl
              | true => rw [(hi.calls.held hz).1] at hx; simp at hx
            obtain ⟨_, hC, b, _, h1', _⟩ := hi.calls.let_go hset
            have fin := ended_of_rets hfd hi.calls.h hC (by simp [h1'])
            rw [empty_of_finished fin hh] at hx
            simp at hx
          · cases hs
  | take => simp only [nstep] at hs; split at hs <;> cases hs
  | done => simp only [nstep] at hs; split at hs <;> cases hs
  | close =>
    simp only [nstep] at hs
    split at hs
    · cases hs
    · rename_i hne
      split at hs
      · cases hs
      · rename_i hset
        simp at hset
        obtain ⟨k1, k2, _⟩ := hi.calls.held hset
        rw [if_neg (by simp [k1])] at hs
        cases hh : hstep cfg n.h .close with
        | ub m' =>
          obtain ⟨_, hC, hF⟩ := hstep_ub hh
          rcases hi.calls.h.out hC with ⟨j1, _⟩ | ⟨_, _, _, l, j4, _⟩
          · rw [j1] at hF; cases hF
          · rw [k2] at j4; simp at j4
        | ok o =>
          rw [hh] at hs
          cases o <;> (simp only [Outcome.bind_ok] at hs; cases hs)

/-- C131 (partial: the stop signal works): no schedule is undefined, wherever and however often JavaScript calls `close()`. -/
theorem C131_safe_partial (text : Str → Str) (cfg : Cfg) (hfd : cfg.fdOk = true) (acts : List NAct) :
    ∃ o, nrun text cfg (nnew cfg) acts = .ok o := by
  have gen : ∀ (acts : List NAct) (n : NS), NInv text cfg n → ∃ o, nrun text cfg n acts = .ok o := by
    intro acts
    induction acts with
    | nil => intro n _; exact ⟨_, rfl⟩
    | cons a as ih =>
      intro n hi
      simp only [nrun]
      cases hs : nstep text cfg n a with
      | ok o =>
        cases o with
        | none => exact ⟨none, rfl⟩
        | some n1 => simp only [Outcome.bind_ok]; exact ih n1 (nstep_inv hi hs)
      | ub m =>
        exact absurd hs (nstep_safe hfd hi a m)
  exact gen acts _ (ninv_new text cfg)

example : cfgN.fdOk = true ∧ ∃ n, nrun same cfgN (nnew cfgN) goodN = .ok (some n) := ⟨rfl, let ⟨n, h, _⟩ := good_ran; ⟨n, h⟩⟩

end Verif.Props
