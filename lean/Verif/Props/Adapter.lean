import Verif.Lemmas.Adapter3
import Verif.Props.Lifecycle
import Verif.Props.Kernel
import Verif.Props.Fanotify
/-!
# A whole watch on Linux: C79 - C81, and C10, C11, C20 of the real back ends

`CReach cfg E c` ranges over every interleaving of owner, worker and callback, every answer of the system
calls (`E`, `CAct`), and every activity of other processes.
-/

namespace Verif.Props
open Verif Verif.Model Verif.Model.Ad Verif.Spec Verif.Lemmas.Ad Verif.Lemmas.Life

/-! ## A watch used as witness -/

private def cfgA : Life.Cfg := { path := b!"/r", dirOk := true, fdOk := true }
private def envA : Env Ker.World where
  fa := { realpath := fun w _ => (none, w), isDir := fun w _ => (false, w), mark := fun w _ => (false, w),
          openByHandle := fun w _ => ((-1, 116), w), readlink := fun w _ => (none, w), rightFirst := false }
  inn := Ker.sys

/-- Start; live message; no fanotify; inotify on `/r`. -/
private def begin_ : List Whole.HStep :=
  [.thread .w, .thread .w, .thread .w, .thread .cbReturn, .noFanotify false, .thread .w, .thread .w, .thread .w,
   .openInotify ⟨false, 5, [b!"/r"], ⟨6, true, true⟩⟩ [], .thread .w, .thread .w]

/-- A file is made and another renamed, both are read and delivered; then the owner closes. -/
private def whole_ : List Whole.HStep :=
  begin_ ++ [.op (.create b!"/r" b!"a"), .op (.rename b!"/r" b!"b" b!"c" 7#32), .wakeRead 3 [], .thread .w, .thread .w,
    .thread .cbReturn, .thread .w, .thread .cbReturn, .thread .w, .thread .w,
    .thread .oClose, .thread .o, .thread .o, .thread .o, .wakeStop, .thread .w, .thread .w, .thread .w, .thread .w,
    .thread .cbReturn, .thread .w, .thread .o, .thread .o]

/-- For concrete runs. -/
private theorem ran {o : Outcome (Option (CS Ker.World))} {p : CS Ker.World → Prop} [DecidablePred p]
    (h : (match o with | .ok (some a) => decide (p a) | _ => false) = true) : ∃ a, o = .ok (some a) ∧ p a := by
  cases o with
  | ok a =>
    cases a with
    | none => cases h
    | some a => exact ⟨a, rfl, by simpa using h⟩
  | ub => cases h

private def evA : Ev := ⟨b!"/r/a", .create, .file, none⟩
private def evBC : Ev := ⟨b!"/r/b", .rename, .file, some ⟨b!"/r/c", .rename, .file⟩⟩

private theorem whole_ran : ∃ c, Whole.hrun cfgA envA (Whole.start cfgA [b!"/r"]) whole_ = .ok (some c) ∧
    c.life.w = .finished ∧ c.life.log = [.cb (liveMsg b!"/r" true), .cb evA, .cb evBC, .closeCall,
      .cb (dieMsg b!"/r" true), .closeRet true] ∧ handed c = [evA, evBC] ∧ c.back.world.k.queue = [] :=
  ran (by decide +kernel)

/-! ## C79 -/

/-- C79, at the end: the callback has received the live message, everything the back end handed over, in
order, each once, possibly one error announcement, and the die message; or, when the watch could not begin,
only the two messages. -/
theorem C79_nothing_lost {σ} (cfg : Life.Cfg) (E : Env σ) (c : CS σ) (h : CReach cfg E c) (hw : c.life.w = .finished) :
    (handed c = [] ∧ callbacks c.life.log = [liveMsg cfg.path false, dieMsg cfg.path false]) ∨
    callbacks c.life.log = liveMsg cfg.path true :: (handed c ++ [dieMsg cfg.path true]) ∨
    ∃ m, IsErrorMsg m ∧ callbacks c.life.log = liveMsg cfg.path true :: (handed c ++ [m, dieMsg cfg.path false]) := by
  have hA := (creach_ok h).1
  rw [hw] at hA
  simp only [Lemmas.Ad.Acc, Finished, liveEv_eq, dieEv_eq] at hA
  rcases hA with h1 | h1 | ⟨r, h1, h2⟩
  · exact .inl h1
  · exact .inr (.inl h1)
  · refine .inr (.inr ⟨_, ⟨rfl, ?_⟩, h2⟩)
    cases r <;> first | rfl | (exact absurd h1 (by decide))

/-- C79, whenever the watcher waits for the next change: everything handed over has been delivered. -/
theorem C79_caught_up {σ} (cfg : Life.Cfg) (E : Env σ) (c : CS σ) (h : CReach cfg E c) (second : Bool)
    (hw : c.life.w = .aWait second) : callbacks c.life.log = liveMsg cfg.path true :: handed c := by
  have hA := (creach_ok h).1
  rw [hw] at hA
  simp only [Lemmas.Ad.Acc, liveEv_eq] at hA
  exact hA.1

/-- C79, at any time: after the live message the callback has received a beginning of what the back end
handed over, and if anything follows it, then messages only and the beginning is all of it. -/
theorem C79_in_order {σ} (cfg : Life.Cfg) (E : Env σ) (c : CS σ) (h : CReach cfg E c) :
    callbacks c.life.log = [] ∨ ∃ ok got messages, callbacks c.life.log = liveMsg cfg.path ok :: (got ++ messages) ∧
      got <+: handed c ∧ (messages ≠ [] → got = handed c) ∧ messages.length ≤ 2 ∧ ∀ m ∈ messages, m.ptype = .watcher := by
  have hA := (creach_ok h).1
  have pre : ∀ {l x o : List Ev} {v : Ev}, l ++ x = v :: o → l = [] ∨ ∃ g, l = v :: g ∧ g <+: o := by
    intro l x o v h
    cases l with
    | nil => exact .inl rfl
    | cons a l => injection h with h1 h2; exact .inr ⟨l, by rw [h1], x, h2⟩
  have key : ∀ (w : Life.WPc) (l : List Ev) (b : Back σ), Lemmas.Ad.Acc cfg w l b → l = [] ∨ ∃ ok got messages,
      l = liveMsg cfg.path ok :: (got ++ messages) ∧
      got <+: b.out ∧ (messages ≠ [] → got = b.out) ∧ messages.length ≤ 2 ∧ ∀ m ∈ messages, m.ptype = .watcher := by
    have lift : ∀ {l : List Ev} {b : Back σ}, (l = [] ∨ ∃ g, l = liveMsg cfg.path true :: g ∧ g <+: b.out) →
        l = [] ∨ ∃ ok got messages, l = liveMsg cfg.path ok :: (got ++ messages) ∧
        got <+: b.out ∧ (messages ≠ [] → got = b.out) ∧ messages.length ≤ 2 ∧ ∀ m ∈ messages, m.ptype = .watcher := by
      intro l b h
      rcases h with h | ⟨g, h1, h2⟩
      · exact .inl h
      · exact .inr ⟨true, g, [], by simp [h1], h2, fun h => absurd rfl h, by simp, by simp⟩
    have fin : ∀ {l : List Ev} {b : Back σ}, Finished cfg l b.out → l = [] ∨ ∃ ok got messages,
        l = liveMsg cfg.path ok :: (got ++ messages) ∧
        got <+: b.out ∧ (messages ≠ [] → got = b.out) ∧ messages.length ≤ 2 ∧ ∀ m ∈ messages, m.ptype = .watcher := by
      intro l b h
      simp only [Finished, liveEv_eq, dieEv_eq] at h
      rcases h with ⟨h1, h2⟩ | h2 | ⟨r, h1, h2⟩
      · exact .inr ⟨false, [], [dieMsg cfg.path false], h2, List.nil_prefix, fun _ => h1.symm, by simp, by simp [dieMsg]⟩
      · exact .inr ⟨true, b.out, _, h2, List.prefix_refl _, fun _ => rfl, by simp, by simp [dieMsg]⟩
      · exact .inr ⟨true, b.out, _, h2, List.prefix_refl _, fun _ => rfl, by simp, by simp [dieMsg, sendMsg]⟩
    intro w
    induction w with
    | inCb n ih => exact ih
    | selfClose c n ih => exact ih
    | start => intro l b h; exact .inl h.1
    | stLoad => intro l b h; exact .inl h.1
    | stRead => intro l b h; exact .inl h.1
    | stStore v => intro l b h; exact .inl h.1
    | live p => intro l b h; exact .inl h.1
    | aOpen s =>
      intro l b h
      refine lift (.inr ⟨[], ?_, List.nil_prefix⟩)
      rw [← liveEv_eq]; exact h.1
    | aEvs s evs r items => intro l b h; have := h.1; rw [liveEv_eq] at this; exact lift (pre this)
    | aItems s r items => intro l b h; have := h.1; rw [liveEv_eq] at this; exact lift (pre this)
    | aWait s =>
      intro l b h; have := h.1; rw [liveEv_eq] at this
      exact lift (.inr ⟨_, this, List.prefix_refl _⟩)
    | aDone s r =>
      intro l b h; have := h.1; rw [liveEv_eq] at this
      exact lift (.inr ⟨_, this, List.prefix_refl _⟩)
    | die p q =>
      intro l b h
      cases p <;> cases q <;> simp only [Lemmas.Ad.Acc, liveEv_eq] at h
      · exact .inr ⟨false, [], [], h.2.1, List.nil_prefix, fun h => absurd rfl h, by simp, by simp⟩
      · cases h.1
      · obtain ⟨r, _, h2⟩ := h
        exact .inr ⟨true, b.out, _, h2, List.prefix_refl _, fun _ => rfl, by simp, by simp [sendMsg]⟩
      · exact lift (.inr ⟨_, h, List.prefix_refl _⟩)
    | setFut r => intro l b h; exact fin h
    | finished => intro l b h; exact fin h
  exact key _ _ _ hA

private theorem start_reach (cfg : Life.Cfg) (E : Env Ker.World) (dirs : List Str) : CReach cfg E (Whole.start cfg dirs) :=
  ⟨_, [], rfl⟩

/-- A watch that has delivered two events and is finished; one that waits; one in the middle of a batch. -/
example : ∃ c, CReach cfgA envA c ∧ c.life.w = .finished ∧ handed c = [evA, evBC] ∧
    callbacks c.life.log = [liveMsg b!"/r" true, evA, evBC, dieMsg b!"/r" true] := by
  obtain ⟨c, h1, h2, h3, h4, _⟩ := whole_ran
  exact ⟨c, hrun_reach (start_reach _ _ _) h1, h2, h4, by rw [h3]; rfl⟩

example : ∃ c, CReach cfgA envA c ∧ c.life.w = .aWait true ∧ handed c = [evA] ∧
    callbacks c.life.log = [liveMsg b!"/r" true, evA] := by
  have h : ∃ c, Whole.hrun cfgA envA (Whole.start cfgA [b!"/r"])
      (begin_ ++ [.op (.create b!"/r" b!"a"), .wakeRead 1 [], .thread .w, .thread .w, .thread .cbReturn, .thread .w, .thread .w]) = .ok (some c) ∧
      c.life.w = .aWait true ∧ handed c = [evA] ∧ callbacks c.life.log = [liveMsg b!"/r" true, evA] := ran (by decide +kernel)
  obtain ⟨c, h1, h2⟩ := h
  exact ⟨c, hrun_reach (start_reach _ _ _) h1, h2⟩

example : ∃ c, CReach cfgA envA c ∧ handed c = [evA, evBC] ∧ callbacks c.life.log = [liveMsg b!"/r" true, evA] := by
  have h : ∃ c, Whole.hrun cfgA envA (Whole.start cfgA [b!"/r"])
      (begin_ ++ [.op (.create b!"/r" b!"a"), .op (.rename b!"/r" b!"b" b!"c" 7#32), .wakeRead 3 [], .thread .w, .thread .w]) = .ok (some c) ∧
      handed c = [evA, evBC] ∧ callbacks c.life.log = [liveMsg b!"/r" true, evA] := ran (by decide +kernel)
  obtain ⟨c, h1, h2⟩ := h
  exact ⟨c, hrun_reach (start_reach _ _ _) h1, h2⟩

/-! ## The lifecycle properties hold of the real back ends -/

/-- C10 of the whole watch: with the fanotify and inotify back ends of the code, not with assumed ones. -/
theorem C10_linux_whole_watch {σ} (cfg : Life.Cfg) (E : Env σ) (c : CS σ) (h : CReach cfg E c) :
    (callbacks c.life.log = [] ∨ Begun cfg.path (callbacks c.life.log) ∨
      ∃ a b, Ended cfg.path a b (callbacks c.life.log)) ∧
    (c.life.w = .finished → ∃ a b, Ended cfg.path a b (callbacks c.life.log)) :=
  C10_live_first_die_last cfg c.life (creach_ok h).2

/-- C11 of the whole watch. -/
theorem C11_linux_whole_watch {σ} (cfg : Life.Cfg) (E : Env σ) (hfd : cfg.fdOk = true) (c : CS σ) (h : CReach cfg E c)
    (hc : ∃ b, Life.Obs.closeRet b ∈ c.life.log) :
    ∃ a d, Ended cfg.path a d (callbacks c.life.log) ∧ (Life.Obs.closeRet true ∈ c.life.log ↔ d = true) ∧
      (d = true → a = true) :=
  C11_close_agrees_with_die cfg hfd c.life (creach_ok h).2 hc

/-- C20 of the whole watch: what the back end handed over contains no error announcement, and an error is
announced exactly when the watch, having begun, ends with the result false. -/
theorem C20_linux_whole_watch {σ} (cfg : Life.Cfg) (E : Env σ) (c : CS σ) (h : CReach cfg E c) (hw : c.life.w = .finished) :
    (∀ m ∈ handed c, ¬ IsErrorMsg m) ∧
    ((c.life.fut = some true ∧ callbacks c.life.log = liveMsg cfg.path true :: (handed c ++ [dieMsg cfg.path true])) ∨
     (c.life.fut = some false ∧ handed c = [] ∧ callbacks c.life.log = [liveMsg cfg.path false, dieMsg cfg.path false]) ∨
     (c.life.fut = some false ∧ ∃ m, IsErrorMsg m ∧
       callbacks c.life.log = liveMsg cfg.path true :: (handed c ++ [m, dieMsg cfg.path false]))) := by
  have h1 := C20_error_announced_before_die cfg c.life (creach_ok h).2 hw
  have h2 := C79_nothing_lost cfg E c h hw
  have hl : liveMsg cfg.path true ≠ liveMsg cfg.path false := by simp [liveMsg]
  have hd : dieMsg cfg.path true ≠ dieMsg cfg.path false := by simp [dieMsg]
  rcases h2 with ⟨g1, g2⟩ | g2 | ⟨m, gm, g2⟩
  · refine ⟨by rw [g1]; simp, ?_⟩
    rcases h1 with ⟨k1, mids, k2, _⟩ | ⟨k1, _⟩ | ⟨k1, mids, r, k2, _⟩
    · rw [g2] at k2; injection k2 with k2 _; exact absurd k2.symm hl
    · exact .inr (.inl ⟨k1, g1, g2⟩)
    · rw [g2] at k2; injection k2 with k2 _; exact absurd k2.symm hl
  · rcases h1 with ⟨k1, mids, k2, k3⟩ | ⟨k1, k2⟩ | ⟨k1, mids, r, k2, _⟩
    · rw [g2] at k2; injection k2 with _ k2
      have := List.append_cancel_right k2
      exact ⟨by rw [this]; exact k3, .inl ⟨k1, g2⟩⟩
    · rw [g2] at k2; injection k2 with k2 _; exact absurd k2 hl
    · rw [g2] at k2
      injection k2 with _ k2
      have := congrArg List.getLast? k2
      simp [List.getLast?_append] at this
      exact absurd this hd
  · rcases h1 with ⟨k1, mids, k2, k3⟩ | ⟨k1, k2⟩ | ⟨k1, mids, r, k2, k3, k4⟩
    · rw [g2] at k2
      injection k2 with _ k2
      have := congrArg List.getLast? k2
      simp [List.getLast?_append] at this
      exact absurd this.symm hd
    · rw [g2] at k2; injection k2 with k2 _; exact absurd k2 hl
    · have k2' := k2
      rw [g2] at k2
      injection k2 with _ k2
      have hlen : (handed c).length = mids.length := by
        have := congrArg List.length k2; simpa using this
      have := List.append_inj k2 hlen
      refine ⟨by rw [this.1]; exact k4, .inr (.inr ⟨k1, m, gm, g2⟩)⟩

example : ∃ c, CReach cfgA envA c ∧ c.life.w = .finished ∧ (∃ b, Life.Obs.closeRet b ∈ c.life.log) ∧ c.life.fut = some true := by
  have h : ∃ c, Whole.hrun cfgA envA (Whole.start cfgA [b!"/r"]) whole_ = .ok (some c) ∧ c.life.w = .finished ∧
      Life.Obs.closeRet true ∈ c.life.log ∧ c.life.fut = some true := ran (by decide +kernel)
  obtain ⟨c, h1, h2, h3, h4⟩ := h
  exact ⟨c, hrun_reach (start_reach _ _ _) h1, h2, ⟨true, h3⟩, h4⟩

/-! ## C80 -/

private theorem file_one {l : List Ev} {m : Ev} (h : m.ptype = .watcher) : fileEvents (l ++ [m]) = fileEvents l := by
  simp [fileEvents, h]

/-- C80 in full: with any operations, moves between directories included. -/
def C80_full : Prop := ∀ (cfg : Life.Cfg) (E : Env Ker.World), E.inn = Ker.sys → ∀ (dirs : List Str) (hs : List Whole.HStep),
  ∃ o, Whole.hrun cfg E (Whole.start cfg dirs) hs = .ok o ∧
    ∀ c, o = some c → (∃ second, c.life.w = .aWait second) ∨ c.life.w = .finished →
    ∃ told pending, c.back.world.k.log = told ++ pending ∧ Tells (·.dir) told (fileEvents (callbacks c.life.log)) ∧
      (c.back.world.k.queue = [] → pending = [])

/-- What is known whenever the watcher waits or has finished. -/
theorem whole_hands (g : Bool) (lim : Option Nat) (cfg : Life.Cfg) (E : Env Ker.World) (hE : E.inn = Ker.sys) (dirs : List Str)
    (hs : List Whole.HStep) (hc : g = true → hs.all Whole.Calm = true) :
    ∃ o, Whole.hrun cfg E (Whole.startLim lim cfg dirs) hs = .ok o ∧
      ∀ c, o = some c → (∃ second, c.life.w = .aWait second) ∨ c.life.w = .finished →
      ((c.back.world.k.log = [] ∧ c.back.world.k.lost = 0 ∧ fileEvents (callbacks c.life.log) = []) ∨
       ∃ st L, c.back = .inn st ∧ Lemmas.Ker.HInv g g L st ∧ fileEvents (callbacks c.life.log) = fileEvents st.out ∧
        ∀ e ∈ st.out, e ∈ callbacks c.life.log) := by
  obtain ⟨o, h1, h2⟩ := hrun_ok (g := g) hE hs (Whole.startLim lim cfg dirs) ⟨rfl, rfl⟩ ⟨⟨dirs, lim, rfl⟩, trivial⟩ hc
  refine ⟨o, h1, ?_⟩
  intro c ho hw
  obtain ⟨hH, hA⟩ := h2 c ho
  have hr : CReach cfg E c := hrun_reach ⟨_, [], rfl⟩ (by rw [← ho]; exact h1)
  have hf : fileEvents (callbacks c.life.log) = fileEvents (handed c) ∧ ∀ e ∈ handed c, e ∈ callbacks c.life.log := by
    have hlive : ∀ b l, fileEvents (liveMsg cfg.path b :: l) = fileEvents l := by intro b l; rfl
    rcases hw with ⟨sec, hw⟩ | hw
    · rw [C79_caught_up cfg E c hr sec hw, hlive]
      exact ⟨rfl, fun e he => List.mem_cons_of_mem _ he⟩
    · rcases C79_nothing_lost cfg E c hr hw with ⟨h3, h4⟩ | h4 | ⟨m, h3, h4⟩
      · rw [h3, h4]; exact ⟨rfl, fun e he => by cases he⟩
      · rw [h4, hlive, file_one rfl]
        exact ⟨rfl, fun e he => List.mem_cons_of_mem _ (List.mem_append_left _ he)⟩
      · rw [h4, hlive]
        have : handed c ++ [m, dieMsg cfg.path false] = (handed c ++ [m]) ++ [dieMsg cfg.path false] := by simp
        refine ⟨by rw [this, file_one rfl, file_one h3.1], fun e he => List.mem_cons_of_mem _ (List.mem_append_left _ he)⟩
  cases hb : c.back with
  | none w =>
    left
    simp only [HSt, hb] at hH
    obtain ⟨⟨ds, lim, h3⟩, _⟩ := hH
    refine ⟨?_, ?_, ?_⟩
    · simp only [Back.world, h3]
    · simp only [Back.world, h3]
    · rw [hf.1]; simp only [handed, hb, Back.out]; rfl
  | fa st =>
    simp only [HSt, hb] at hH
    exfalso
    rcases hw with ⟨sec, hw⟩ | hw <;> (rw [hw] at hH; cases hH.2)
  | inn st =>
    right
    simp only [HSt, hb] at hH
    obtain ⟨⟨L, h3⟩, _⟩ := hH
    refine ⟨st, L, rfl, h3, ?_, ?_⟩
    · rw [hf.1]; simp only [handed, hb, Back.out]
    · intro e he; exact hf.2 e (by simp only [handed, hb, Back.out]; exact he)

/-- C80 (partial: no file moves between two watched directories and no directory is moved). Any history of a
watch by inotify: other processes change the tree at any time, even during the watcher's system calls, the
watcher's threads run in any order, reads return any number of pending records, the callback does what it
likes. The run never reaches undefined behaviour, and whenever the watcher waits or has finished, the file
events the callback received tell, in order and each exactly once, the changes made in watched directories,
up to a rest that is still pending in the kernel. -/
theorem C80_end_to_end_partial (cfg : Life.Cfg) (E : Env Ker.World) (hE : E.inn = Ker.sys) (dirs : List Str)
    (hs : List Whole.HStep) (hc : hs.all Whole.Calm = true) :
    ∃ o, Whole.hrun cfg E (Whole.start cfg dirs) hs = .ok o ∧
      ∀ c, o = some c → (∃ second, c.life.w = .aWait second) ∨ c.life.w = .finished →
      ∃ told pending, c.back.world.k.log = told ++ pending ∧ Tells (·.dir) told (fileEvents (callbacks c.life.log)) ∧
        (c.back.world.k.queue = [] → pending = []) := by
  obtain ⟨o, h1, h2⟩ := whole_hands true none cfg E hE dirs hs (fun _ => hc)
  refine ⟨o, h1, ?_⟩
  intro c ho hw
  rcases h2 c ho hw with ⟨h3, _, h4⟩ | ⟨st, L, hb, h3, h4, _⟩
  · rw [h3, h4]; exact ⟨[], [], rfl, .nil, fun _ => rfl⟩
  · obtain ⟨P, h5, h6⟩ := h3.inv.pend
    rw [hb, h4]
    refine ⟨L, P, h5, ?_, ?_⟩
    · refine Lemmas.Ker.TellsL.tells (Lemmas.Ker.tells_congr h3.told ?_)
      intro c' hc'
      exact ((h3.still rfl).log c' (by rw [h5]; exact List.mem_append_left _ hc')).symm
    · intro hq
      simp only [Back.world] at hq
      rw [hq] at h6
      exact Lemmas.Ker.pend_empty h6 (by simp)

example : whole_.all Whole.Calm = true ∧ ∃ c, Whole.hrun cfgA envA (Whole.start cfgA [b!"/r"]) whole_ = .ok (some c) ∧
    c.life.w = .finished ∧ fileEvents (callbacks c.life.log) = [evA, evBC] ∧ c.back.world.k.log.length = 3 := by
  exact ⟨by decide, ran (by decide +kernel)⟩

/-- A move between two watched directories, read and delivered. -/
private def crossed : List Whole.HStep :=
  [.thread .w, .thread .w, .thread .w, .thread .cbReturn, .noFanotify true, .thread .w, .thread .w, .thread .w,
   .openInotify ⟨true, 5, [b!"/r", b!"/r/d"], ⟨6, true, true⟩⟩ [], .thread .w, .thread .w,
   .op (.cross b!"/r" b!"f" b!"/r/d" b!"g" 7#32), .wakeRead 2 [], .thread .w, .thread .w, .thread .cbReturn, .thread .w, .thread .w]

private theorem crossed_ran : ∃ c, Whole.hrun cfgA envA (Whole.start cfgA [b!"/r", b!"/r/d"]) crossed = .ok (some c) ∧
    c.life.w = .aWait true ∧ fileEvents (callbacks c.life.log) = [crossEvent] ∧ c.back.world.k.queue = [] ∧
    c.back.world.k.log = [⟨b!"/r", b!"/r", b!"f", .moveFrom 7#32, false⟩, ⟨b!"/r/d", b!"/r/d", b!"g", .moveTo 7#32, false⟩] :=
  ran (by decide +kernel)

/-- C80 in full is false of the code, for the reason C31 is: a move between two watched directories is told
with a path that never existed. -/
theorem C80_refuted : ¬ C80_full := by
  intro h
  obtain ⟨o, h1, h2⟩ := h cfgA envA rfl [b!"/r", b!"/r/d"] crossed
  obtain ⟨c, g1, g2, g3, g4, g5⟩ := crossed_ran
  rw [g1] at h1
  injection h1 with h1
  obtain ⟨told, pending, k1, k2, k3⟩ := h2 c h1.symm (.inl ⟨true, g2⟩)
  have hp := k3 g4
  subst hp
  rw [List.append_nil, g5] at k1
  subst k1
  rw [g3] at k2
  generalize hes : [crossEvent] = es at k2
  cases k2 with
  | one c h => injection hes with hes _; simp [Ker.event, crossEvent] at hes
  | both a b id ha hb h =>
    injection hes with hes _
    revert hes; decide
  | again c c' ha => cases ha

/-! ## C81 -/

/-- C81 in full: fanotify batches of any size up to the buffer's, on any file system. -/
def C81_full : Prop := ∀ (σ : Type) (cfg : Life.Cfg) (E : Env σ) (w : σ) (acts : List (CAct σ)),
  SoundSys E.inn → KernelRun (fun _ => True) cfg E (cinit cfg w) acts → ∃ o, crun cfg E (cinit cfg w) acts = .ok o

/-- C81 (partial: fanotify reads that leave four bytes of the buffer free or do not end in a rename, on a file system where an opened
directory has a path that fits). Over the whole life of a watch, whatever the threads, the callback, other
processes and the system calls do, as long as each read is answered with an error or with records that fit
into the buffer, the worker looks at no byte the kernel did not write and leaves no buffer (any such access
is the outcome `ub`). -/
theorem C81_whole_life_safe_partial {σ} (cfg : Life.Cfg) (E : Env σ) (hF : Fa.Sound E.fa) (hI : SoundSys E.inn)
    (w : σ) (acts : List (CAct σ)) (hk : KernelRun Roomy cfg E (cinit cfg w) acts) :
    ∃ o, crun cfg E (cinit cfg w) acts = .ok o :=
  crun_sane hF hI acts (cinit cfg w) ⟨rfl, rfl⟩ trivial hk

/-- As root: start, live message, fanotify on `/r`. -/
private def beginFa : List (CAct Nat) :=
  [.life .w, .life .w, .life .w, .life .cbReturn, .openBack ⟨true, 5, [b!"/r"], ⟨6, true, true⟩⟩, .life .w, .life .w]

private def envFa : Env Nat where
  fa := faSys
  inn := { realpath := fun n _ => (none, n), isDir := fun n _ => (false, n), addWatch := fun n _ => (-1, n) }

private theorem envFa_inn : SoundSys envFa.inn := by intro w p real h; cases h

private theorem beginFa_nowake : ∀ a ∈ beginFa, ∀ ws, a ≠ .wake ws := by
  intro a ha ws h
  subst h
  simp [beginFa] at ha

private theorem beginFa_ran : ∃ c st, crun cfgA envFa (cinit cfgA 0) beginFa = .ok (some c) ∧ c.back = .fa st := by
  have h : (match crun cfgA envFa (cinit cfgA 0) beginFa with
    | .ok (some c) => (match c.back with | .fa _ => true | _ => false) | _ => false) = true := by decide +kernel
  cases hc : crun cfgA envFa (cinit cfgA 0) beginFa with
  | ub m => rw [hc] at h; cases h
  | ok o =>
    cases o with
    | none => rw [hc] at h; cases h
    | some c =>
      rw [hc] at h
      simp only at h
      cases hb : c.back with
      | fa st => exact ⟨c, st, rfl, hb⟩
      | none w => rw [hb] at h; cases h
      | inn st => rw [hb] at h; cases h

/-- A schedule that opens fanotify and reads a batch of records. -/
private theorem fa_kernelRun (lim : List FRec → Prop) (rs : List FRec) (hb : FBatch rs) (hl : lim rs) :
    KernelRun lim cfgA envFa (cinit cfgA 0) (beginFa ++ [.wake [.ke (.data (fbatch rs))]]) := by
  obtain ⟨c, st, h1, h2⟩ := beginFa_ran
  refine kernelRun_append _ _ _ c (kernelRun_nowake _ _ beginFa_nowake) h1 ⟨?_, fun _ _ => trivial⟩
  intro r hr
  simp at hr
  subst hr
  rw [h2]
  exact .inr ⟨rs, hb, hl, rfl⟩

/-- Five records read by fanotify; they are delivered one by one. -/
example : Fa.Sound envFa.fa ∧ SoundSys envFa.inn ∧
    KernelRun Roomy cfgA envFa (cinit cfgA 0) (beginFa ++ [.wake [.ke (.data (fbatch faRecs))]]) ∧
    (match crun cfgA envFa (cinit cfgA 0) (beginFa ++ [.wake [.ke (.data (fbatch faRecs))]]) with
      | .ok (some c) => decide ((handed c).length = 4) | _ => false) = true :=
  ⟨faSys_sound, envFa_inn, fa_kernelRun Roomy faRecs faRecs_batch (.inl (by decide +kernel)), by decide +kernel⟩

/-- C81 in full is false of the code: the full buffer of C36 can come up in the life of a watch. -/
theorem C81_refuted : ¬ C81_full := by
  intro h
  obtain ⟨o, h1⟩ := h Nat cfgA envFa 0 _ envFa_inn (fa_kernelRun (fun _ => True) fullRecs fullRecs_batch trivial)
  have h2 : (match crun cfgA envFa (cinit cfgA 0) (beginFa ++ [.wake [.ke (.data (fbatch fullRecs))]]) with
    | .ok _ => false | .ub _ => true) = true := by decide +kernel
  rw [h1] at h2
  cases h2

end Verif.Props
