import Verif.Lemmas.Kernel6
import Verif.Props.Kernel
import Verif.Props.Adapter
/-!
# All histories of the inotify back end: C103 - C105

As in `Verif.Props.Kernel`, but nothing is excluded: files and directories move between any two directories,
inside, into and out of the tree, during any system call, and the kernel's queue may have any limit.
-/

namespace Verif.Props
open Verif Verif.Model Verif.Model.In Verif.Model.Ker Verif.Spec Verif.Lemmas.In Verif.Lemmas.Ker

/-! ## C103 -/

/-- C103. Whatever other processes do, whenever they do it, and however the watcher reads: it does not stop
and does not run into undefined behaviour, and the file events tell every change made in a watched directory
exactly once and in order. The paths are those under which the directories were first watched, and a rename
that arrives as one event has its new name put into the directory of the old one. -/
theorem C103_every_history (dirs marks : List Str) (sched : List (List Op × Bool)) (ss : List Step) :
    ∃ st told pending, execs (opened dirs marks sched) ss = .ok st ∧ st.sys.k.log = told ++ pending ∧
      TellsOld (·.known) told (fileEvents st.out) ∧ (st.sys.k.queue = [] → pending = []) := by
  have h0 := hinv_open (l := false) (m := false) dirs marks sched (fun h => by cases h) (fun h => by cases h)
  obtain ⟨st, L, h1, h2⟩ := hinv_execs ss h0 (fun h => by cases h) (fun h => by cases h)
  obtain ⟨P, h3, h4⟩ := h2.inv.pend
  exact ⟨st, L, P, h1, h3, h2.told.old, fun hq => by rw [hq] at h4; exact pend_empty h4 (by simp)⟩

/-- The same for the whole library: all schedules of its threads, stops and callbacks included. -/
theorem C103_end_to_end (cfg : Life.Cfg) (E : Ad.Env World) (hE : E.inn = Ker.sys) (dirs : List Str) (hs : List Whole.HStep) :
    ∃ o, Whole.hrun cfg E (Whole.start cfg dirs) hs = .ok o ∧
      ∀ c, o = some c → (∃ second, c.life.w = .aWait second) ∨ c.life.w = .finished →
      ∃ told pending, c.back.world.k.log = told ++ pending ∧ TellsOld (·.known) told (fileEvents (callbacks c.life.log)) ∧
        (c.back.world.k.queue = [] → pending = []) := by
  obtain ⟨o, h1, h2⟩ := whole_hands false none cfg E hE dirs hs (fun h => by cases h)
  refine ⟨o, h1, ?_⟩
  intro c ho hw
  rcases h2 c ho hw with ⟨h3, _, h4⟩ | ⟨st, L, hb, h3, h4, _⟩
  · rw [h3, h4]; exact ⟨[], [], rfl, .nil, fun _ => rfl⟩
  · obtain ⟨P, h5, h6⟩ := h3.inv.pend
    rw [hb, h4]
    refine ⟨L, P, h5, h3.told.old, ?_⟩
    intro hq
    simp only [Ad.Back.world] at hq
    rw [hq] at h6
    exact Lemmas.Ker.pend_empty h6 (by simp)

/-- A directory moves into another one, a file moves between directories, changes follow in the moved
directory and in the directories below it. -/
def movesHistory : List Step :=
  [.op (.cross b!"/r" b!"f" b!"/r/d" b!"g" 7#32), .op (.moveDir b!"/r" b!"d" b!"/r/k" b!"e" 8#32), .read 4 [],
   .op (.create b!"/r/k/e" b!"a"), .op (.mkdir b!"/r/k/e" b!"s"),
   .read 3 [([.moveDir b!"/r/k" b!"e" b!"/o" b!"e" 9#32, .create b!"/o/e" b!"b"], false)], .read 9 []]

def movesDirs : List Str := [b!"/r", b!"/r/d", b!"/r/k", b!"/o"]

example : ∃ st, execs (opened movesDirs [b!"/r", b!"/r/d", b!"/r/k"] []) movesHistory = .ok st ∧
    st.sys.k.log.length = 8 ∧ (fileEvents st.out).length = 6 ∧ st.sys.k.queue = [] ∧ b!"/o/e" ∈ st.sys.k.dirs ∧
    (fileEvents st.out).map (·.path) = [b!"/r/f", b!"/r/d", b!"/r/d/a", b!"/r/d/s", b!"/r/k/e", b!"/r/d/b"] := by
  exact exists_ok (by decide +kernel)

/-- A directory takes the place of an empty one, whose watch dies later; two directories change places. -/
def replaceHistory : List Step :=
  [.op (.moveOver b!"/r" b!"d" b!"/r" b!"k" 7#32), .op (.create b!"/r/k" b!"a"), .read 9 [], .op (.evict 3), .read 9 [],
   .op (.mkdir b!"/r" b!"m"), .read 9 [], .op (.swapDirs b!"/r" b!"k" b!"/r" b!"m" 8#32 9#32), .op (.create b!"/r/m" b!"b"), .read 9 [],
   .op (.moveInOver b!"/r" b!"k" 10#32), .read 9 []]

example : ∃ st, execs (opened [b!"/r", b!"/r/d", b!"/r/k"] [b!"/r", b!"/r/d", b!"/r/k"] []) replaceHistory = .ok st ∧
    st.sys.k.log.length = 10 ∧ st.sys.k.queue = [] ∧ st.sys.k.dirs = [b!"/r", b!"/r/m", b!"/r/k"] ∧
    (fileEvents st.out).map (·.path) = [b!"/r/d", b!"/r/d/a", b!"/r/m", b!"/r/k", b!"/r/m", b!"/r/d/b", b!"/r/k"] := by
  exact exists_ok (by decide +kernel)

/-! ## C104 -/

/-- C104 as stated: with a queue of any size, once everything pending has been read, either nothing was lost
or the callback was told of an overflow. -/
def C104_full : Prop :=
  ∀ (limit : Option Nat) (dirs marks : List Str) (sched : List (List Op × Bool)) (ss : List Step),
    ∃ st told pending, execs (openedLim limit dirs marks sched) ss = .ok st ∧ st.sys.k.log = told ++ pending ∧
      TellsOld (·.known) told (fileEvents st.out) ∧
      (st.sys.k.queue = [] → pending = [] ∧ (0 < st.sys.k.lost → ∃ d, overflowMsg d ∈ st.out))

/-- C104 (partial: the message says "phantom", not "overflow"). With a queue of any size and any history,
everything the kernel kept is told exactly once and in order, and once everything pending has been read, a
loss has been announced by a warning to the callback. -/
theorem C104_loss_not_silent_partial (limit : Option Nat) (dirs marks : List Str) (sched : List (List Op × Bool)) (ss : List Step) :
    ∃ st told pending, execs (openedLim limit dirs marks sched) ss = .ok st ∧ st.sys.k.log = told ++ pending ∧
      TellsOld (·.known) told (fileEvents st.out) ∧
      (st.sys.k.queue = [] → pending = [] ∧ (0 < st.sys.k.lost → phantomMsg ∈ st.out)) := by
  have h0 := (hinv_openLim (l := false) (m := false) limit dirs marks sched (fun h => by cases h) (fun h => by cases h)).1
  obtain ⟨st, L, h1, h2⟩ := hinv_execs ss h0 (fun h => by cases h) (fun h => by cases h)
  obtain ⟨P, h3, h4⟩ := h2.inv.pend
  refine ⟨st, L, P, h1, h3, h2.told.old, ?_⟩
  intro hq
  refine ⟨by rw [hq] at h4; exact pend_empty h4 (by simp), ?_⟩
  intro hl
  rcases h2.noted hl with h5 | h5
  · rw [hq] at h5; cases h5
  · exact h5

/-- The same for the whole library, up to the callback. -/
theorem C104_end_to_end_partial (limit : Option Nat) (cfg : Life.Cfg) (E : Ad.Env World) (hE : E.inn = Ker.sys) (dirs : List Str)
    (hs : List Whole.HStep) :
    ∃ o, Whole.hrun cfg E (Whole.startLim limit cfg dirs) hs = .ok o ∧
      ∀ c, o = some c → (∃ second, c.life.w = .aWait second) ∨ c.life.w = .finished →
      ∃ told pending, c.back.world.k.log = told ++ pending ∧ TellsOld (·.known) told (fileEvents (callbacks c.life.log)) ∧
        (c.back.world.k.queue = [] → pending = [] ∧ (0 < c.back.world.k.lost → phantomMsg ∈ callbacks c.life.log)) := by
  obtain ⟨o, h1, h2⟩ := whole_hands false limit cfg E hE dirs hs (fun h => by cases h)
  refine ⟨o, h1, ?_⟩
  intro c ho hw
  rcases h2 c ho hw with ⟨h3, h3', h4⟩ | ⟨st, L, hb, h3, h4, h7⟩
  · rw [h3, h4, h3']; exact ⟨[], [], rfl, .nil, fun _ => ⟨rfl, fun h => absurd h (Nat.lt_irrefl 0)⟩⟩
  · obtain ⟨P, h5, h6⟩ := h3.inv.pend
    rw [hb, h4]
    refine ⟨L, P, h5, h3.told.old, ?_⟩
    intro hq
    simp only [Ad.Back.world] at hq ⊢
    refine ⟨by rw [hq] at h6; exact Lemmas.Ker.pend_empty h6 (by simp), ?_⟩
    intro hl
    rcases h3.noted hl with h8 | h8
    · rw [hq] at h8; cases h8
    · exact h7 _ h8

/-- Three changes, room for two records; later one more change. -/
def fullHistory : List Step :=
  [.op (.create b!"/r" b!"a"), .op (.create b!"/r" b!"b"), .op (.mkdir b!"/r" b!"n"), .op (.unlink b!"/r" b!"a"), .read 9 [],
   .op (.create b!"/r" b!"c"), .op (.create b!"/r/n" b!"f"), .read 9 []]

theorem full_reported : ∃ st, execs (openedLim (some 2) [b!"/r"] [b!"/r"] []) fullHistory = .ok st ∧
    st.out.map (fun e => (e.path, e.effect)) =
      [(b!"/r/a", .create), (b!"/r/b", .create), (b!"w/sys/phantom@", .other), (b!"/r/c", .create)] ∧
    st.sys.k.lost = 2 ∧ st.sys.k.queue = [] := by
  exact exists_ok (by decide +kernel)

/-- C104 as stated is false of the code: the overflow record has no watch descriptor, so it is taken for a
record of an unknown watch before its mask is looked at. -/
theorem C104_refuted : ¬ C104_full := by
  intro h
  obtain ⟨st, told, pending, h1, _, _, h4⟩ := h (some 2) [b!"/r"] [b!"/r"] [] fullHistory
  obtain ⟨st', g1, g2, g3, g4⟩ := full_reported
  rw [h1] at g1
  injection g1 with g1; subst g1
  obtain ⟨d, hd⟩ := (h4 g4).2 (by rw [g3]; decide)
  have hm : (overflowMsg d).path ∈ (st.out.map (fun e => (e.path, e.effect))).map Prod.fst := by
    rw [List.map_map]; exact List.mem_map.2 ⟨_, hd, rfl⟩
  rw [g2] at hm
  have h8 : ((overflowMsg d).path).take 7 = b!"w/sys/q" := by
    simp [overflowMsg]
  simp only [List.map_cons, List.map_nil, List.mem_cons, List.not_mem_nil, or_false] at hm
  rcases hm with hm | hm | hm | hm <;> rw [hm] at h8 <;> revert h8 <;> decide

/-- Neither does the watcher recover: a directory whose creation was lost is never watched, and the table
keeps the watch of a directory whose removal was lost, also when everything has been read. -/
theorem C104_no_recovery : ∃ ss st, execs (openedLim (some 1) [b!"/r", b!"/r/d"] [b!"/r", b!"/r/d"] []) ss = .ok st ∧
    st.sys.k.queue = [] ∧ (∃ wd p, (wd, p) ∈ st.dm ∧ ∀ e ∈ st.sys.k.watches, e.1 ≠ wd) ∧
    (∃ d ∈ st.sys.k.dirs, wdOf st.sys.k d = none) := by
  refine ⟨[.op (.create b!"/r" b!"a"), .op (.rmdir b!"/r" b!"d" true), .op (.mkdir b!"/r" b!"n"), .read 9 [], .read 9 []], ?_⟩
  have : ∃ st, execs (openedLim (some 1) [b!"/r", b!"/r/d"] [b!"/r", b!"/r/d"] [])
      [.op (.create b!"/r" b!"a"), .op (.rmdir b!"/r" b!"d" true), .op (.mkdir b!"/r" b!"n"), .read 9 [], .read 9 []] = .ok st ∧
      (st.sys.k.queue = [] ∧ (2, b!"/r/d") ∈ st.dm ∧ (∀ e ∈ st.sys.k.watches, e.1 ≠ 2) ∧ b!"/r/n" ∈ st.sys.k.dirs ∧
        wdOf st.sys.k b!"/r/n" = none) := exists_ok (by decide +kernel)
  obtain ⟨st, h1, h2, h3, h4, h5, h6⟩ := this
  exact ⟨st, h1, h2, ⟨2, _, h3, h4⟩, ⟨_, h5, h6⟩⟩

/-! ## C105 -/

/-- C105 as stated: whatever is reported was a change of an entry that lay below the watched directory. -/
def C105_full : Prop :=
  ∀ (root : Str) (dirs marks : List Str) (sched : List (List Op × Bool)) (ss : List Step), (∀ d ∈ marks, Ker.Below root d) →
    ∃ st told pending, execs (opened dirs marks sched) ss = .ok st ∧ st.sys.k.log = told ++ pending ∧
      TellsOld (·.known) told (fileEvents st.out) ∧ ∀ c ∈ told, Ker.Below root c.dir

/-- A directory is moved out of the tree, then a file is made in it. -/
def leftHistory : List Step :=
  [.op (.moveDir b!"/r" b!"d" b!"/o" b!"d" 7#32), .read 9 [], .op (.create b!"/o/d" b!"f"), .read 9 []]

theorem left_reported : ∃ st, execs (opened [b!"/r", b!"/r/d", b!"/o"] [b!"/r", b!"/r/d"] []) leftHistory = .ok st ∧
    (fileEvents st.out).map (fun e => (e.path, e.effect)) = [(b!"/r/d", .rename), (b!"/r/d/f", .create)] ∧
    st.sys.k.log = [⟨b!"/r", b!"/r", b!"d", .moveFrom 7#32, true⟩, ⟨b!"/o/d", b!"/r/d", b!"f", .create, false⟩] := by
  exact exists_ok (by decide +kernel)

/-- C105 as stated is false of the code: a directory moved out of the tree stays watched, and what happens in
it is reported under paths inside the tree that do not exist any more. -/
theorem C105_refuted : ¬ C105_full := by
  intro h
  obtain ⟨st, told, pending, h1, h2, h3, h4⟩ := h b!"/r" [b!"/r", b!"/r/d", b!"/o"] [b!"/r", b!"/r/d"] [] leftHistory
    (by decide)
  obtain ⟨st', g1, g2, g3⟩ := left_reported
  rw [h1] at g1
  injection g1 with g1; subst g1
  have hlen : told.length = 2 := by
    have hl : (fileEvents st.out).length = 2 := by
      have := congrArg List.length g2; simpa using this
    have hle : told.length ≤ 2 := by
      have := congrArg List.length h2; rw [g3] at this; simp at this; omega
    have : ∀ {L es}, TellsOld (·.known) L es → es.length ≤ L.length := by
      intro L es ht
      induction ht with
      | nil => simp
      | one _ _ ih => simp; exact ih
      | both _ _ _ _ _ _ ih => simp; omega
      | again _ _ _ _ _ _ _ _ ih => simp at ih ⊢; omega
    have := this h3
    omega
  have hp : told = st.sys.k.log := by
    rw [h2]
    have : pending = [] := by
      have h5 := congrArg List.length h2; rw [g3] at h5; simp at h5
      exact List.length_eq_zero_iff.1 (by omega)
    rw [this, List.append_nil]
  have := h4 ⟨b!"/o/d", b!"/r/d", b!"f", .create, false⟩ (by rw [hp, g3]; simp)
  revert this; decide

/-- C105 (partial: the path, not the entry). After every history, with a queue of any size, both paths of
every file event lie below the watched directory, and so do all directories the watcher has in its table. -/
theorem C105_paths_below_partial (root : Str) (limit : Option Nat) (dirs marks : List Str) (sched : List (List Op × Bool)) (ss : List Step)
    (hm : ∀ d ∈ marks, Ker.Below root d) :
    ∃ st, execs (openedLim limit dirs marks sched) ss = .ok st ∧ (∀ e ∈ fileEvents st.out, Ker.BelowEv root e) ∧
      ∀ e ∈ st.dm, Ker.Below root e.2 := by
  have h0 := (hinv_openLim (l := false) (m := false) limit dirs marks sched (fun h => by cases h) (fun h => by cases h)).1
  obtain ⟨st, L, h1, h2⟩ := hinv_execs ss h0 (fun h => by cases h) (fun h => by cases h)
  have := low_execs ss h0 (low_open limit dirs marks sched hm) h1
  exact ⟨st, h1, this.2, this.1⟩

/-- C105 (partial: no directory is moved and no file moves between directories). Then the directory of every
event is the one in which the change happened, and lies below the watched directory. -/
theorem C105_entries_below_partial (root : Str) (dirs marks : List Str) (sched : List (List Op × Bool)) (ss : List Step)
    (hm : ∀ d ∈ marks, Ker.Below root d)
    (hs1 : Ker.allSched Ker.local sched = true) (hs2 : ss.all (Ker.allOps Ker.local) = true)
    (hk1 : Ker.allSched Ker.keepsDirs sched = true) (hk2 : ss.all (Ker.allOps Ker.keepsDirs) = true) :
    ∃ st told pending, execs (opened dirs marks sched) ss = .ok st ∧ st.sys.k.log = told ++ pending ∧
      Tells (·.dir) told (fileEvents st.out) ∧ ∀ c ∈ told, Ker.Below root (entryPath c.dir c.name) := by
  obtain ⟨st, told, pending, h1, h2, h3, h4⟩ := C31_every_change_once_partial dirs marks sched ss hs1 hs2 hk1 hk2
  obtain ⟨st', g1, g2, _⟩ := C105_paths_below_partial root none dirs marks sched ss hm
  have g1' : execs (opened dirs marks sched) ss = .ok st' := g1
  rw [h1] at g1'
  injection g1' with g1'; subst g1'
  refine ⟨st, told, pending, h1, h2, h3, ?_⟩
  have key : ∀ {L es}, Tells (·.dir) L es → (∀ e ∈ es, Ker.BelowEv root e) → ∀ c ∈ L, Ker.Below root (entryPath c.dir c.name) := by
    intro L es ht
    induction ht with
    | nil => intro _ c hc; cases hc
    | one c0 _ ih =>
      intro he c hc
      rcases List.mem_cons.1 hc with rfl | hc
      · exact (he _ (List.mem_cons_self ..)).1
      · exact ih (fun e h => he e (List.mem_cons_of_mem _ h)) c hc
    | both a b id _ _ _ ih =>
      intro he c hc
      rcases List.mem_cons.1 hc with rfl | hc
      · exact (he _ (List.mem_cons_self ..)).1
      · rcases List.mem_cons.1 hc with rfl | hc
        · exact (he _ (List.mem_cons_self ..)).2 _ rfl
        · exact ih (fun e h => he e (List.mem_cons_of_mem _ h)) c hc
    | again c0 c' _ _ hn _ hp _ ih =>
      intro he c hc
      rcases List.mem_cons.1 hc with rfl | hc
      · have := ih he c0 (List.mem_cons_self ..)
        rw [hn, hp]; exact this
      · exact ih he c hc
  exact key h3 g2

example : (∀ d ∈ crossDirs, Ker.Below b!"/r" d) ∧ ¬ Ker.Below b!"/r" b!"/rest" ∧
    ∃ st, execs (opened crossDirs crossDirs []) demoHistory = .ok st ∧ (fileEvents st.out).length = 9 := by
  exact ⟨by decide, by decide, exists_ok (by decide +kernel)⟩

end Verif.Props
