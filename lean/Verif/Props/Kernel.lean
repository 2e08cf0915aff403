import Verif.Lemmas.Kernel5
/-!
# Whole histories of the inotify back end: C31 - C35, C62

The watcher of `Verif.Model.In` runs against the kernel of `Verif.Model.Ker`: any number of operations of
other processes, reads of any prefix of the pending records, operations in the middle of a batch (between
any two of the watcher's system calls) and failing system calls.
-/

namespace Verif.Props
open Verif Verif.Model Verif.Model.In Verif.Model.Ker Verif.Spec Verif.Lemmas.In Verif.Lemmas.Ker

/-- For concrete runs: the kernel computes the run and the check. -/
theorem exists_ok {α} {o : Outcome α} {p : α → Prop} [DecidablePred p]
    (h : (match o with | .ok a => decide (p a) | .ub _ => false) = true) : ∃ a, o = .ok a ∧ p a := by
  cases o with
  | ok a => exact ⟨a, rfl, by simpa using h⟩
  | ub => cases h

/-! ## C31 -/

/-- C31 as stated: whatever happens (short of moving directories), what the callback received tells the
changes the kernel saw in watched directories so far, except a rest that is still pending. -/
def C31_full : Prop :=
  ∀ (dirs marks : List Str) (sched : List (List Op × Bool)) (ss : List Step),
    Ker.allSched Ker.keepsDirs sched = true → ss.all (Ker.allOps Ker.keepsDirs) = true →
    ∃ st told pending, execs (opened dirs marks sched) ss = .ok st ∧ st.sys.k.log = told ++ pending ∧
      Tells (·.dir) told (fileEvents st.out) ∧ (st.sys.k.queue = [] → pending = [])

/-- C31 (partial: histories in which no file moves between two watched directories). The watcher never
stops and never runs into undefined behaviour; the file events tell, in order and each exactly once, the
changes made in watched directories, with their paths. -/
theorem C31_every_change_once_partial (dirs marks : List Str) (sched : List (List Op × Bool)) (ss : List Step)
    (hs1 : Ker.allSched Ker.local sched = true) (hs2 : ss.all (Ker.allOps Ker.local) = true)
    (hk1 : Ker.allSched Ker.keepsDirs sched = true) (hk2 : ss.all (Ker.allOps Ker.keepsDirs) = true) :
    ∃ st told pending, execs (opened dirs marks sched) ss = .ok st ∧ st.sys.k.log = told ++ pending ∧
      Tells (·.dir) told (fileEvents st.out) ∧ (st.sys.k.queue = [] → pending = []) := by
  have h0 := hinv_open (l := true) (m := true) dirs marks sched (fun _ => hs1) (fun _ => hk1)
  obtain ⟨st, L, h1, h2⟩ := hinv_execs ss h0 (fun _ => hs2) (fun _ => hk2)
  obtain ⟨P, h3, h4⟩ := h2.inv.pend
  refine ⟨st, L, P, h1, h3, ?_, ?_⟩
  · refine TellsL.tells (tells_congr h2.told ?_)
    intro c hc
    exact ((h2.still rfl).log c (by rw [h3]; exact List.mem_append_left _ hc)).symm
  · intro hq
    rw [hq] at h4
    exact pend_empty h4 (by simp)

/-- The moved file: two directories, one move between them. -/
def crossDirs : List Str := [b!"/r", b!"/r/d"]
def crossHistory : List Step := [.op (.cross b!"/r" b!"f" b!"/r/d" b!"g" 7#32), .read 2 []]

def crossEvent : Ev := { path := b!"/r/f", effect := .rename, ptype := .file, assoc := some { path := b!"/r/g", effect := .rename, ptype := .file } }

/-- What the callback receives for it: the new name is put into the old directory. -/
theorem cross_reported : ∃ st, execs (opened crossDirs crossDirs []) crossHistory = .ok st ∧
    fileEvents st.out = [crossEvent] ∧
    st.sys.k.log = [⟨b!"/r", b!"/r", b!"f", .moveFrom 7#32, false⟩, ⟨b!"/r/d", b!"/r/d", b!"g", .moveTo 7#32, false⟩] ∧
    st.sys.k.queue = [] := by
  exact exists_ok (by decide +kernel)

/-- C31 as stated is false of the code: a file moved from one watched directory to another is reported with
a path it never had. -/
theorem C31_refuted : ¬ C31_full := by
  intro h
  obtain ⟨st, told, pending, h1, h2, h3, h4⟩ := h crossDirs crossDirs [] crossHistory (by decide) (by decide)
  obtain ⟨st', g1, g2, g3, g4⟩ := cross_reported
  rw [h1] at g1
  injection g1 with g1; subst g1
  have hp := h4 g4
  subst hp
  rw [List.append_nil, g3] at h2
  subst h2
  rw [g2] at h3
  generalize hes : [crossEvent] = es at h3
  cases h3 with
  | one c h => injection hes with hes _; simp [Ker.event, crossEvent] at hes
  | both a b id ha hb h =>
    injection hes with hes _
    revert hes; decide
  | again c c' ha => cases ha

/-- The weaker claim that holds of every history without such moves, directories being renamed or not: each
change is told exactly once and in order, under the path its directory had when it was first watched. -/
theorem C31_all_histories_partial (dirs marks : List Str) (sched : List (List Op × Bool)) (ss : List Step)
    (hs1 : Ker.allSched Ker.local sched = true) (hs2 : ss.all (Ker.allOps Ker.local) = true) :
    ∃ st told pending, execs (opened dirs marks sched) ss = .ok st ∧ st.sys.k.log = told ++ pending ∧
      Tells (·.known) told (fileEvents st.out) ∧ (st.sys.k.queue = [] → pending = []) := by
  have h0 := hinv_open (l := true) (m := false) dirs marks sched (fun _ => hs1) (fun h => by cases h)
  obtain ⟨st, L, h1, h2⟩ := hinv_execs ss h0 (fun _ => hs2) (fun h => by cases h)
  obtain ⟨P, h3, h4⟩ := h2.inv.pend
  exact ⟨st, L, P, h1, h3, h2.told.tells, fun hq => by rw [hq] at h4; exact pend_empty h4 (by simp)⟩

/-- A history with a disturbed opening, a batch cut in the middle of a rename, operations during the marking
of a new directory, and a removal. -/
def demoHistory : List Step :=
  [.op (.create b!"/r" b!"a"), .op (.modify b!"/r" b!"a"), .op (.modify b!"/r" b!"a"),
   .op (.rename b!"/r" b!"a" b!"b" 5#32), .op (.mkdir b!"/r" b!"n"), .read 3 [],
   .read 2 [([.create b!"/r/n" b!"early"], false), ([.create b!"/r" b!"c"], false), ([.unlink b!"/r" b!"c"], false)],
   .op (.create b!"/r/n" b!"late"), .op (.rmdir b!"/r" b!"d" true), .read 10 []]

example : Ker.allSched Ker.local [([.mkdir b!"/r" b!"x"], false)] = true ∧ demoHistory.all (Ker.allOps Ker.local) = true ∧
    demoHistory.all (Ker.allOps Ker.keepsDirs) = true ∧
    ∃ st, execs (opened crossDirs crossDirs [([.mkdir b!"/r" b!"x"], false)]) demoHistory = .ok st ∧
      st.sys.k.log.length = 10 ∧ (fileEvents st.out).length = 9 ∧ st.sys.k.queue = [] := by
  exact ⟨by decide, by decide, by decide, exists_ok (by decide +kernel)⟩

/-! ## C32 -/

/-- C32. Open a watch on any tree of directories (each of them visited by the walk, see C23), then let any
sequence of operations happen, the watcher reading after each: creations, modifications and removals of
files and directories anywhere in the tree, renames inside a directory, files moving in and out. Everything
that happens in a directory of the tree, whether it existed at the beginning or was created at any later
time, is reported: in order, with its path, and nothing else. -/
theorem C32_keeping_up (dirs marks : List Str) (ops : List Op) (hm : ∀ d ∈ dirs, d ∈ marks)
    (hc : ∀ d ∈ dirs, Canonical d) (ho : ops.all Ker.calm = true) (hn : marks.length + ops.length < 2147483646) :
    ∃ st, Ker.follow (opened dirs marks []) ops = .ok st ∧ fileEvents st.out = Ker.expectedAll dirs ops := by
  obtain ⟨⟨L, h1⟩, h2, h3, h4⟩ := sync_open dirs marks hm hc (by omega)
  obtain ⟨st, L', h5, _, h6⟩ := follow_all ops h1 ho (by omega)
  exact ⟨st, h5, by rw [h6, h4, h2, List.nil_append]⟩

/-- Files inside a directory inside a directory, both made after the watch began. -/
def demoOps : List Op :=
  [.mkdir b!"/r" b!"n", .mkdir b!"/r/n" b!"m", .create b!"/r/n/m" b!"f", .modify b!"/r/n/m" b!"f",
   .rename b!"/r/n/m" b!"f" b!"g" 9#32, .moveOut b!"/r/n/m" b!"g" 10#32, .rmdir b!"/r/n" b!"m" false, .evict 3,
   .create b!"/elsewhere" b!"f"]

example : (∀ d ∈ [b!"/r"], Canonical d) ∧ demoOps.all Ker.calm = true ∧
    (Ker.expectedAll [b!"/r"] demoOps).map (fun e => (e.path, e.effect)) =
      [(b!"/r/n", .create), (b!"/r/n/m", .create), (b!"/r/n/m/f", .create), (b!"/r/n/m/f", .modify),
       (b!"/r/n/m/f", .rename), (b!"/r/n/m/g", .rename), (b!"/r/n/m", .destroy)] := by
  refine ⟨?_, by decide, by decide +kernel⟩
  intro d hd; rw [List.mem_singleton] at hd; subst hd; exact ⟨by decide, by decide⟩

/-! ## C33 -/

/-- C33 as stated: an entry of a new directory is reported also if it was made before the directory's own
event was read. -/
def C33_full : Prop :=
  ∀ (dirs : List Str) (d n f : Str), (∀ x ∈ dirs, Canonical x) → d ∈ dirs → okName n = true → okName f = true →
    entryPath d n ∉ dirs →
    ∃ st, execs (opened dirs dirs []) [.op (.mkdir d n), .op (.create (entryPath d n) f), .read 9 [], .read 9 []] = .ok st ∧
      Ker.plainEv (entryPath d n) f .create .file ∈ fileEvents st.out

/-- C33 as stated is false of the code: the file made in between is never reported. -/
theorem C33_refuted : ¬ C33_full := by
  intro h
  obtain ⟨st, h1, h2⟩ := h [b!"/r"] b!"/r" b!"n" b!"f"
    (by intro d hd; rw [List.mem_singleton] at hd; subst hd; exact ⟨by decide, by decide⟩)
    (by decide) (by decide) (by decide) (by decide)
  have : ∃ st, execs (opened [b!"/r"] [b!"/r"] []) [.op (.mkdir b!"/r" b!"n"), .op (.create (entryPath b!"/r" b!"n") b!"f"),
      .read 9 [], .read 9 []] = .ok st ∧ Ker.plainEv (entryPath b!"/r" b!"n") b!"f" .create .file ∉ fileEvents st.out := exists_ok (by decide +kernel)
  obtain ⟨st', g1, g2⟩ := this
  rw [h1] at g1
  injection g1 with g1; subst g1
  exact g2 h2

/-- C33 (partial: entries made after the directory's own event was read). After any history, in any watched
directory: once the creation of a directory has been read, with nothing else going on meanwhile and
descriptors left, every entry created in it is reported. -/
theorem C33_once_noticed_partial (dirs marks : List Str) (sched : List (List Op × Bool)) (ss : List Step)
    (hk1 : Ker.allSched Ker.keepsDirs sched = true) (hk2 : ss.all (Ker.allOps Ker.keepsDirs) = true)
    (st : St World) (hst : execs (opened dirs marks sched) ss = .ok st)
    (d n f : Str) (hn : okName n = true) (hf : okName f = true) (hd : d ∈ st.sys.k.dirs)
    (hnew : entryPath d n ∉ st.sys.k.dirs) (hw : ∃ wd, wdOf st.sys.k d = some wd)
    (hfit : (batch (apply st.sys.k (.mkdir d n)).queue).length ≤ 4096)
    (hnx : st.sys.k.next + st.sys.k.queue.length + 1 < 2147483647) :
    ∃ st', execs st [.op (.mkdir d n), .read (st.sys.k.queue.length + 1) [], .op (.create (entryPath d n) f), .read 1 []]
      = .ok st' ∧ Ker.plainEv (entryPath d n) f .create .file ∈ fileEvents st'.out := by
  have h0 := hinv_open (l := false) (m := true) dirs marks sched (fun h => by cases h) (fun _ => hk1)
  obtain ⟨st0, L, h1, h2⟩ := hinv_execs ss h0 (fun h => by cases h) (fun _ => hk2)
  rw [hst] at h1; injection h1 with h1; subst h1
  obtain ⟨wd, hw⟩ := hw
  obtain ⟨st1, L1, h3, h4, h5, wd', h6⟩ := noticed h2 (lost_zero _ _ _ _ hst) d n hn hd hnew hw hfit hnx
  have hl1 : st1.sys.k.limit = none := by
    have hv : execs st [.op (.mkdir d n), .read (st.sys.k.queue.length + 1) []] = .ok st1 := h3
    exact (limit_execs _ h2.forget hv).trans (lost_zero _ _ _ _ hst)
  -- the creation
  have hap : ∃ lg, apply st1.sys.k (.create (entryPath d n) f) =
      { st1.sys.k with queue := [recOf wd' .create f false], log := lg } := by
    simp only [apply, hf, if_true]
    rw [notify_eq hl1 h6, h5, enqueue_nil]
    exact ⟨_, rfl⟩
  obtain ⟨lg, hap⟩ := hap
  have h7 : HInv false true L1 { st1 with sys := { st1.sys with k := apply st1.sys.k (.create (entryPath d n) f) } } :=
    h4.op (.create (entryPath d n) f) (fun _ => rfl) (fun _ => rfl)
  have h8 := read_all h7 (by simp only [hap]; exact batch_one_len (rec_size hf))
  have hlen : ({ st1 with sys := { st1.sys with k := apply st1.sys.k (.create (entryPath d n) f) } } : St World).sys.k.queue.length = 1 := by
    simp only [hap]; rfl
  rw [hlen] at h8
  have h9 : execs st [.op (.mkdir d n), .read (st.sys.k.queue.length + 1) [], .op (.create (entryPath d n) f), .read 1 []]
      = execs st1 [.op (.create (entryPath d n) f), .read 1 []] := by
    simp only [execs, exec] at h3 ⊢
    simp only [Outcome.bind_ok] at h3 ⊢
    have hx : ∀ (X : Outcome (St World)) (F : St World → Outcome (St World)), (X >>= fun st => Outcome.ok st) = .ok st1 → (X >>= F) = F st1 := by
      intro X F hX
      cases X with
      | ok a => simp only [Outcome.bind_ok] at hX ⊢; injection hX with hX; rw [hX]
      | ub s => cases hX
    exact hx _ _ h3
  have h10 : ∃ st', execs st1 [.op (.create (entryPath d n) f), .read 1 []] = .ok st' ∧
      st'.out = st1.out ++ (report Model.Ker.sys (apply st1.sys.k (.create (entryPath d n) f)).queue st1.dm
        { k := { apply st1.sys.k (.create (entryPath d n) f) with queue := [] }, sched := [] }).1 := by
    simp only [execs]
    have : exec st1 (.op (.create (entryPath d n) f)) =
      .ok { st1 with sys := { st1.sys with k := apply st1.sys.k (.create (entryPath d n) f) } } := rfl
    rw [this, Outcome.bind_ok, h8, Outcome.bind_ok]
    exact ⟨_, rfl, rfl⟩
  obtain ⟨st', h11, h12⟩ := h10
  refine ⟨st', h9.trans h11, ?_⟩
  · rw [h12]
    rw [file_append]
    refine List.mem_append_right _ ?_
    have := read_due h7 { k := { apply st1.sys.k (.create (entryPath d n) f) with queue := [] }, sched := [] }
    simp only at this
    rw [this, hap]
    simp only
    rw [due_one (h4.name h6)]
    simp [Ker.event, Ker.plainEv]

example : ∃ st, execs (opened crossDirs crossDirs []) demoHistory = .ok st ∧ b!"/r/n" ∈ st.sys.k.dirs ∧
    entryPath b!"/r/n" b!"sub" ∉ st.sys.k.dirs ∧ wdOf st.sys.k b!"/r/n" = some 3 ∧
    st.sys.k.next + st.sys.k.queue.length + 1 < 2147483647 ∧
    (batch (apply st.sys.k (.mkdir b!"/r/n" b!"sub")).queue).length ≤ 4096 := by
  exact exists_ok (by decide +kernel)

/-! ## C34 -/

/-- C34 as stated: a change in a directory that has been renamed is reported under the directory's new path. -/
def C34_full : Prop :=
  ∀ (dirs : List Str) (d n1 n2 f : Str) (ck : BitVec 32), (∀ x ∈ dirs, Canonical x) → d ∈ dirs →
    entryPath d n1 ∈ dirs → entryPath d n2 ∉ dirs → okName n1 = true → okName n2 = true → okName f = true → ck ≠ 0#32 →
    ∃ st, execs (opened dirs dirs []) [.op (.renameDir d n1 n2 ck), .read 9 [], .op (.create (entryPath d n2) f), .read 9 []]
        = .ok st ∧
      Ker.plainEv (entryPath d n2) f .create .file ∈ fileEvents st.out

/-- C34 as stated is false of the code: the old path is reported, although the rename had been read. -/
theorem C34_refuted : ¬ C34_full := by
  intro h
  obtain ⟨st, h1, h2⟩ := h crossDirs b!"/r" b!"d" b!"e" b!"f" 7#32
    (by intro d hd; simp only [crossDirs, List.mem_cons, List.not_mem_nil, or_false] at hd
        rcases hd with rfl | rfl <;> exact ⟨by decide, by decide⟩)
    (by decide) (by decide) (by decide) (by decide) (by decide) (by decide) (by decide)
  have : ∃ st, execs (opened crossDirs crossDirs []) [.op (.renameDir b!"/r" b!"d" b!"e" 7#32), .read 9 [],
      .op (.create (entryPath b!"/r" b!"e") b!"f"), .read 9 []] = .ok st ∧
      Ker.plainEv (entryPath b!"/r" b!"e") b!"f" .create .file ∉ fileEvents st.out ∧
      Ker.plainEv b!"/r/d" b!"f" .create .file ∈ fileEvents st.out := exists_ok (by decide +kernel)
  obtain ⟨st', g1, g2, _⟩ := this
  rw [h1] at g1
  injection g1 with g1; subst g1
  exact g2 h2

/-- C34 (partial: the directory itself was not renamed, other directories may have been). After any history
without moves between directories, renames of directories included, every change in a directory whose
present path is the one it was first watched under is told with that present path: the events of a history
all of whose changes are of this kind tell the changes under their paths. -/
theorem C34_others_partial (dirs marks : List Str) (sched : List (List Op × Bool)) (ss : List Step)
    (hs1 : Ker.allSched Ker.local sched = true) (hs2 : ss.all (Ker.allOps Ker.local) = true) :
    ∃ st told pending, execs (opened dirs marks sched) ss = .ok st ∧ st.sys.k.log = told ++ pending ∧
      ((∀ c ∈ told, c.dir = c.known) → Tells (·.dir) told (fileEvents st.out)) := by
  obtain ⟨st, told, pending, h1, h2, h3, _⟩ := C31_all_histories_partial dirs marks sched ss hs1 hs2
  exact ⟨st, told, pending, h1, h2, fun h => Verif.Lemmas.Ker.Tells.congr h3 (fun c hc => (h c hc).symm)⟩

example : ∃ st, execs (opened [b!"/r", b!"/r/d", b!"/r/k"] [b!"/r", b!"/r/d", b!"/r/k"] [])
      [.op (.renameDir b!"/r" b!"d" b!"e" 7#32), .op (.create b!"/r/k" b!"f"), .read 9 []] = .ok st ∧
    (∀ c ∈ st.sys.k.log, c.dir = c.known) ∧ st.sys.k.log.length = 3 ∧ b!"/r/e" ∈ st.sys.k.dirs := by
  exact exists_ok (by decide +kernel)

/-! ## C35 -/

/-- C35 as stated. -/
def C35_full : Prop :=
  ∀ (dirs marks : List Str) (sched : List (List Op × Bool)) (ss : List Step) (st : St World),
    execs (opened dirs marks sched) ss = .ok st → st.sys.k.queue = [] →
    (∀ wd p, (wd, p) ∈ st.dm ↔ (wd, p) ∈ st.sys.k.watches) ∧ (st.dm.map Prod.fst).Nodup

/-- False of the code: the path of a renamed directory's watch is not updated. -/
theorem C35_refuted : ¬ C35_full := by
  intro h
  have : ∃ st, execs (opened crossDirs crossDirs []) [.op (.renameDir b!"/r" b!"d" b!"e" 7#32), .read 9 []] = .ok st ∧
      st.sys.k.queue = [] ∧ (2, b!"/r/e") ∈ st.sys.k.watches ∧ (2, b!"/r/e") ∉ st.dm := exists_ok (by decide +kernel)
  obtain ⟨st, h1, h2, h3, h4⟩ := this
  exact h4 (((h crossDirs crossDirs [] _ st h1 h2).1 2 b!"/r/e").2 h3)

theorem keys_lookup {t : Table} {wd : Int} {p : Str} (hn : (t.map Prod.fst).Nodup) (h : (wd, p) ∈ t) : t.lookup wd = some p := by
  induction t with
  | nil => cases h
  | cons e t ih =>
    rw [List.map_cons, List.nodup_cons] at hn
    rw [List.lookup_cons]
    rcases List.mem_cons.1 h with rfl | h
    · simp
    · split
      · rename_i hb
        simp only [beq_iff_eq] at hb
        exact absurd (List.mem_map.2 ⟨_, h, hb⟩) hn.1
      · exact ih hn.2 h

/-- C35 (partial: no directory moved). After any history, when
nothing is pending, the table holds exactly the kernel's watches with the directories' paths, each once. -/
theorem C35_table_partial (dirs marks : List Str) (sched : List (List Op × Bool)) (ss : List Step)
    (hk1 : Ker.allSched Ker.keepsDirs sched = true) (hk2 : ss.all (Ker.allOps Ker.keepsDirs) = true)
    (st : St World) (hst : execs (opened dirs marks sched) ss = .ok st) (hq : st.sys.k.queue = []) :
    (∀ wd p, (wd, p) ∈ st.dm ↔ (wd, p) ∈ st.sys.k.watches) ∧ (st.dm.map Prod.fst).Nodup := by
  have h0 := hinv_open (l := false) (m := true) dirs marks sched (fun h => by cases h) (fun _ => hk1)
  obtain ⟨st0, L, h1, h2⟩ := hinv_execs ss h0 (fun h => by cases h) (fun _ => hk2)
  rw [hst] at h1; injection h1 with h1; subst h1
  refine ⟨?_, h2.keys⟩
  intro wd p
  constructor
  · intro hm
    have hl := keys_lookup h2.keys hm
    rcases h2.inv.left wd p hl with ⟨e, he, h3⟩ | h3 | ⟨r, hr, _⟩ | h3
    · have h4 := (h2.still rfl).watch e he
      rw [h3, h2.inv.table _ _ hl] at h4
      injection h4 with h4
      rw [← h3, h4]; exact he
    · cases h3
    · rw [hq] at hr; cases hr
    · rw [h2.inv.lim (lost_zero _ _ _ _ hst)] at h3; cases h3
  · intro hm
    obtain ⟨q, h3⟩ := h2.inv.live _ hm
    have h4 := (h2.still rfl).watch _ hm
    rw [h2.inv.table _ _ h3] at h4
    injection h4 with h4
    simp only at h4; subst h4
    exact lookup_mem h3

/-- Also when directories are moved, the table has exactly the kernel's live watches: it does not grow
with directories that are gone. -/
theorem C35_no_leak_partial (dirs marks : List Str) (sched : List (List Op × Bool)) (ss : List Step)
    (st : St World) (hst : execs (opened dirs marks sched) ss = .ok st) (hq : st.sys.k.queue = []) :
    (∀ wd, wd ∈ st.dm.map Prod.fst ↔ wd ∈ st.sys.k.watches.map Prod.fst) ∧ (st.dm.map Prod.fst).Nodup := by
  have h0 := hinv_open (l := false) (m := false) dirs marks sched (fun h => by cases h) (fun h => by cases h)
  obtain ⟨st0, L, h1, h2⟩ := hinv_execs ss h0 (fun h => by cases h) (fun h => by cases h)
  rw [hst] at h1; injection h1 with h1; subst h1
  refine ⟨?_, h2.keys⟩
  intro wd
  constructor
  · intro hm
    obtain ⟨⟨wd', p⟩, hm2, rfl⟩ := List.mem_map.1 hm
    rcases h2.inv.left _ p (keys_lookup h2.keys hm2) with ⟨e, he, h3⟩ | h3 | ⟨r, hr, _⟩ | h3
    · exact List.mem_map.2 ⟨e, he, h3⟩
    · cases h3
    · rw [hq] at hr; cases hr
    · rw [h2.inv.lim (lost_zero _ _ _ _ hst)] at h3; cases h3
  · intro hm
    obtain ⟨e, he, rfl⟩ := List.mem_map.1 hm
    obtain ⟨q, h3⟩ := h2.inv.live _ he
    exact List.mem_map.2 ⟨_, lookup_mem h3, rfl⟩

example : ∃ st, execs (opened crossDirs crossDirs []) demoHistory = .ok st ∧ st.sys.k.queue = [] ∧
    st.dm.length = 2 ∧ (3, b!"/r/n") ∈ st.dm ∧ st.sys.k.dirs = [b!"/r", b!"/r/n"] := by
  exact exists_ok (by decide +kernel)

/-! ## C62 -/

/-- C62 as stated: after a directory was moved into the watched tree from outside, and the watcher has read
everything, a change in it is reported. -/
def C62_full : Prop :=
  ∀ (dirs : List Str) (d n f : Str) (ck : BitVec 32), (∀ x ∈ dirs, Canonical x) → d ∈ dirs →
    entryPath d n ∉ dirs → okName n = true → okName f = true → ck ≠ 0#32 →
    ∃ st, execs (opened dirs dirs []) [.op (.moveInDir d n ck), .read 9 [], .op (.create (entryPath d n) f), .read 9 []]
        = .ok st ∧
      Ker.plainEv (entryPath d n) f .create .file ∈ fileEvents st.out

/-- C62 as stated is false of the code: only creations of directories lead to a mark. -/
theorem C62_refuted : ¬ C62_full := by
  intro h
  obtain ⟨st, h1, h2⟩ := h [b!"/r"] b!"/r" b!"n" b!"f" 7#32
    (by intro d hd; rw [List.mem_singleton] at hd; subst hd; exact ⟨by decide, by decide⟩)
    (by decide) (by decide) (by decide) (by decide) (by decide)
  have : ∃ st, execs (opened [b!"/r"] [b!"/r"] []) [.op (.moveInDir b!"/r" b!"n" 7#32), .read 9 [],
      .op (.create (entryPath b!"/r" b!"n") b!"f"), .read 9 []] = .ok st ∧
      Ker.plainEv (entryPath b!"/r" b!"n") b!"f" .create .file ∉ fileEvents st.out := exists_ok (by decide +kernel)
  obtain ⟨st', g1, g2⟩ := this
  rw [h1] at g1
  injection g1 with g1; subst g1
  exact g2 h2

/-- C62 (partial: only the arrival itself is reported). After any history without moves between watched
directories, the arrival of a directory in a watched directory is among the changes told or still pending,
with its path. -/
theorem C62_arrival_partial (dirs marks : List Str) (sched : List (List Op × Bool)) (ss : List Step)
    (hs1 : Ker.allSched Ker.local sched = true) (hs2 : ss.all (Ker.allOps Ker.local) = true)
    (hk1 : Ker.allSched Ker.keepsDirs sched = true) (hk2 : ss.all (Ker.allOps Ker.keepsDirs) = true)
    (st : St World) (hst : execs (opened dirs marks sched) ss = .ok st)
    (d n : Str) (ck : BitVec 32) (hn : okName n = true) (hck : fresh st.sys.k ck = true) (hd : d ∈ st.sys.k.dirs)
    (hnew : entryPath d n ∉ st.sys.k.dirs) (hw : ∃ wd, wdOf st.sys.k d = some wd) :
    ∃ st' told pending, execs st [.op (.moveInDir d n ck)] = .ok st' ∧
      (∃ k, st'.sys.k.log = st.sys.k.log ++ [⟨d, k, n, .moveTo ck, true⟩]) ∧
      st'.sys.k.log = told ++ pending ∧ Tells (·.dir) told (fileEvents st'.out) ∧
      (st'.sys.k.queue = [] → pending = []) := by
  have h0 := hinv_open (l := true) (m := true) dirs marks sched (fun _ => hs1) (fun _ => hk1)
  obtain ⟨st0, L, h1, h2⟩ := hinv_execs ss h0 (fun _ => hs2) (fun _ => hk2)
  rw [hst] at h1; injection h1 with h1; subst h1
  obtain ⟨st1, L1, h3, h4⟩ := hinv_execs [.op (.moveInDir d n ck)] h2 (fun _ => rfl) (fun _ => rfl)
  obtain ⟨P, h5, h6⟩ := h4.inv.pend
  obtain ⟨wd, hw⟩ := hw
  refine ⟨st1, L1, P, h3, ?_, h5, ?_, ?_⟩
  · have h3' : st1 = { st with sys := { st.sys with k := apply st.sys.k (.moveInDir d n ck) } } := by
      simp only [execs, exec, Outcome.bind_ok] at h3
      injection h3 with h3; exact h3.symm
    rw [h3']
    have hv : (okName n && fresh st.sys.k ck && st.sys.k.dirs.contains d && !st.sys.k.dirs.contains (entryPath d n)) = true := by
      simp [hn, hck, hd, hnew]
    simp only [apply, hv, if_true]
    rw [notify_eq (wd := wd) (by exact lost_zero _ _ _ _ hst) (by exact hw)]
    exact ⟨_, rfl⟩
  · refine TellsL.tells (tells_congr h4.told ?_)
    intro c hc
    exact ((h4.still rfl).log c (by rw [h5]; exact List.mem_append_left _ hc)).symm
  · intro hq
    rw [hq] at h6
    exact pend_empty h6 (by simp)

example : ∃ st, execs (opened crossDirs crossDirs []) demoHistory = .ok st ∧ fresh st.sys.k 9#32 = true ∧
    b!"/r/n" ∈ st.sys.k.dirs ∧ entryPath b!"/r/n" b!"in" ∉ st.sys.k.dirs ∧ wdOf st.sys.k b!"/r/n" = some 3 := by
  exact exists_ok (by decide +kernel)

/-! ## The kernel refuses what a real one refuses -/

/-- A directory with something in it is neither removed nor replaced, and a directory is not moved below itself. -/
example : let k : Ker.K := { dirs := [b!"/r", b!"/r/d", b!"/r/d/e", b!"/r/f"] }
    Ker.apply k (.rmdir b!"/r" b!"d" true) = k ∧ Ker.apply k (.moveOver b!"/r" b!"f" b!"/r" b!"d" 7#32) = k ∧
    Ker.apply k (.moveInOver b!"/r" b!"d" 7#32) = k ∧ Ker.apply k (.moveOver b!"/r" b!"d" b!"/r/d" b!"e" 7#32) = k ∧
    Ker.apply k (.moveOver b!"/r" b!"d" b!"/r" b!"f" 7#32) ≠ k := by decide

end Verif.Props
