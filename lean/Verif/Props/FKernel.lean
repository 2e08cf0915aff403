import Verif.Props.Kernel
import Verif.Lemmas.FKernel5
import Verif.Lemmas.FLost2
import Verif.Lemmas.FLost3
/-!
# Whole histories of the fanotify back end: C83 - C86
-/
namespace Verif.Props
open Verif Verif.Model Verif.Model.Fa Verif.Model.FKer Verif.Spec Verif.Spec.FKer Verif.Lemmas Verif.Lemmas.FKer

/-! ## C83 -/

/-- All operations: what is told. -/
theorem keeping_up (rf : Bool) (dirs : List (Handle × Str)) (marks : List Str) (ops : List Do)
    (hg : GoodTree dirs) (hn : NewHandles dirs ops) (hx : ∀ x ∈ ops, x.who.extra.length ≤ 200) :
    ∃ st, follow rf (opened rf dirs marks []) ops = .ok st ∧
      fileEvents (st.out.map Prod.fst) = actualAll (dirs.map (fun e => (e.2, marks.contains e.2))) ops := by
  obtain ⟨st0, a, b, c, d, e⟩ := opened_ok (rf := rf) hg marks
  have hn1 := List.nodup_append.1 hn.1
  obtain ⟨st, f, g⟩ := follow_ok (rf := rf) (ops := ops) b hx hn1.2.1 (by
    intro h hm
    refine ⟨?_, hn.2 h hm⟩
    rw [c]
    intro hh
    exact hn1.2.2 h hh h hm rfl)
  exact ⟨st, by rw [a]; exact f, by rw [g, d, e, List.nil_append]⟩

/-- C83: every tree of directories, every set of them marked when the watch began, every sequence of
operations (moves between directories, in and out of the watched part, and of directories included; for exchanges of
two directories in one call see C164), by any
processes. If the watcher reads after each operation, the callback receives exactly the events that are due,
in order, with the paths the entries have. -/
theorem C83_keeping_up (rf : Bool) (dirs : List (Handle × Str)) (marks : List Str) (ops : List Do)
    (hg : GoodTree dirs) (hn : NewHandles dirs ops) (hx : ∀ x ∈ ops, x.who.extra.length ≤ 200) (hs : ∀ x ∈ ops, single x = true) :
    ∃ st, follow rf (opened rf dirs marks []) ops = .ok st ∧
      fileEvents (st.out.map Prod.fst) = expectedAll (dirs.map (fun e => (e.2, marks.contains e.2))) ops :=
  actual_neat ops _ (neat_single ops _ hs) ▸ keeping_up rf dirs marks ops hg hn hx

/-- Two watched directories and one that is not. -/
def fkDirs : List (Handle × Str) := [([1], b!"/r"), ([2], b!"/r/d"), ([3], b!"/o")]
def fkMarks : List Str := [b!"/r", b!"/r/d", b!"/missing"]

theorem fkDirs_good : GoodTree fkDirs where
  handles := by decide
  paths := by decide
  short := by decide
  canon := by decide

/-- Directories made, moved with what is in them, removed and replaced; files moved in, out and across. -/
def fkOps : List Do :=
  [⟨.mkdir b!"/r/d" b!"n" [4], {}⟩, ⟨.create b!"/r/d/n" b!"f", {}⟩, ⟨.moveDir b!"/r" b!"d" b!"/r" b!"e", {}⟩,
   ⟨.modify b!"/r/e/n" b!"f", {}⟩, ⟨.move b!"/r/e/n" b!"f" b!"/r" b!"g", {}⟩, ⟨.move b!"/r" b!"g" b!"/o" b!"g", {}⟩,
   ⟨.move b!"/o" b!"g" b!"/r/e" b!"h", {}⟩, ⟨.unlink b!"/r/e" b!"h", {}⟩, ⟨.rmdir b!"/r/e" b!"n", {}⟩,
   ⟨.mkdir b!"/o" b!"x" [5], {}⟩, ⟨.moveDir b!"/o" b!"x" b!"/r" b!"x", {}⟩, ⟨.create b!"/r/x" b!"y", {}⟩,
   ⟨.mkdir b!"/r" b!"z" [6], {}⟩, ⟨.moveOver b!"/r" b!"e" b!"/r" b!"z", {}⟩, ⟨.create b!"/r/z" b!"i", {}⟩]

example : GoodTree fkDirs ∧ NewHandles fkDirs fkOps ∧ (∀ x ∈ fkOps, x.who.extra.length ≤ 200) ∧ (∀ x ∈ fkOps, single x = true) ∧
    expectedAll (fkDirs.map (fun e => (e.2, fkMarks.contains e.2))) fkOps =
      [about b!"/r/d" b!"n" .create .dir, about b!"/r/d/n" b!"f" .create .file,
       ⟨b!"/r/d", .rename, .dir, some ⟨b!"/r/e", .rename, .dir⟩⟩, about b!"/r/e/n" b!"f" .modify .file,
       ⟨b!"/r/e/n/f", .rename, .file, some ⟨b!"/r/g", .rename, .file⟩⟩, about b!"/r" b!"g" .rename .file,
       about b!"/r/e" b!"h" .rename .file, about b!"/r/e" b!"h" .destroy .file, about b!"/r/e" b!"n" .destroy .dir,
       about b!"/r" b!"x" .rename .dir, about b!"/r" b!"z" .create .dir,
       ⟨b!"/r/e", .rename, .dir, some ⟨b!"/r/z", .rename, .dir⟩⟩, about b!"/r/z" b!"i" .create .file] :=
  ⟨fkDirs_good, ⟨by decide, by decide⟩, by decide, by decide, by decide⟩

/-! ## C84 -/

/-- C84 in full: whatever happens, each file event is about a change made in a watched directory, under a path
this directory has or had. -/
def C84_full : Prop :=
  ∀ (rf : Bool) (dirs : List (Handle × Str)) (marks : List Str) (sched : List (List Do × Bool)) (ss : List Step) (st : Fa.St World),
    GoodTree dirs → execs rf (opened rf dirs marks sched) ss = .ok st →
    ∀ e ∈ fileEvents (st.out.map Prod.fst), Genuine (At st.sys.k.past) st.sys.k.log e

/-- A directory is removed while it is being looked up: the event's path was never anybody's. -/
theorem C84_refuted_by_removed_directory : ¬ C84_full := by
  intro h
  have : ∃ st, execs true (opened true fkDirs fkMarks [])
      [.op ⟨.unlink b!"/r/d" b!"f", {}⟩, .read 9 [([], false), ([⟨.rmdir b!"/r" b!"d", {}⟩], false)]] = .ok st ∧
      about b!"/r/d (deleted)" b!"f" .destroy .file ∈ fileEvents (st.out.map Prod.fst) ∧ (st.sys.k.past.all (fun e => e.2.length ≤ 4)) = true ∧
      (st.sys.k.log.all (fun c => c.name.length ≤ 1)) = true :=
    exists_ok (by decide +kernel)
  obtain ⟨st, h1, h2, h3, h4⟩ := this
  obtain ⟨c, hc, ⟨d, hd, hp⟩, _⟩ := h true fkDirs fkMarks [] _ st fkDirs_good h1 _ h2
  have h3 := of_decide_eq_true (List.all_eq_true.1 h3 _ hd)
  have h4 := of_decide_eq_true (List.all_eq_true.1 h4 _ hc)
  have := congrArg List.length hp
  simp [about] at this
  simp only at h3
  omega

/-- C84 (partial: a path may carry the suffix `readlink` gives to a removed directory): every history, opened at
any moment and disturbed in any way: whatever other processes do between the system calls of the watcher,
however the kernel merges records and however reads cut them. -/
theorem C84_genuine_partial (rf : Bool) (dirs : List (Handle × Str)) (marks : List Str) (sched : List (List Do × Bool)) (ss : List Step)
    (hg : GoodTree dirs) (st : Fa.St World) (hst : execs rf (opened rf dirs marks sched) ss = .ok st) :
    ∀ e ∈ fileEvents (st.out.map Prod.fst), Genuine (Near st.sys.k.past) st.sys.k.log e :=
  (execs_hinv ss (opened_hinv hg marks sched) hst).out

/-- C84 (partial: no directory is removed while the watcher reads): as stated, for every such history; directories may
be removed at any other moment, also while their records wait to be read. -/
theorem C84_paths_partial (rf : Bool) (dirs : List (Handle × Str)) (marks : List Str) (sched : List (List Do × Bool)) (ss : List Step)
    (hg : GoodTree dirs) (hk : ss.all (allReads keeps) = true)
    (st : Fa.St World) (hst : execs rf (opened rf dirs marks sched) ss = .ok st) :
    ∀ e ∈ fileEvents (st.out.map Prod.fst), Genuine (At st.sys.k.past) st.sys.k.log e :=
  (execs_sinv ss (opened_sinv hg marks sched) hk hst).out

/-- Met by a history that removes a directory whose record waits, and by one that puts another in its place. -/
example : GoodTree fkDirs ∧
    [Step.op ⟨.create b!"/r" b!"g", {}⟩, .op ⟨.unlink b!"/r/d" b!"f", {}⟩, .op ⟨.rmdir b!"/r" b!"d", {}⟩, .op ⟨.mkdir b!"/r" b!"d" [9], {}⟩,
      .read 9 [([⟨.create b!"/r/d" b!"k", {}⟩], false)]].all (allReads keeps) = true ∧
    ∃ st, execs true (opened true fkDirs fkMarks [])
      [.op ⟨.create b!"/r" b!"g", {}⟩, .op ⟨.unlink b!"/r/d" b!"f", {}⟩, .op ⟨.rmdir b!"/r" b!"d", {}⟩, .op ⟨.mkdir b!"/r" b!"d" [9], {}⟩,
        .read 9 [([⟨.create b!"/r/d" b!"k", {}⟩], false)]] = .ok st ∧
      fileEvents (st.out.map Prod.fst) = [about b!"/r" b!"g" .create .file] :=
  ⟨fkDirs_good, by decide, exists_ok (by decide +kernel)⟩

/-- The log records what happened: each change under the path its directory had at that moment, and with a
name an entry can have. -/
theorem C84_log (rf : Bool) (dirs : List (Handle × Str)) (marks : List Str) (sched : List (List Do × Bool)) (ss : List Step)
    (hg : GoodTree dirs) (st : Fa.St World) (hst : execs rf (opened rf dirs marks sched) ss = .ok st) :
    ∀ c ∈ st.sys.k.log, (c.handle, c.dir) ∈ st.sys.k.past ∧ legalName c.name = true := by
  intro c hc
  have := (execs_hinv ss (opened_hinv hg marks sched) hst).k.logged c hc
  exact ⟨this.1, by rw [← okName_iff]; exact this.2⟩

/-- Met by a history with a removal, and an event with the suffix. -/
example : GoodTree fkDirs ∧ ∃ st, execs true (opened true fkDirs fkMarks [])
    [.op ⟨.unlink b!"/r/d" b!"f", {}⟩, .read 9 [([], false), ([⟨.rmdir b!"/r" b!"d", {}⟩], false)]] = .ok st ∧
    fileEvents (st.out.map Prod.fst) = [about b!"/r/d (deleted)" b!"f" .destroy .file] :=
  ⟨fkDirs_good, exists_ok (by decide +kernel)⟩

/-- A directory is moved before the record is looked up: the event has the new path. -/
example : ∃ st, execs true (opened true fkDirs fkMarks [])
    [.op ⟨.create b!"/r/d" b!"f", {}⟩, .op ⟨.moveDir b!"/r" b!"d" b!"/r" b!"e", {}⟩, .read 1 []] = .ok st ∧
    fileEvents (st.out.map Prod.fst) = [about b!"/r/e" b!"f" .create .file] :=
  exists_ok (by decide +kernel)

/-! ## C85 -/

/-- C85 in full: as long as nothing stops the watcher, every change in a watched directory is mentioned by an
event once its record was read (a change has no record of its own if the kernel merged it with a pending one
about the same entry). -/
def C85_full : Prop :=
  ∀ (rf : Bool) (dirs : List (Handle × Str)) (marks : List Str) (sched : List (List Do × Bool)) (ss : List Step) (st : Fa.St World),
    GoodTree dirs → execs rf (opened rf dirs marks sched) ss = .ok st →
    ∀ c ∈ st.sys.k.log, (∃ r ∈ st.sys.k.queue, r.handle = c.handle ∧ r.name = c.name) ∨
      ∃ e ∈ fileEvents (st.out.map Prod.fst), Mentions st.sys.k.past c e

/-- `rm -r d; touch g`: the record about `d/f` cannot be looked up any more, and with it everything read
together is dropped, `g` included. -/
theorem C85_refuted_by_removed_directory : ¬ C85_full := by
  intro h
  have : ∃ st, execs true (opened true fkDirs fkMarks [])
      [.op ⟨.unlink b!"/r/d" b!"f", {}⟩, .op ⟨.rmdir b!"/r" b!"d", {}⟩, .op ⟨.create b!"/r" b!"g", {}⟩, .read 9 []] = .ok st ∧
      fileEvents (st.out.map Prod.fst) = [] ∧ st.sys.k.queue = [] ∧ ⟨[1], b!"/r", b!"g", .create, false⟩ ∈ st.sys.k.log :=
    exists_ok (by decide +kernel)
  obtain ⟨st, h1, h2, h3, h4⟩ := this
  rcases h true fkDirs fkMarks [] _ st fkDirs_good h1 _ h4 with ⟨r, hr, _⟩ | ⟨e, he, _⟩
  · rw [h3] at hr; cases hr
  · rw [h2] at he; cases he

/-- A file is moved in and another one out, and then one is made: the last record is not looked at, because
the first two were counted although only one of them was passed. -/
theorem C85_refuted_by_crossed_moves : ¬ C85_full := by
  intro h
  have : ∃ st, execs true (opened true fkDirs fkMarks [])
      [.op ⟨.move b!"/o" b!"x" b!"/r" b!"in", {}⟩, .op ⟨.move b!"/r" b!"out" b!"/o" b!"y", {}⟩, .op ⟨.create b!"/r" b!"g", {}⟩, .read 9 []] = .ok st ∧
      fileEvents (st.out.map Prod.fst) = [⟨b!"/r/out", .rename, .file, some ⟨b!"/r/in", .rename, .file⟩⟩] ∧
      st.sys.k.queue = [] ∧ ⟨[1], b!"/r", b!"g", .create, false⟩ ∈ st.sys.k.log ∧ (st.sys.k.past.all (fun e => e.2.length ≤ 4)) = true :=
    exists_ok (by decide +kernel)
  obtain ⟨st, h1, h2, h3, h4, h5⟩ := this
  rcases h true fkDirs fkMarks [] _ st fkDirs_good h1 _ h4 with ⟨r, hr, _⟩ | ⟨e, he, hm⟩
  · rw [h3] at hr; cases hr
  · have hl : ∀ d : Str, ∀ x : Str, x ∈ [b!"/r/out", b!"/r/in"] → x ≠ d ++ b!"/" ++ b!"g" := by
      intro d x hx hd
      have := congrArg List.getLast? hd
      rw [List.getLast?_append] at this
      simp only [List.mem_cons, List.not_mem_nil, or_false] at hx
      rcases hx with rfl | rfl <;> simp at this
    rw [h2] at he
    simp only [List.mem_cons, List.not_mem_nil, or_false] at he
    subst he
    rcases hm with ⟨d, _, hd⟩ | ⟨a, ha, d, _, hd⟩
    · exact hl d _ (by simp) hd
    · injection ha with ha; subst ha
      exact hl d _ (by simp) hd

/-- C85 (partial: histories in which the directories of the records read are still there, no directory is removed during
a read, and no read is like those of `Fine`). The watcher does not stop, and every change in a watched directory whose
record was read is mentioned by an event. -/
theorem C85_noticed_partial (rf : Bool) (dirs : List (Handle × Str)) (marks : List Str) (sched : List (List Do × Bool)) (ss : List Step)
    (hg : GoodTree dirs) (hk : ss.all (allReads keeps) = true) (hp : Present rf (opened rf dirs marks sched) ss)
    (hf : Fine rf (opened rf dirs marks sched) ss) :
    ∃ st, execs rf (opened rf dirs marks sched) ss = .ok st ∧
      ∀ c ∈ st.sys.k.log, (∃ r ∈ st.sys.k.queue, r.handle = c.handle ∧ r.name = c.name) ∨
        ∃ e ∈ fileEvents (st.out.map Prod.fst), Mentions st.sys.k.past c e := by
  obtain ⟨st, seen, h1, h2⟩ := execs_tinv (m := false) ss (opened_tinv (rf := rf) hg marks sched (mild_false _)) (reads_false hk) hf hp
  refine ⟨st, h1, ?_⟩
  intro c hc
  rcases (show ∀ c ∈ st.sys.k.log, c ∈ seen ∨ _ from h2.kept) c hc with h | h
  · exact .inr ((show ∀ c ∈ seen, _ from h2.said) c h)
  · exact .inl h

/-- Which changes are missed: without any hypothesis on the directories the records are about (they may have been removed before the
read), the watcher does not stop, and every change whose record was read is mentioned by an event, or at some read its record was about a
directory that had gone, or behind such a record, or the old name of a rename into such a directory. -/
theorem C85_missed_partial (rf : Bool) (dirs : List (Handle × Str)) (marks : List Str) (sched : List (List Do × Bool)) (ss : List Step)
    (hg : GoodTree dirs) (hk : ss.all (allReads keeps) = true) (hf : Fine rf (opened rf dirs marks sched) ss) :
    ∃ st, execs rf (opened rf dirs marks sched) ss = .ok st ∧
      ∀ c ∈ st.sys.k.log, (∃ r ∈ st.sys.k.queue, r.handle = c.handle ∧ r.name = c.name) ∨
        (∃ e ∈ fileEvents (st.out.map Prod.fst), Mentions st.sys.k.past c e) ∨ Missed rf (opened rf dirs marks sched) ss c := by
  obtain ⟨st, h2, h3⟩ := execs_linv ss (opened_linv hg marks sched) hk hf
  refine ⟨st, h2, fun c hc => ?_⟩
  rcases h3.all c hc with h | h | h
  · exact .inl h
  · exact .inr (.inl h)
  · exact .inr (.inr (h.resolve_left id))

/-- `rm -r d; touch g` with changes before and after it: the change of `g` is missed because it is behind one in `d`. -/
example :
    let ss : List Step := [.op ⟨.create b!"/r" b!"a", {}⟩, .op ⟨.unlink b!"/r/d" b!"f", {}⟩, .op ⟨.rmdir b!"/r" b!"d", {}⟩, .op ⟨.create b!"/r" b!"g", {}⟩,
      .read 9 [], .op ⟨.create b!"/r" b!"k", {}⟩, .read 9 []]
    GoodTree fkDirs ∧ ss.all (allReads keeps) = true ∧ Fine true (opened true fkDirs fkMarks []) ss ∧
      Missed true (opened true fkDirs fkMarks []) ss ⟨[1], b!"/r", b!"g", .create, false⟩ ∧
      (¬ Missed true (opened true fkDirs fkMarks []) ss ⟨[1], b!"/r", b!"k", .create, false⟩) ∧
      ∃ st, execs true (opened true fkDirs fkMarks []) ss = .ok st ∧ st.sys.k.queue = [] ∧
        fileEvents (st.out.map Prod.fst) = [about b!"/r" b!"a" .create .file, about b!"/r" b!"k" .create .file] :=
  ⟨fkDirs_good, by decide, fineB_ok _ (by decide +kernel), (missedB_iff _).1 (by decide +kernel),
    fun h => absurd ((missedB_iff _).2 h) (by decide +kernel), exists_ok (by decide +kernel)⟩

/-- Which changes are missed, whenever directories are removed, during reads as well (and while the watch is opened): the watcher does not
stop, and every change whose record was read is mentioned by an event (whose path may say " (deleted)" after that of the directory), or at some
read its record was about a directory that had gone at the end of it, or behind such a record, or the old name of a rename into such a directory. -/
theorem C85_always_partial (rf : Bool) (dirs : List (Handle × Str)) (marks : List Str) (sched : List (List Do × Bool)) (ss : List Step)
    (hg : GoodTree dirs) (hf : Fine rf (opened rf dirs marks sched) ss) :
    ∃ st, execs rf (opened rf dirs marks sched) ss = .ok st ∧
      ∀ c ∈ st.sys.k.log, (∃ r ∈ st.sys.k.queue, r.handle = c.handle ∧ r.name = c.name) ∨
        (∃ e ∈ fileEvents (st.out.map Prod.fst), NearMentions st.sys.k.past c e) ∨ MissedLate rf (opened rf dirs marks sched) ss c := by
  obtain ⟨st, h2, h3⟩ := execs_ninv ss (opened_ninv hg marks sched) hf
  refine ⟨st, h2, fun c hc => ?_⟩
  rcases h3.all c hc with h | h | h
  · exact .inl h
  · exact .inr (.inl h)
  · exact .inr (.inr (h.resolve_left id))

/-- The directory goes after its record was looked up, but before its path was read: the path says so. The record behind it is about the
directory that has gone, and so is missed, and the change of `g` behind that. -/
example :
    let ss : List Step := [.op ⟨.create b!"/r" b!"a", {}⟩, .op ⟨.unlink b!"/r/d" b!"f", {}⟩, .op ⟨.create b!"/r/d" b!"h", {}⟩,
      .op ⟨.create b!"/r" b!"g", {}⟩, .read 9 [([], false), ([], false), ([], false), ([⟨.rmdir b!"/r" b!"d", {}⟩], false)], .read 9 []]
    GoodTree fkDirs ∧ ss.all (allReads keeps) = false ∧ Fine true (opened true fkDirs fkMarks []) ss ∧
      MissedLate true (opened true fkDirs fkMarks []) ss ⟨[1], b!"/r", b!"g", .create, false⟩ ∧
      MissedLate true (opened true fkDirs fkMarks []) ss ⟨[2], b!"/r/d", b!"h", .create, false⟩ ∧
      (¬ MissedLate true (opened true fkDirs fkMarks []) ss ⟨[1], b!"/r", b!"a", .create, false⟩) ∧
      ∃ st, execs true (opened true fkDirs fkMarks []) ss = .ok st ∧ st.sys.k.queue = [] ∧
        fileEvents (st.out.map Prod.fst) = [about b!"/r" b!"a" .create .file, about b!"/r/d (deleted)" b!"f" .destroy .file,
          about b!"/r" b!"d" .destroy .dir] :=
  ⟨fkDirs_good, by decide, fineB_ok _ (by decide +kernel), (missedLateB_iff _).1 (by decide +kernel), (missedLateB_iff _).1 (by decide +kernel),
    fun h => absurd ((missedLateB_iff _).2 h) (by decide +kernel), exists_ok (by decide +kernel)⟩

/-- The same for histories in which no directory is removed at all. -/
theorem C85_no_removal_partial (rf : Bool) (dirs : List (Handle × Str)) (marks : List Str) (sched : List (List Do × Bool)) (ss : List Step)
    (hg : GoodTree dirs) (hs : allSched keeps sched = true) (hk : ss.all (allOps keeps) = true) (hf : Fine rf (opened rf dirs marks sched) ss) :
    ∃ st, execs rf (opened rf dirs marks sched) ss = .ok st ∧
      ∀ c ∈ st.sys.k.log, (∃ r ∈ st.sys.k.queue, r.handle = c.handle ∧ r.name = c.name) ∨
        ∃ e ∈ fileEvents (st.out.map Prod.fst), Mentions st.sys.k.past c e :=
  C85_noticed_partial rf dirs marks sched ss hg (keeps_reads hk)
    (present_of_keeps ss (opened_sinv hg marks sched).k (opened_here hg marks sched hs) hk) hf

/-- A directory with a file is removed in two steps, with a read in between and another after it, and so is one in whose place another
is put; while the watch is opened a directory is removed as well. -/
def fkGone : List Step :=
  [.op ⟨.create b!"/r/d" b!"f", {}⟩, .op ⟨.unlink b!"/r/d" b!"f", {}⟩, .read 9 [([⟨.create b!"/r" b!"g", {}⟩], false)], .op ⟨.rmdir b!"/r" b!"d", {}⟩,
   .op ⟨.create b!"/r" b!"k", {}⟩, .read 9 [], .op ⟨.mkdir b!"/r" b!"d" [9], {}⟩, .op ⟨.mkdir b!"/r" b!"e" [8], {}⟩, .read 9 [],
   .op ⟨.create b!"/r/e" b!"h", {}⟩, .op ⟨.moveOver b!"/r" b!"e" b!"/r" b!"d", {}⟩, .read 3 []]

example : GoodTree fkDirs ∧ fkGone.all (allReads keeps) = true ∧
    (Present true (opened true fkDirs fkMarks []) fkGone ∧ Fine true (opened true fkDirs fkMarks []) fkGone) ∧
    ∃ st, execs true (opened true fkDirs fkMarks []) fkGone = .ok st ∧ st.sys.k.log.length = 10 ∧ st.sys.k.queue.length = 0 ∧
      fileEvents (st.out.map Prod.fst) = [about b!"/r/d" b!"f" .create .file, about b!"/r" b!"g" .create .file,
        about b!"/r" b!"d" .destroy .dir, about b!"/r" b!"k" .create .file, about b!"/r" b!"d" .create .dir, about b!"/r" b!"e" .create .dir,
        about b!"/r/d" b!"h" .create .file, ⟨b!"/r/e", .rename, .dir, some ⟨b!"/r/d", .rename, .dir⟩⟩] :=
  ⟨fkDirs_good, by decide, ⟨presentB_ok _ (by decide +kernel), fineB_ok _ (by decide +kernel)⟩, exists_ok (by decide +kernel)⟩

/-- A history meeting the hypotheses: opening is disturbed and one directory is missing, operations happen during look-ups
and after others, records are merged, a directory is moved while its record is pending, and reads cut the
queue. -/
def fkSteps : List Step :=
  [.op ⟨.create b!"/r/d" b!"f", {}⟩, .op ⟨.modify b!"/r/d" b!"f", {}⟩, .op ⟨.moveDir b!"/r" b!"d" b!"/r" b!"e", {}⟩,
   .read 3 [([⟨.create b!"/r" b!"g", { pid := 7 }⟩], false), ([⟨.mkdir b!"/r" b!"n" [4], {}⟩], false)],
   .op ⟨.move b!"/r" b!"g" b!"/r/e" b!"h", {}⟩, .read 3 [([⟨.create b!"/r" b!"z", {}⟩], false)], .read 2 []]
def fkSched : List (List Do × Bool) := [([⟨.create b!"/r" b!"early", {}⟩], false), ([], false), ([], false), ([⟨.create b!"/r" b!"a", {}⟩], false)]

example : GoodTree fkDirs ∧ allSched keeps fkSched = true ∧ fkSteps.all (allOps keeps) = true ∧
    Fine true (opened true fkDirs fkMarks fkSched) fkSteps ∧
    ∃ st, execs true (opened true fkDirs fkMarks fkSched) fkSteps = .ok st ∧ st.sys.k.log.length = 10 ∧ st.sys.k.queue.length = 1 :=
  ⟨fkDirs_good, by decide, by decide, fineB_ok _ (by decide +kernel), exists_ok (by decide +kernel)⟩

/-! ## C86 -/

/-- C86 in full: even if directories are removed or records merged, the events tell what was read, in order and
each change exactly once. -/
def C86_full : Prop :=
  ∀ (rf : Bool) (dirs : List (Handle × Str)) (marks : List Str) (sched : List (List Do × Bool)) (ss : List Step) (st : Fa.St World),
    GoodTree dirs → execs rf (opened rf dirs marks sched) ss = .ok st → st.sys.k.queue = [] →
    Told st.sys.k.past st.sys.k.log (fileEvents (st.out.map Prod.fst))

/-- A file is made and removed again before the watcher reads: the kernel merges the records, and only the
creation is reported. -/
theorem C86_refuted_by_merging : ¬ C86_full := by
  intro h
  have : ∃ st, execs true (opened true fkDirs fkMarks [])
      [.op ⟨.create b!"/r" b!"f", {}⟩, .op ⟨.unlink b!"/r" b!"f", {}⟩, .read 9 []] = .ok st ∧
      fileEvents (st.out.map Prod.fst) = [about b!"/r" b!"f" .create .file] ∧ st.sys.k.queue = [] ∧
      st.sys.k.log = [⟨[1], b!"/r", b!"f", .create, false⟩, ⟨[1], b!"/r", b!"f", .delete, false⟩] :=
    exists_ok (by decide +kernel)
  obtain ⟨st, h1, h2, h3, h4⟩ := this
  have ht := h true fkDirs fkMarks [] _ st fkDirs_good h1 h3
  rw [h2, h4] at ht
  cases ht with
  | one _ ht => cases ht

/-- C86 (partial: histories in which the directories of the records read are still there, no directory is removed during a
read, the kernel does not merge records and no read is like those of `Fine`). The watcher does not stop; the file events
tell the changes made in watched directories, in order and each exactly once, under a path the directory had. -/
theorem C86_in_order_partial (rf : Bool) (dirs : List (Handle × Str)) (marks : List Str) (sched : List (List Do × Bool)) (ss : List Step)
    (hg : GoodTree dirs) (hs : allSched apart sched = true) (hk : ss.all (allReads keeps) = true) (ha : ss.all (allOps apart) = true)
    (hp : Present rf (opened rf dirs marks sched) ss) (hf : Fine rf (opened rf dirs marks sched) ss) :
    ∃ st told pending, execs rf (opened rf dirs marks sched) ss = .ok st ∧ st.sys.k.log = told ++ pending ∧
      Told st.sys.k.past told (fileEvents (st.out.map Prod.fst)) ∧ (st.sys.k.queue = [] → pending = []) := by
  obtain ⟨st, seen, h1, h2⟩ := execs_tinv (m := true) ss (opened_tinv (rf := rf) hg marks sched (allSched_congr (fun _ => mild_true) hs))
    (reads_true hk ha) hf hp
  obtain ⟨P, h3, h4⟩ := h2.kept
  refine ⟨st, seen, P, h1, h3, h2.said, ?_⟩
  intro hq
  rw [hq] at h4
  cases h4
  rfl

/-- The same without any hypothesis on the directories the records are about (they may have been removed before the read): what is told is told in
order and once, and the rest of what was read was missed, in the way of `C85_missed_partial`. -/
theorem C86_missed_partial (rf : Bool) (dirs : List (Handle × Str)) (marks : List Str) (sched : List (List Do × Bool)) (ss : List Step)
    (hg : GoodTree dirs) (hs : allSched apart sched = true) (hk : ss.all (allReads keeps) = true) (ha : ss.all (allOps apart) = true)
    (hf : Fine rf (opened rf dirs marks sched) ss) :
    ∃ st seen told pending, execs rf (opened rf dirs marks sched) ss = .ok st ∧ st.sys.k.log = seen ++ pending ∧ told.Sublist seen ∧
      Told st.sys.k.past told (fileEvents (st.out.map Prod.fst)) ∧ (∀ c ∈ seen, c ∈ told ∨ Missed rf (opened rf dirs marks sched) ss c) ∧
      (st.sys.k.queue = [] → pending = []) := by
  obtain ⟨st, h1, _, _, seen, told, h2, h3, h4, h5⟩ := execs_oinv ss (opened_oinv (rf := rf) hg marks sched hs) hk ha hf
  obtain ⟨P, h6, h7⟩ := h2
  refine ⟨st, seen, told, P, h1, h6, h3, h4, fun c hc => (h5 c hc).imp id (fun h => h.resolve_left id), ?_⟩
  intro hq
  rw [hq] at h7
  cases h7
  rfl

/-- `rm -r d; touch g` between other changes. -/
example :
    let who : Who := { merge := false }
    let ss : List Step := [.op ⟨.create b!"/r" b!"a", who⟩, .op ⟨.modify b!"/r" b!"a", who⟩, .op ⟨.unlink b!"/r/d" b!"f", who⟩, .op ⟨.rmdir b!"/r" b!"d", who⟩,
      .op ⟨.create b!"/r" b!"g", who⟩, .read 9 [], .op ⟨.move b!"/r" b!"g" b!"/r" b!"k", who⟩, .read 9 []]
    GoodTree fkDirs ∧ ss.all (allReads keeps) = true ∧ ss.all (allOps apart) = true ∧ Fine true (opened true fkDirs fkMarks []) ss ∧
      ∃ st, execs true (opened true fkDirs fkMarks []) ss = .ok st ∧ st.sys.k.queue = [] ∧ st.sys.k.log.length = 7 ∧
        fileEvents (st.out.map Prod.fst) = [about b!"/r" b!"a" .create .file, about b!"/r" b!"a" .modify .file,
          ⟨b!"/r/g", .rename, .file, some ⟨b!"/r/k", .rename, .file⟩⟩] :=
  ⟨fkDirs_good, by decide, by decide, fineB_ok _ (by decide +kernel), exists_ok (by decide +kernel)⟩

/-- The same for histories in which no directory is removed at all. -/
theorem C86_no_removal_partial (rf : Bool) (dirs : List (Handle × Str)) (marks : List Str) (sched : List (List Do × Bool)) (ss : List Step)
    (hg : GoodTree dirs) (hs : allSched (fun x => keeps x && apart x) sched = true)
    (hk : ss.all (allOps (fun x => keeps x && apart x)) = true) (hf : Fine rf (opened rf dirs marks sched) ss) :
    ∃ st told pending, execs rf (opened rf dirs marks sched) ss = .ok st ∧ st.sys.k.log = told ++ pending ∧
      Told st.sys.k.past told (fileEvents (st.out.map Prod.fst)) ∧ (st.sys.k.queue = [] → pending = []) := by
  have h1 : ∀ x, (keeps x && apart x) = true → keeps x = true := fun x hx => (Bool.and_eq_true _ _ ▸ hx : _ ∧ _).1
  have h2 : ∀ x, (keeps x && apart x) = true → apart x = true := fun x hx => (Bool.and_eq_true _ _ ▸ hx : _ ∧ _).2
  exact C86_in_order_partial rf dirs marks sched ss hg (allSched_congr h2 hs) (keeps_reads (allOps_congr h1 hk)) (allOps_congr h2 hk)
    (present_of_keeps ss (opened_sinv hg marks sched).k (opened_here hg marks sched (allSched_congr h1 hs)) (allOps_congr h1 hk)) hf

/-- Met when directories are removed and replaced between the reads. -/
def fkGoneApart : List Step := fkGone.map (fun s => match s with
  | .op x => .op { x with who := { merge := false } }
  | .read n sched => .read n (sched.map (fun y => (y.1.map (fun x => { x with who := { merge := false } }), y.2))))

example : fkGoneApart.all (allReads keeps) = true ∧ fkGoneApart.all (allOps apart) = true ∧
    (Present true (opened true fkDirs fkMarks []) fkGoneApart ∧ Fine true (opened true fkDirs fkMarks []) fkGoneApart) ∧
    ∃ st, execs true (opened true fkDirs fkMarks []) fkGoneApart = .ok st ∧ st.sys.k.log.length = 10 ∧ st.sys.k.queue.length = 0 ∧
      fileEvents (st.out.map Prod.fst) = [about b!"/r/d" b!"f" .create .file, about b!"/r/d" b!"f" .destroy .file, about b!"/r" b!"g" .create .file,
        about b!"/r" b!"d" .destroy .dir, about b!"/r" b!"k" .create .file, about b!"/r" b!"d" .create .dir, about b!"/r" b!"e" .create .dir,
        about b!"/r/d" b!"h" .create .file, ⟨b!"/r/e", .rename, .dir, some ⟨b!"/r/d", .rename, .dir⟩⟩] :=
  ⟨by decide, by decide, ⟨presentB_ok _ (by decide +kernel), fineB_ok _ (by decide +kernel)⟩, exists_ok (by decide +kernel)⟩

/-- Met with moves inside, between and out of the watched directories, cut reads and disturbed look-ups. -/
def fkApart : List Step :=
  [.op ⟨.create b!"/r/d" b!"f", { merge := false }⟩, .op ⟨.modify b!"/r/d" b!"f", { merge := false }⟩,
   .op ⟨.moveDir b!"/r" b!"d" b!"/r" b!"e", { merge := false }⟩,
   .read 2 [([⟨.create b!"/r" b!"g", { merge := false }⟩], false), ([⟨.mkdir b!"/r" b!"n" [4], { merge := false }⟩], false)],
   .op ⟨.move b!"/r" b!"g" b!"/r/e" b!"h", { merge := false }⟩, .read 4 [], .read 2 [], .read 9 [],
   .op ⟨.move b!"/r/e" b!"h" b!"/o" b!"h", { merge := false }⟩]

example : GoodTree fkDirs ∧ allSched (fun x => keeps x && apart x) [] = true ∧ fkApart.all (allOps (fun x => keeps x && apart x)) = true ∧
    Fine true (opened true fkDirs fkMarks []) fkApart ∧
    ∃ st, execs true (opened true fkDirs fkMarks []) fkApart = .ok st ∧
      fileEvents (st.out.map Prod.fst) =
        [about b!"/r/e" b!"f" .create .file, about b!"/r/e" b!"f" .modify .file,
         ⟨b!"/r/d", .rename, .dir, some ⟨b!"/r/e", .rename, .dir⟩⟩, about b!"/r" b!"g" .create .file,
         about b!"/r" b!"n" .create .dir, ⟨b!"/r/g", .rename, .file, some ⟨b!"/r/e/h", .rename, .file⟩⟩] ∧
      st.sys.k.log.length = 9 ∧ st.sys.k.queue.length = 1 :=
  ⟨fkDirs_good, by decide, by decide, fineB_ok _ (by decide +kernel), exists_ok (by decide +kernel)⟩

/-- The same without a condition on the reads, for histories in which nothing is moved: however the operations
and the system calls interleave, and wherever reads cut the queue. -/
theorem C86_no_moves_partial (rf : Bool) (dirs : List (Handle × Str)) (marks : List Str) (sched : List (List Do × Bool)) (ss : List Step)
    (hg : GoodTree dirs) (hs : allSched (fun x => plain x && apart x) sched = true)
    (hk : ss.all (allOps (fun x => plain x && apart x)) = true) :
    ∃ st told pending, execs rf (opened rf dirs marks sched) ss = .ok st ∧ st.sys.k.log = told ++ pending ∧
      Told st.sys.k.past told (fileEvents (st.out.map Prod.fst)) ∧ (st.sys.k.queue = [] → pending = []) := by
  have hw : ∀ x, (plain x && apart x) = true → (keeps x && apart x) = true := by
    intro x hx
    rw [Bool.and_eq_true] at hx ⊢
    exact ⟨plain_keeps hx.1, hx.2⟩
  refine C86_no_removal_partial rf dirs marks sched ss hg (allSched_congr hw hs) (allOps_congr hw hk) (fine_plain ss (opened_plain hg marks sched ?_) ?_)
  · exact allSched_congr (fun x hx => (Bool.and_eq_true _ _ ▸ hx).1) hs
  · exact allOps_congr (fun x hx => (Bool.and_eq_true _ _ ▸ hx).1) hk

/-- Met, with files made during opening and during look-ups. -/
def fkPlain : List Step :=
  [.op ⟨.create b!"/r/d" b!"f", { merge := false }⟩, .op ⟨.mkdir b!"/r/d" b!"n" [4], { merge := false }⟩,
   .read 2 [([⟨.create b!"/r/d/n" b!"lost", { merge := false }⟩], false), ([⟨.unlink b!"/r/d" b!"f", { merge := false }⟩], false)],
   .op ⟨.modify b!"/r/d/n" b!"lost", { merge := false }⟩, .read 1 []]
def fkPlainSched : List (List Do × Bool) := [([⟨.create b!"/r/d" b!"early", { merge := false }⟩], false), ([], false), ([], false), ([], false), ([], false), ([], true)]

example : GoodTree fkDirs ∧ allSched (fun x => plain x && apart x) fkPlainSched = true ∧ fkPlain.all (allOps (fun x => plain x && apart x)) = true ∧
    ∃ st, execs true (opened true fkDirs [b!"/r/d", b!"/r"] fkPlainSched) fkPlain = .ok st ∧
      fileEvents (st.out.map Prod.fst) =
        [about b!"/r/d" b!"f" .create .file, about b!"/r/d" b!"n" .create .dir, about b!"/r/d" b!"f" .destroy .file] ∧
      st.sys.k.log.length = 4 ∧ st.sys.k.queue.length = 1 :=
  ⟨fkDirs_good, by decide, by decide, exists_ok (by decide +kernel)⟩

end Verif.Props
