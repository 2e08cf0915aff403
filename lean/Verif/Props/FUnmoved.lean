import Verif.Props.FAlways
import Verif.Props.StarveFAlways
import Verif.Lemmas.FLost6
/-!
# Histories in which nothing is moved, but directories may be removed at any time: C85, C86, C107, C163, C166

No condition on the reads is left.
-/
namespace Verif.Props
open Verif Verif.Model Verif.Model.Ad Verif.Model.FKer Verif.Spec Verif.Spec.FKer Verif.Spec.WholeF Verif.Spec.Starve Verif.Lemmas.FKer Verif.Lemmas.AdF

/-- C85 (partial: nothing is moved; directories may be removed at any time). A change that is neither pending nor mentioned was missed: at some read
its record was about a directory that had gone at the end of it, or behind such a record. -/
theorem C85_unmoved_partial (rf : Bool) (dirs : List (Handle × Str)) (marks : List Str) (sched : List (List Do × Bool)) (ss : List Step)
    (hg : GoodTree dirs) (hs : allSched unmoving sched = true) (hk : ss.all (allOps unmoving) = true) :
    ∃ st, execs rf (opened rf dirs marks sched) ss = .ok st ∧
      ∀ c ∈ st.sys.k.log, (∃ r ∈ st.sys.k.queue, r.handle = c.handle ∧ r.name = c.name) ∨
        (∃ e ∈ fileEvents (st.out.map Prod.fst), NearMentions st.sys.k.past c e) ∨ MissedLate rf (opened rf dirs marks sched) ss c :=
  C85_always_partial rf dirs marks sched ss hg (fine_unmoving ss (opened_unmoving hg marks sched hs) hk)

/-- What `C85_always_partial` and the theorems after it call missed needs a directory that is removed (or replaced by another): without that, nothing is missed. -/
theorem C85_missed_needs_removal (rf : Bool) (dirs : List (Handle × Str)) (marks : List Str) (sched : List (List Do × Bool)) (ss : List Step)
    (hg : GoodTree dirs) (hs : allSched keeps sched = true) (hk : ss.all (allOps keeps) = true) (c : Change) :
    ¬ MissedLate rf (opened rf dirs marks sched) ss c :=
  not_missed_of_keeps ss (opened_sinv hg marks sched).k (opened_here hg marks sched hs) hk c

/-- C86 (partial: nothing is moved and the kernel does not merge records; directories may be removed at any time): what is told is told in
order and once, and the rest of what was read was missed, in the way of `C85_unmoved_partial`. -/
theorem C86_unmoved_partial (rf : Bool) (dirs : List (Handle × Str)) (marks : List Str) (sched : List (List Do × Bool)) (ss : List Step)
    (hg : GoodTree dirs) (hs : allSched (fun x => unmoving x && apart x) sched = true) (hk : ss.all (allOps (fun x => unmoving x && apart x)) = true) :
    ∃ st seen told pending, execs rf (opened rf dirs marks sched) ss = .ok st ∧ st.sys.k.log = seen ++ pending ∧ told.Sublist seen ∧
      ToldNear st.sys.k.past told (fileEvents (st.out.map Prod.fst)) ∧ (∀ c ∈ seen, c ∈ told ∨ MissedLate rf (opened rf dirs marks sched) ss c) ∧
      (st.sys.k.queue = [] → pending = []) :=
  have l : ∀ x, (unmoving x && apart x) = true → unmoving x = true := fun _ h => (Bool.and_eq_true _ _ ▸ h).1
  have r : ∀ x, (unmoving x && apart x) = true → apart x = true := fun _ h => (Bool.and_eq_true _ _ ▸ h).2
  C86_always_partial rf dirs marks sched ss hg (allSched_congr r hs) (allOps_congr r hk)
    (fine_unmoving ss (opened_unmoving hg marks sched (allSched_congr l hs)) (allOps_congr l hk))

/-- C163 (partial: nothing is moved; directories may be removed at any time): once `read()` has returned as often as there were records pending, a change
that is not mentioned was missed, in the way of `C85_unmoved_partial`. -/
theorem C163_unmoved_partial (rf : Bool) (dirs : List (Handle × Str)) (marks : List Str) (sched : List (List Do × Bool)) (ss more : List Step) (hg : GoodTree dirs)
    (hs : allSched unmoving sched = true) (hk : ss.all (allOps unmoving) = true) (hk1 : more.all (allOps unmoving) = true) (st st1 : Fa.St World)
    (hst : execs rf (opened rf dirs marks sched) ss = .ok st) (hst1 : execs rf st more = .ok st1) (hr : st.sys.k.queue.length ≤ fReads rf st more) :
    ∀ c ∈ st.sys.k.log, (∃ e ∈ fileEvents (st1.out.map Prod.fst), NearMentions st1.sys.k.past c e) ∨
      MissedLate rf (opened rf dirs marks sched) ss c ∨ MissedLate rf st more c :=
  have hq := opened_unmoving (rf := rf) hg marks sched hs
  C163_always_partial rf dirs marks sched ss more hg (fine_unmoving ss hq hk) st st1 hst
    (fine_unmoving more (execs_unmoving ss hq hk hst) hk1) hst1 hr

private theorem unmoved_start {dirs : List (Handle × Str)} {cfg : Life.Cfg} (hg : GoodTree dirs) :
    FSt (fun w => KInv w.k ∧ Unmoved w.k) QInv (start cfg dirs) :=
  ⟨⟨kinv_open hg, fun c hc => by cases hc⟩, trivial⟩

/-- C107 (partial: nothing is moved and the kernel does not merge records). The history has no undefined behaviour; whenever the watch
waits or has finished, the file events of the callback tell some of the changes, in order and none twice, whenever directories are removed, during reads as well; the
paths may then bear the mark of a removed directory. -/
theorem C107_unmoved_partial (rf : Bool) (cfg : Life.Cfg) (E : Env World) (hE : E.fa = FKer.sys rf) (dirs : List (Handle × Str))
    (hs : List HStep) (hg : GoodTree dirs) (hk : hs.all (allDo (fun x => unmoving x && apart x)) = true) :
    ∃ o, hrun cfg E (start cfg dirs) hs = .ok o ∧
      ∀ c, o = some c → (∃ second, c.life.w = .aWait second) ∨ c.life.w = .finished →
        ∃ told, told.Sublist c.back.world.k.log ∧ ToldNear c.back.world.k.past told (fileEvents (callbacks c.life.log)) :=
  C107_always_partial rf cfg E hE dirs hs hg (allDo_congr (fun _ h => (Bool.and_eq_true _ _ ▸ h).2) hk)
    (fineReads_of_unmoving hE hs _ (unmoved_start hg) (allDo_congr (fun _ h => (Bool.and_eq_true _ _ ▸ h).1) hk))

/-- C166 (partial: nothing is moved; directories may be removed at any time). Once the watch has been woken up to read as often as there were
records pending, and waits again or has finished, the callback has been told an event about each change that was pending, or the change was missed: at one of the
reads its record was about a directory that had gone at the end of it, or behind such a record. -/
theorem C166_unmoved_partial (rf : Bool) (cfg : Life.Cfg) (E : Env World) (hE : E.fa = FKer.sys rf) (dirs : List (Handle × Str))
    (hs more : List HStep) (c c1 : CS World) (st : Fa.St World) (hg : GoodTree dirs)
    (hk : hs.all (allDo unmoving) = true) (hk1 : more.all (allDo unmoving) = true) (h : hrun cfg E (start cfg dirs) hs = .ok (some c)) (hb : c.back = .fa st)
    (h1 : hrun cfg E c more = .ok (some c1)) (hr : st.sys.k.queue.length ≤ fWakes more)
    (hw : (∃ second, c1.life.w = .aWait second) ∨ c1.life.w = .finished) :
    ∀ x ∈ st.sys.k.log, (∃ r ∈ st.sys.k.queue, r.handle = x.handle ∧ r.name = x.name) →
      (∃ e ∈ fileEvents (callbacks c1.life.log), NearMentions c1.back.world.k.past x e) ∨ MissedLate rf st (fSteps more) x :=
  C166_always_partial rf cfg E hE dirs hs more c c1 st hg (fineReads_of_unmoving hE hs _ (unmoved_start hg) hk)
    (fineReads_of_unmoving hE more c ((hrun_fst hE (keeps_unmoving rf) hs _ (unmoved_start hg) hk (readsOk_true hs _)).2 c h) hk1) h hb h1 hr hw

/-! ## A watch that gets one record at a time -/

/-- C85 (partial: every read gets at most one record; everything else, moves, merged records and removals at any time and during reads, is allowed). A change is pending, or
mentioned, or its directory has gone. -/
theorem C85_lone_partial (rf : Bool) (dirs : List (Handle × Str)) (marks : List Str) (sched : List (List Do × Bool)) (ss : List Step)
    (hg : GoodTree dirs) (hl : Lone rf (opened rf dirs marks sched) ss) :
    ∃ st, execs rf (opened rf dirs marks sched) ss = .ok st ∧
      ∀ c ∈ st.sys.k.log, (∃ r ∈ st.sys.k.queue, r.handle = c.handle ∧ r.name = c.name) ∨
        (∃ e ∈ fileEvents (st.out.map Prod.fst), NearMentions st.sys.k.past c e) ∨ c.handle ∉ st.sys.k.dirs.map (·.1) := by
  obtain ⟨st, h1, h2⟩ := C85_always_partial rf dirs marks sched ss hg (fine_of_lone ss hl)
  exact ⟨st, h1, fun c hc => (h2 c hc).imp id (Or.imp id (lone_missed ss (opened_sinv hg marks sched).k hl h1 c))⟩

/-- C163 (partial: the same): after as many reads as records were pending, every change made before in a directory that is still there is mentioned. -/
theorem C163_lone_partial (rf : Bool) (dirs : List (Handle × Str)) (marks : List Str) (sched : List (List Do × Bool)) (ss more : List Step) (hg : GoodTree dirs)
    (hl : Lone rf (opened rf dirs marks sched) ss) (st st1 : Fa.St World) (hst : execs rf (opened rf dirs marks sched) ss = .ok st)
    (hl1 : Lone rf st more) (hst1 : execs rf st more = .ok st1) (hr : st.sys.k.queue.length ≤ fReads rf st more) :
    ∀ c ∈ st.sys.k.log, c.handle ∈ st1.sys.k.dirs.map (·.1) → ∃ e ∈ fileEvents (st1.out.map Prod.fst), NearMentions st1.sys.k.past c e := by
  intro c hc hd
  have hk0 := (opened_sinv (rf := rf) hg marks sched).k
  have a := execs_grows ss hk0 hst
  have b := execs_grows more a.1 hst1
  rcases C163_always_partial rf dirs marks sched ss more hg (fine_of_lone ss hl) st st1 hst (fine_of_lone more hl1) hst1 hr c hc with h | h | h
  · exact h
  · exact absurd (b.2.2 _ (List.mem_map.2 ⟨_, (a.1.logged c hc).1, rfl⟩) hd) (lone_missed ss hk0 hl hst c h)
  · exact absurd hd (lone_missed more a.1 hl1 hst1 c h)

private def loneAt (st : Fa.St World) : Step → Bool
  | .op _ => true
  | .read n _ => decide ((st.sys.k.queue.take n).length ≤ 1)

/-- Checks `Lone`. -/
private def loneB (rf : Bool) (st : Fa.St World) : List Step → Bool
  | [] => true
  | s :: ss => loneAt st s && (match exec rf st s with | .ok st' => loneB rf st' ss | .ub _ => true)

private theorem loneB_ok {rf : Bool} : ∀ (ss : List Step) {st : Fa.St World}, loneB rf st ss = true → Lone rf st ss := by
  intro ss
  induction ss with
  | nil => intro st _; trivial
  | cons s ss ih =>
    intro st h
    rw [loneB, Bool.and_eq_true] at h
    have key : ∀ st', exec rf st s = .ok st' → Lone rf st' ss := by
      intro st' he
      have h2 := h.2
      rw [he] at h2
      exact ih h2
    cases s with
    | op x => exact key
    | read n sched => exact ⟨of_decide_eq_true h.1, key⟩

/-- Single records; a directory goes, one is moved, records are merged, and an old name comes apart from its new name. -/
private def loneSteps : List Step :=
  [.op ⟨.create b!"/r" b!"a", {}⟩, .op ⟨.modify b!"/r" b!"a", {}⟩, .read 9 [], .op ⟨.unlink b!"/r/d" b!"f", {}⟩, .op ⟨.unlink b!"/r/d" b!"h", {}⟩,
    .read 1 [([], false), ([⟨.rmdir b!"/r" b!"d", {}⟩], false)], .read 1 [], .read 1 [],
    .op ⟨.move b!"/r" b!"a" b!"/r" b!"k", {}⟩, .read 1 [], .read 1 []]

example : GoodTree fkDirs ∧ Lone true (opened true fkDirs fkMarks []) loneSteps ∧ loneSteps.all (allOps unmoving) = false ∧
    ∃ st, execs true (opened true fkDirs fkMarks []) loneSteps = .ok st ∧ st.sys.k.queue = [] ∧ st.sys.k.log.length = 7 ∧
      (⟨[2], b!"/r/d", b!"h", .delete, false⟩ : Change) ∈ st.sys.k.log ∧ [2] ∉ st.sys.k.dirs.map (·.1) ∧
      fileEvents (st.out.map Prod.fst) = [about b!"/r" b!"a" .create .file, about b!"/r/d (deleted)" b!"f" .destroy .file,
        about b!"/r" b!"d" .destroy .dir, about b!"/r" b!"a" .rename .file, about b!"/r" b!"k" .rename .file] :=
  ⟨fkDirs_good, loneB_ok _ (by decide +kernel), by decide, exists_ok (by decide +kernel)⟩

/-- The directory goes during the first of two reads. -/
example :
    let ss : List Step := [.op ⟨.unlink b!"/r/d" b!"f", {}⟩, .op ⟨.create b!"/r" b!"g", {}⟩]
    let more : List Step := [.read 1 [([], false), ([⟨.rmdir b!"/r" b!"d", {}⟩], false)], .read 1 []]
    GoodTree fkDirs ∧ Lone true (opened true fkDirs fkMarks []) ss ∧ ∃ st, execs true (opened true fkDirs fkMarks []) ss = .ok st ∧
      Lone true st more ∧ st.sys.k.queue.length = fReads true st more ∧ ∃ st1, execs true st more = .ok st1 ∧ [1] ∈ st1.sys.k.dirs.map (·.1) := by
  refine ⟨fkDirs_good, loneB_ok _ (by decide +kernel), ?_⟩
  obtain ⟨st, h1, h2, h3, h4⟩ : ∃ st, execs true (opened true fkDirs fkMarks []) [.op ⟨.unlink b!"/r/d" b!"f", {}⟩, .op ⟨.create b!"/r" b!"g", {}⟩] = .ok st ∧
      loneB true st [.read 1 [([], false), ([⟨.rmdir b!"/r" b!"d", {}⟩], false)], .read 1 []] = true ∧
      st.sys.k.queue.length = fReads true st [.read 1 [([], false), ([⟨.rmdir b!"/r" b!"d", {}⟩], false)], .read 1 []] ∧
      (match execs true st [.read 1 [([], false), ([⟨.rmdir b!"/r" b!"d", {}⟩], false)], .read 1 []] with
        | .ok st1 => decide ([1] ∈ st1.sys.k.dirs.map (·.1)) | .ub _ => false) = true := exists_ok (by decide +kernel)
  refine ⟨st, h1, loneB_ok _ h2, h3, ?_⟩
  split at h4
  case h_2 => cases h4
  rename_i st1 hx
  exact ⟨st1, hx, of_decide_eq_true h4⟩

/-- C86 (partial: every read gets at most one record and the kernel does not merge records; moves and removals at any time and during reads are allowed): of the changes
read, those in directories that are still there are told, all that is told is told in order and once. -/
theorem C86_lone_partial (rf : Bool) (dirs : List (Handle × Str)) (marks : List Str) (sched : List (List Do × Bool)) (ss : List Step)
    (hg : GoodTree dirs) (hs : allSched apart sched = true) (ha : ss.all (allOps apart) = true) (hl : Lone rf (opened rf dirs marks sched) ss) :
    ∃ st seen told pending, execs rf (opened rf dirs marks sched) ss = .ok st ∧ st.sys.k.log = seen ++ pending ∧ told.Sublist seen ∧
      ToldNear st.sys.k.past told (fileEvents (st.out.map Prod.fst)) ∧ (∀ c ∈ seen, c.handle ∈ st.sys.k.dirs.map (·.1) → c ∈ told) ∧
      (st.sys.k.queue = [] → pending = []) := by
  obtain ⟨st, seen, told, P, h1, h2, h3, h4, h5, h6⟩ := C86_always_partial rf dirs marks sched ss hg hs ha (fine_of_lone ss hl)
  exact ⟨st, seen, told, P, h1, h2, h3, h4, fun c hc hd => (h5 c hc).resolve_right
    fun h => lone_missed ss (opened_sinv hg marks sched).k hl h1 c h hd, h6⟩

/-- Single records that are not merged; a directory goes. -/
example :
    let who : Who := { merge := false }
    let ss : List Step := [.op ⟨.create b!"/r" b!"a", who⟩, .read 9 [], .op ⟨.unlink b!"/r/d" b!"f", who⟩, .op ⟨.unlink b!"/r/d" b!"h", who⟩,
      .read 1 [([], false), ([⟨.rmdir b!"/r" b!"d", who⟩], false)], .read 1 [], .op ⟨.modify b!"/r" b!"a", who⟩, .read 1 [], .read 1 []]
    GoodTree fkDirs ∧ ss.all (allOps apart) = true ∧ Lone true (opened true fkDirs fkMarks []) ss ∧
      ∃ st, execs true (opened true fkDirs fkMarks []) ss = .ok st ∧ st.sys.k.queue = [] ∧ st.sys.k.log.length = 5 ∧
        fileEvents (st.out.map Prod.fst) = [about b!"/r" b!"a" .create .file, about b!"/r/d (deleted)" b!"f" .destroy .file,
          about b!"/r" b!"d" .destroy .dir, about b!"/r" b!"a" .modify .file] :=
  ⟨fkDirs_good, by decide, loneB_ok _ (by decide +kernel), exists_ok (by decide +kernel)⟩

/-! ## Such a history -/

/-- Directories are removed between and during reads; one of the changes is missed. -/
private def unmovedSteps : List Step :=
  [.op ⟨.create b!"/r" b!"a", { merge := false }⟩, .op ⟨.unlink b!"/r/d" b!"f", { merge := false }⟩, .op ⟨.unlink b!"/r/d" b!"h", { merge := false }⟩,
    .read 9 [([], false), ([], false), ([], false), ([⟨.rmdir b!"/r" b!"d", { merge := false }⟩], false)],
    .op ⟨.mkdir b!"/r" b!"d" [7], { merge := false }⟩, .read 9 [], .op ⟨.create b!"/r/d" b!"f", { merge := false }⟩, .read 9 []]

example : GoodTree fkDirs ∧ unmovedSteps.all (allOps (fun x => unmoving x && apart x)) = true ∧ unmovedSteps.all (allOps plain) = false ∧
    MissedLate true (opened true fkDirs fkMarks []) unmovedSteps ⟨[2], b!"/r/d", b!"h", .delete, false⟩ ∧
    (¬ MissedLate true (opened true fkDirs fkMarks []) unmovedSteps ⟨[1], b!"/r", b!"a", .create, false⟩) ∧
    ∃ st, execs true (opened true fkDirs fkMarks []) unmovedSteps = .ok st ∧ st.sys.k.queue = [] ∧ st.sys.k.log.length = 6 ∧
      fileEvents (st.out.map Prod.fst) = [about b!"/r" b!"a" .create .file, about b!"/r/d (deleted)" b!"f" .destroy .file,
        about b!"/r" b!"d" .destroy .dir, about b!"/r" b!"d" .create .dir, about b!"/r/d" b!"f" .create .file] :=
  ⟨fkDirs_good, by decide, by decide, (missedLateB_iff _).1 (by decide +kernel),
    fun h => absurd ((missedLateB_iff _).2 h) (by decide +kernel), exists_ok (by decide +kernel)⟩

end Verif.Props
