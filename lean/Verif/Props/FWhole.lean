import Verif.Props.Adapter
import Verif.Props.FKernel
import Verif.Lemmas.FWhole2
/-!
# A whole watch that uses fanotify: C106 - C108

Owner, worker, stop signal, the callback, the fanotify back end and the kernel of `Model/FKernel.lean`
together; the histories are those of `Spec/FWhole.lean`.
-/

namespace Verif.Props
open Verif Verif.Model Verif.Model.Ad Verif.Model.FKer Verif.Spec Verif.Spec.FKer Verif.Spec.WholeF Verif.Lemmas.FKer Verif.Lemmas.AdF

private theorem file_one {l : List Ev} {m : Ev} (h : m.ptype = .watcher) : fileEvents (l ++ [m]) = fileEvents l := by
  simp [fileEvents, h]

theorem freach {cfg : Life.Cfg} {E : Env World} {dirs : List (Handle × Str)} {hs : List HStep} {c : CS World}
    (h : hrun cfg E (start cfg dirs) hs = .ok (some c)) : CReach cfg E c := hrun_reach ⟨_, [], rfl⟩ h

/-- Whenever the watcher waits or has finished, the file events of the callback are those of the back end. -/
theorem fsettled {cfg : Life.Cfg} {E : Env World} {c : CS World} (hr : CReach cfg E c)
    (hw : (∃ second, c.life.w = .aWait second) ∨ c.life.w = .finished) : fileEvents (callbacks c.life.log) = fileEvents (handed c) := by
  have hlive : ∀ b l, fileEvents (liveMsg cfg.path b :: l) = fileEvents l := by intro b l; rfl
  rcases hw with ⟨sec, hw⟩ | hw
  · rw [C79_caught_up cfg E c hr sec hw, hlive]
  · rcases C79_nothing_lost cfg E c hr hw with ⟨h3, h4⟩ | h4 | ⟨m, h3, h4⟩
    · rw [h3, h4]; rfl
    · rw [h4, hlive, file_one rfl]
    · rw [h4, hlive]
      have : handed c ++ [m, dieMsg cfg.path false] = (handed c ++ [m]) ++ [dieMsg cfg.path false] := by simp
      rw [this, file_one rfl, file_one h3.1]

/-- At any time, each file event of the callback was handed over by the back end. -/
private theorem told_handed {cfg : Life.Cfg} {E : Env World} {c : CS World} (hr : CReach cfg E c) {e : Ev}
    (he : e ∈ fileEvents (callbacks c.life.log)) : e ∈ fileEvents (handed c) := by
  have hm := List.mem_filter.1 he
  rcases C79_in_order cfg E c hr with h | ⟨ok, got, ms, h1, h2, _, _, h5⟩
  · rw [h] at hm; cases hm.1
  · rw [h1] at hm
    refine List.mem_filter.2 ⟨?_, hm.2⟩
    rcases List.mem_cons.1 hm.1 with rfl | hx
    · have := hm.2; simp [liveMsg] at this
    · rcases List.mem_append.1 hx with hx | hx
      · exact h2.subset hx
      · have := hm.2; rw [h5 _ hx] at this; simp at this

/-! ## C106 -/

/-- C106 in full: at every moment of every history, each file event the callback has received is about a change
made in a directory watched at that moment, under a path this directory has or had. -/
def C106_full : Prop :=
  ∀ (rf : Bool) (cfg : Life.Cfg) (E : Env World), E.fa = FKer.sys rf → ∀ (dirs : List (Handle × Str)) (hs : List HStep) (c : CS World),
    GoodTree dirs → hrun cfg E (start cfg dirs) hs = .ok (some c) →
    ∀ e ∈ fileEvents (callbacks c.life.log), Genuine (At c.back.world.k.past) c.back.world.k.log e

/-- C106 (partial: a path may carry the suffix `readlink` gives to a removed directory). All histories: any
operations at any time, even during the watcher's system calls, records merged by the kernel, reads that cut
them anywhere, all schedules of the threads, stops at any moment. -/
theorem C106_genuine_partial (rf : Bool) (cfg : Life.Cfg) (E : Env World) (hE : E.fa = FKer.sys rf) (dirs : List (Handle × Str))
    (hs : List HStep) (c : CS World) (hg : GoodTree dirs) (hr : hrun cfg E (start cfg dirs) hs = .ok (some c)) :
    ∀ e ∈ fileEvents (callbacks c.life.log), Genuine (Near c.back.world.k.past) c.back.world.k.log e := by
  have h := (hrun_fst (cfg := cfg) hE (keeps_hinv rf) hs (start cfg dirs) ⟨kinv_open hg, trivial⟩
    (List.all_eq_true.2 (fun a _ => by cases a <;> simp [allDo, allSched])) (readsOk_true hs _)).2 c hr
  intro e he
  have he := told_handed (freach hr) he
  cases hb : c.back with
  | none w => simp only [handed, hb, Back.out] at he; cases he
  | inn st => simp only [FSt, hb] at h
  | fa st =>
    simp only [FSt, hb] at h
    simp only [handed, hb, Back.out] at he
    exact h.1.out e he

/-- C106 (partial: no directory is removed during a read, that is, between the `read` and the lookup of its last
record): as stated, for every such history. -/
theorem C106_paths_partial (rf : Bool) (cfg : Life.Cfg) (E : Env World) (hE : E.fa = FKer.sys rf) (dirs : List (Handle × Str))
    (hs : List HStep) (c : CS World) (hg : GoodTree dirs) (hk : hs.all (allWakes keeps) = true)
    (hr : hrun cfg E (start cfg dirs) hs = .ok (some c)) :
    ∀ e ∈ fileEvents (callbacks c.life.log), Genuine (At c.back.world.k.past) c.back.world.k.log e := by
  have h := (hrun_fst (cfg := cfg) hE (keeps_sinv rf) hs (start cfg dirs)
    ⟨kinv_open hg, trivial⟩ (List.all_eq_true.2 (fun a _ => by cases a <;> simp [allDo, allSched])) (readsOk_during hs _ hk)).2 c hr
  intro e he
  have he := told_handed (freach hr) he
  cases hb : c.back with
  | none w => simp only [handed, hb, Back.out] at he; cases he
  | inn st => simp only [FSt, hb] at h
  | fa st =>
    simp only [FSt, hb] at h
    simp only [handed, hb, Back.out] at he
    exact h.1.out e he

private def cfgF : Life.Cfg := { path := b!"/r", dirOk := true, fdOk := true }
private def envF : Env World where
  fa := FKer.sys true
  inn := { realpath := fun n _ => (none, n), isDir := fun n _ => (false, n), addWatch := fun n _ => (-1, n) }

private theorem ranF {o : Outcome (Option (CS World))} {p : CS World → Prop} [DecidablePred p]
    (h : (match o with | .ok (some a) => decide (p a) | _ => false) = true) : ∃ a, o = .ok (some a) ∧ p a := by
  cases o with
  | ok a =>
    cases a with
    | none => cases h
    | some a => exact ⟨a, rfl, by simpa using h⟩
  | ub => cases h

/-- Start, live message, fanotify on the given directories. -/
private def beginF (marks : List Str) (sched : List (List Do × Bool)) : List HStep :=
  [.thread .w, .thread .w, .thread .w, .thread .cbReturn, .openFanotify ⟨true, 5, marks, ⟨6, true, true⟩⟩ sched]

/-- The callback runs for the next event. -/
private def deliver : List HStep := [.thread .w, .thread .cbReturn]
/-- The worker finishes a wake-up. -/
private def rest2 : List HStep := [.thread .w, .thread .w]

/-- A file is removed, and its directory while the record is looked up. -/
private def removedHs : List HStep :=
  beginF [b!"/r", b!"/r/d"] [] ++ rest2 ++ [.op ⟨.unlink b!"/r/d" b!"f", {}⟩,
    .wakeRead 9 [([], false), ([⟨.rmdir b!"/r" b!"d", {}⟩], false)], .thread .w] ++ deliver ++ rest2

private theorem removed_ran : ∃ c, hrun cfgF envF (start cfgF fkDirs) removedHs = .ok (some c) ∧
    c.life.w = .aWait false ∧ fileEvents (callbacks c.life.log) = [about b!"/r/d (deleted)" b!"f" .destroy .file] ∧
    (c.back.world.k.past.all (fun e => e.2.length ≤ 4)) = true ∧ (c.back.world.k.log.all (fun c => c.name.length ≤ 1)) = true :=
  ranF (by decide +kernel)

/-- C106 as stated is false of the code, for the reason C84 is. -/
theorem C106_refuted : ¬ C106_full := by
  intro h
  obtain ⟨c, h1, _, h2, h3, h4⟩ := removed_ran
  obtain ⟨x, hc, ⟨d, hd, hp⟩, _⟩ := h true cfgF envF rfl fkDirs _ c fkDirs_good h1 _ (by rw [h2]; exact List.mem_cons_self)
  have h3 := of_decide_eq_true (List.all_eq_true.1 h3 _ hd)
  have h4 := of_decide_eq_true (List.all_eq_true.1 h4 _ hc)
  have := congrArg List.length hp
  simp [about] at this
  simp only at h3
  omega

/-- Met by that history, and by one without removals that is stopped in the middle of a batch. -/
example : ∃ c, hrun cfgF envF (start cfgF fkDirs) removedHs = .ok (some c) ∧ (fileEvents (callbacks c.life.log)).length = 1 := by
  obtain ⟨c, h1, _, h2, _⟩ := removed_ran
  exact ⟨c, h1, by rw [h2]; rfl⟩

/-- Changes before and during the opening, a directory moved while its record is pending, close() while the
events are delivered. -/
private def movedHs : List HStep :=
  [.op ⟨.mkdir b!"/r/d" b!"n" [4], {}⟩] ++ beginF [b!"/r", b!"/r/d", b!"/r/d/n"] [([⟨.create b!"/r" b!"early", {}⟩], false)] ++ rest2 ++
  [.op ⟨.create b!"/r/d/n" b!"f", {}⟩, .op ⟨.moveDir b!"/r" b!"d" b!"/r" b!"e", {}⟩,
   .wakeRead 3 [([⟨.create b!"/r" b!"g", { pid := 7 }⟩], false)], .thread .w] ++ deliver ++
  [.thread .oClose, .thread .o, .thread .o, .thread .o, .thread .o] ++ deliver ++ rest2 ++
  [.wakeBoth true 9 [], .thread .w, .thread .w] ++ deliver ++ [.thread .w, .thread .w]

private theorem moved_ran : ∃ c, hrun cfgF envF (start cfgF fkDirs) movedHs = .ok (some c) ∧
    fileEvents (callbacks c.life.log) = [about b!"/r/e/n" b!"f" .create .file, ⟨b!"/r/d", .rename, .dir, some ⟨b!"/r/e", .rename, .dir⟩⟩,
      about b!"/r" b!"g" .create .file] := ranF (by decide +kernel)

example : movedHs.all (allDo keeps) = true ∧ ∃ c, hrun cfgF envF (start cfgF fkDirs) movedHs = .ok (some c) ∧
    (fileEvents (callbacks c.life.log)).length = 3 := by
  refine ⟨by decide, ?_⟩
  obtain ⟨c, h1, h2⟩ := moved_ran
  exact ⟨c, h1, by rw [h2]; rfl⟩

/-- A directory is removed while a record about it is pending: neither that record nor the one after it is told, but
what is told is genuine. -/
private def pendingHs : List HStep :=
  beginF [b!"/r", b!"/r/d"] [] ++ rest2 ++ [.op ⟨.create b!"/r" b!"g", {}⟩, .op ⟨.unlink b!"/r/d" b!"f", {}⟩,
    .op ⟨.rmdir b!"/r" b!"d", {}⟩, .wakeRead 1 [], .thread .w] ++ deliver ++ rest2 ++ [.wakeRead 9 [], .thread .w] ++ rest2

example : pendingHs.all (allWakes keeps) = true ∧ pendingHs.all (allDo keeps) = false ∧
    ∃ c, hrun cfgF envF (start cfgF fkDirs) pendingHs = .ok (some c) ∧ c.back.world.k.log.length = 3 ∧ c.life.w = .aWait false ∧ c.back.world.k.queue = [] ∧
      fileEvents (callbacks c.life.log) = [about b!"/r" b!"g" .create .file] :=
  ⟨by decide, by decide, ranF (by decide +kernel)⟩

/-! ## C107 -/

/-- The callback has been told, in order and each exactly once, the changes made in watched directories, up to
a rest that is still pending in the kernel. -/
def ToldUpTo (c : CS World) : Prop :=
  ∃ told pending, c.back.world.k.log = told ++ pending ∧ Told c.back.world.k.past told (fileEvents (callbacks c.life.log)) ∧
    (c.back.world.k.queue = [] → pending = [])

/-- C107 in full: no history reaches undefined behaviour, and whenever the watcher waits or has finished, the
callback has been told the changes, each exactly once and in order. -/
def C107_full : Prop :=
  ∀ (rf : Bool) (cfg : Life.Cfg) (E : Env World), E.fa = FKer.sys rf → ∀ (dirs : List (Handle × Str)) (hs : List HStep), GoodTree dirs →
    ∃ o, hrun cfg E (start cfg dirs) hs = .ok o ∧
      ∀ c, o = some c → (∃ second, c.life.w = .aWait second) ∨ c.life.w = .finished → ToldUpTo c

private theorem told_of_tinv {cfg : Life.Cfg} {E : Env World} {dirs : List (Handle × Str)} {hs : List HStep} {c : CS World}
    (hr : hrun cfg E (start cfg dirs) hs = .ok (some c)) (hw : (∃ second, c.life.w = .aWait second) ∨ c.life.w = .finished)
    (h : FSt (fun w => KInv w.k ∧ Kept true [] w.k) (fun st => ∃ seen, TInv true st seen) c) : ToldUpTo c := by
  unfold ToldUpTo
  rw [fsettled (freach hr) hw]
  cases hb : c.back with
  | none w =>
    simp only [FSt, hb] at h
    obtain ⟨⟨_, P, h3, h4⟩, _⟩ := h
    simp only [handed, hb, Back.out, Back.world]
    refine ⟨[], P, h3, .nil, ?_⟩
    intro hq
    rw [hq] at h4
    cases h4; rfl
  | inn st => simp only [FSt, hb] at h
  | fa st =>
    simp only [FSt, hb] at h
    obtain ⟨⟨seen, ht⟩, _⟩ := h
    obtain ⟨P, h3, h4⟩ := ht.kept
    simp only [handed, hb, Back.out, Back.world]
    refine ⟨seen, P, h3, ht.said, ?_⟩
    intro hq
    rw [hq] at h4
    cases h4; rfl

theorem kept_start (dirs : List (Handle × Str)) : Kept true [] { dirs := dirs, past := dirs } := ⟨[], rfl, .nil⟩

/-- C107 (partial: no directory is removed during a read or while a record about it is pending, the kernel does
not merge records, and no read returns a new name directly followed by an old name or fills the buffer up to a
rename). -/
theorem C107_in_order_partial (rf : Bool) (cfg : Life.Cfg) (E : Env World) (hE : E.fa = FKer.sys rf) (dirs : List (Handle × Str))
    (hs : List HStep) (hg : GoodTree dirs) (ha : hs.all (allDo apart) = true) (hk : hs.all (allWakes keeps) = true)
    (hp : PresentReads cfg E (start cfg dirs) hs) (hf : FineReads cfg E (start cfg dirs) hs) :
    ∃ o, hrun cfg E (start cfg dirs) hs = .ok o ∧
      ∀ c, o = some c → (∃ second, c.life.w = .aWait second) ∨ c.life.w = .finished → ToldUpTo c := by
  obtain ⟨h1, h2⟩ := hrun_fst (cfg := cfg) hE (keeps_tinv rf true) hs (start cfg dirs)
    ⟨⟨kinv_open hg, kept_start dirs⟩, trivial⟩ (allDo_congr (fun _ => mild_true) ha) (told1_of hf hp hk)
  obtain ⟨o, h1⟩ := h1 rfl
  refine ⟨o, h1, ?_⟩
  intro c ho hw
  subst ho
  exact told_of_tinv h1 hw (h2 c h1)

/-! Without the hypothesis that directories are still there when records about them are read. -/

private def Read2 : K → List FRec → List (List Do × Bool) → Prop := fun _ rs sched => (NoSwap rs ∧ Roomy rs) ∧ allSched keeps sched = true

private theorem read_recv_o {missed : Change → Prop} {rf : Bool} {st : Fa.St World} (h : OInv st missed) (n : Nat) (sched : List (List Do × Bool))
    (hs : allSched apart sched = true) (hf : (bytesOf st.sys n).length ≤ 4096) (hR : Read2 st.sys.k (st.sys.k.queue.take n) sched) :
    ∃ st' r missed', Model.Fa.doEvRecv (Model.FKer.sys rf) (.data (bytesOf st.sys n)) { st with sys := taken st.sys n sched } = .ok (st', r) ∧
      OInv st' missed' := by
  obtain ⟨st', h1, h2⟩ := read_oinv (rf := rf) h n sched hs hR.2 hR.1.1 hR.1.2
  simp only [exec] at h1
  rw [if_pos (show (fbatch (st.sys.k.queue.take n)).length ≤ Model.Fa.bufLen from hf)] at h1
  obtain ⟨⟨st1, r⟩, h3, h4⟩ := Lemmas.Ad.bind_ok_inv h1
  simp only at h4
  split at h4
  · simp only [Outcome.pure_eq, Outcome.ok.injEq] at h4
    subst h4
    exact ⟨st1, r, _, h3, h2⟩
  · cases h4

private theorem keeps_oinv (rf : Bool) : Keeps rf apart Read2 true
    (fun w => KInv w.k ∧ Kept true [] w.k) (fun st => ∃ missed, OInv st missed) where
  opW := fun w x h hx => (keeps_tinv rf true).opW w x h (mild_true hx)
  opP := fun st x ⟨_, h⟩ hx => ⟨_, op_oinv h x hx⟩
  openP := fun w marks sched h hs => by
    have h1 := tinv_open (rf := rf) (m := true) w marks sched h (allSched_congr (fun _ => mild_true) hs)
    exact ⟨fun _ => False, h1.k, h1.buf, [], [], h1.kept, .slnil, h1.said, fun c hc => by cases hc⟩
  recvP := by
    intro st n sched st' r ⟨missed, h⟩ hs hf hR h1
    obtain ⟨st1, r1, m1, h2, h3⟩ := read_recv_o (rf := rf) h n sched hs hf hR
    rw [h1] at h2
    cases h2
    exact ⟨m1, h3⟩
  safe := by
    intro _ st n sched ⟨missed, h⟩ hs hf hR
    obtain ⟨st1, r1, m1, h2, h3⟩ := read_recv_o (rf := rf) h n sched hs hf hR
    exact ⟨_, h2⟩

private theorem read2_of {cfg : Life.Cfg} {E : Env World} : ∀ {hs : List HStep} {c : CS World}, FineReads cfg E c hs → hs.all (allWakes keeps) = true →
    ReadsOk Read2 cfg E c hs := by
  intro hs
  induction hs with
  | nil => intro c _ _; trivial
  | cons a as ih =>
    intro c hf hk
    rw [List.all_cons, Bool.and_eq_true] at hk
    refine ⟨?_, fun c' hc => ih (hf.2 c' hc) hk.2⟩
    have := hf.1
    cases a with
    | wakeRead n sched => exact ⟨this, hk.1⟩
    | wakeBoth f n sched => exact ⟨this, hk.1⟩
    | _ => trivial

/-- C107 (partial: directories may go at any time but during a read; the kernel does not merge records, and no read is like those
excluded by `FineReads`). The history has no undefined behaviour; whenever the watch waits or has finished, the file events of the callback tell some
of the changes, in order and none twice. (Which ones may be left out: `C86_missed_partial`, `C166_missed_partial`.) -/
theorem C107_never_twice_partial (rf : Bool) (cfg : Life.Cfg) (E : Env World) (hE : E.fa = FKer.sys rf) (dirs : List (Handle × Str))
    (hs : List HStep) (hg : GoodTree dirs) (ha : hs.all (allDo apart) = true) (hk : hs.all (allWakes keeps) = true)
    (hf : FineReads cfg E (start cfg dirs) hs) :
    ∃ o, hrun cfg E (start cfg dirs) hs = .ok o ∧
      ∀ c, o = some c → (∃ second, c.life.w = .aWait second) ∨ c.life.w = .finished →
        ∃ told, told.Sublist c.back.world.k.log ∧ Told c.back.world.k.past told (fileEvents (callbacks c.life.log)) := by
  obtain ⟨h1, h2⟩ := hrun_fst (cfg := cfg) hE (keeps_oinv rf) hs (start cfg dirs)
    ⟨⟨kinv_open hg, kept_start dirs⟩, trivial⟩ ha (read2_of hf hk)
  obtain ⟨o, h1⟩ := h1 rfl
  refine ⟨o, h1, ?_⟩
  intro c ho hw
  subst ho
  rw [fsettled (freach h1) hw]
  have h := h2 c h1
  cases hb : c.back with
  | none w => exact ⟨[], List.nil_sublist _, by simp only [handed, hb, Back.out, Back.world]; exact .nil⟩
  | inn st => simp only [FSt, hb] at h
  | fa st =>
    simp only [FSt, hb] at h
    obtain ⟨⟨_, _, _, seen, told, ⟨P, h3, _⟩, h4, h5, _⟩, _⟩ := h
    refine ⟨told, ?_, by simp only [handed, hb, Back.out, Back.world]; exact h5⟩
    simp only [Back.world, h3]
    exact h4.trans (List.sublist_append_left _ _)

theorem allHere_start (dirs : List (Handle × Str)) : AllHere { dirs := dirs, past := dirs } :=
  fun e he _ => List.mem_map.2 ⟨e, he, rfl⟩

/-- C107 (partial: no directory is removed at all, the kernel does not merge records, and no read returns a new
name directly followed by an old name or fills the buffer up to a rename). -/
theorem C107_no_removal_partial (rf : Bool) (cfg : Life.Cfg) (E : Env World) (hE : E.fa = FKer.sys rf) (dirs : List (Handle × Str))
    (hs : List HStep) (hg : GoodTree dirs) (hk : hs.all (allDo (fun x => keeps x && apart x)) = true)
    (hf : FineReads cfg E (start cfg dirs) hs) :
    ∃ o, hrun cfg E (start cfg dirs) hs = .ok o ∧
      ∀ c, o = some c → (∃ second, c.life.w = .aWait second) ∨ c.life.w = .finished → ToldUpTo c :=
  have hk1 := allDo_congr (fun _ h => (Bool.and_eq_true _ _ ▸ h).1) hk
  C107_in_order_partial rf cfg E hE dirs hs hg (allDo_congr (fun _ h => (Bool.and_eq_true _ _ ▸ h).2) hk) (allWakes_of hk1)
    (presentReads_of_keeps hE hs _ ⟨⟨kinv_open hg, allHere_start dirs⟩, trivial⟩ hk1) hf

/-- C107 (partial: nothing is moved or removed as a directory and the kernel does not merge records): without
a condition on the reads. -/
theorem C107_no_moves_partial (rf : Bool) (cfg : Life.Cfg) (E : Env World) (hE : E.fa = FKer.sys rf) (dirs : List (Handle × Str))
    (hs : List HStep) (hg : GoodTree dirs) (hk : hs.all (allDo (fun x => plain x && apart x)) = true) :
    ∃ o, hrun cfg E (start cfg dirs) hs = .ok o ∧
      ∀ c, o = some c → (∃ second, c.life.w = .aWait second) ∨ c.life.w = .finished → ToldUpTo c := by
  obtain ⟨h1, h2⟩ := hrun_fst (cfg := cfg) hE (keeps_plain rf) hs (start cfg dirs)
    ⟨⟨⟨kinv_open hg, kept_start dirs⟩, allHere_start dirs, fun c hc => by cases hc⟩, trivial⟩ hk (readsOk_true hs _)
  obtain ⟨o, h1⟩ := h1 rfl
  refine ⟨o, h1, ?_⟩
  intro c ho hw
  subst ho
  refine told_of_tinv h1 hw ?_
  have := h2 c h1
  cases hb : c.back with
  | none w => simp only [FSt, hb] at this ⊢; exact ⟨this.1.1, this.2⟩
  | inn st => simp only [FSt, hb] at this
  | fa st => simp only [FSt, hb] at this ⊢; exact ⟨this.1.1, this.2⟩

/-- Checks a condition on all reads of a concrete history. -/
def readsB (R : K → List FRec → List (List Do × Bool) → Bool) (cfg : Life.Cfg) (E : Env World) (c : CS World) : List HStep → Bool
  | [] => true
  | a :: as => (match a with
      | .wakeRead n sched | .wakeBoth _ n sched => R c.back.world.k (c.back.world.k.queue.take n) sched
      | _ => true) && (match hstep cfg E c a with
      | .ok (some c') => readsB R cfg E c' as
      | _ => true)

theorem readsB_ok {R : K → List FRec → List (List Do × Bool) → Bool} {Q : K → List FRec → List (List Do × Bool) → Prop}
    (hQ : ∀ k rs s, R k rs s = true → Q k rs s) {cfg : Life.Cfg} {E : Env World} :
    ∀ (hs : List HStep) (c : CS World), readsB R cfg E c hs = true → ReadsOk Q cfg E c hs := by
  intro hs
  induction hs with
  | nil => intro c _; trivial
  | cons a as ih =>
    intro c h
    simp only [readsB, Bool.and_eq_true] at h
    refine ⟨?_, ?_⟩
    · cases a with
      | wakeRead n s => exact hQ _ _ _ h.1
      | wakeBoth f n s => exact hQ _ _ _ h.1
      | _ => trivial
    · intro c' hc
      have h2 := h.2
      rw [hc] at h2
      exact ih c' h2

private def apartHs : List HStep :=
  [.op ⟨.mkdir b!"/r/d" b!"n" [4], { merge := false }⟩] ++
  beginF [b!"/r", b!"/r/d", b!"/r/d/n"] [([⟨.create b!"/r" b!"early", { merge := false }⟩], false)] ++ rest2 ++
  [.op ⟨.create b!"/r/d/n" b!"f", { merge := false }⟩, .op ⟨.moveDir b!"/r" b!"d" b!"/r" b!"e", { merge := false }⟩,
   .wakeRead 3 [([⟨.create b!"/r" b!"g", { pid := 7, merge := false }⟩], false)], .thread .w] ++ deliver ++
  [.thread .oClose, .thread .o, .thread .o, .thread .o] ++ deliver ++ rest2 ++
  [.op ⟨.unlink b!"/r" b!"g", { merge := false }⟩, .wakeBoth true 1 [], .thread .w, .thread .w] ++ deliver ++
  [.thread .w, .thread .w, .wakeStop, .thread .w, .thread .w, .thread .w] ++ deliver ++ [.thread .w, .thread .o, .thread .o]

private def roomyB (rs : List FRec) : Bool := decide ((fbatch rs).length ≤ 4092)

private theorem apart_fine : FineReads cfgF envF (start cfgF fkDirs) apartHs :=
  readsB_ok (R := fun _ rs _ => noSwapB rs && roomyB rs) (fun _ rs _ h => by
    rw [Bool.and_eq_true] at h
    exact ⟨noSwapB_ok rs h.1, .inl (of_decide_eq_true h.2)⟩) apartHs _ (by decide +kernel)

/-- The condition of `PresentReads`, computed. -/
def herePresentB (k : K) (rs : List FRec) (_ : List (List Do × Bool)) : Bool := rs.all (fun r => decide (r.handle ∈ k.dirs.map (·.1)))

theorem herePresentB_ok (k : K) (rs : List FRec) (s : List (List Do × Bool)) (h : herePresentB k rs s = true) :
    ∀ r ∈ rs, r.handle ∈ k.dirs.map (·.1) := fun r hr => of_decide_eq_true (List.all_eq_true.1 h r hr)

example : GoodTree fkDirs ∧ apartHs.all (allDo (fun x => keeps x && apart x)) = true ∧ FineReads cfgF envF (start cfgF fkDirs) apartHs ∧
    ∃ c, hrun cfgF envF (start cfgF fkDirs) apartHs = .ok (some c) ∧ c.life.w = .finished ∧
      fileEvents (callbacks c.life.log) = [about b!"/r/e/n" b!"f" .create .file,
        ⟨b!"/r/d", .rename, .dir, some ⟨b!"/r/e", .rename, .dir⟩⟩, about b!"/r" b!"g" .create .file] ∧
      c.back.world.k.log.length = 5 ∧ c.back.world.k.queue.length = 1 :=
  ⟨fkDirs_good, by decide, apart_fine, ranF (by decide +kernel)⟩

/-- A directory that goes: its file and the directory itself are removed, between reads. -/
private def goneHs : List HStep :=
  beginF [b!"/r", b!"/r/d"] [] ++ rest2 ++
  [.op ⟨.create b!"/r/d" b!"f", { merge := false }⟩, .wakeRead 1 [], .thread .w] ++ deliver ++ rest2 ++
  [.op ⟨.unlink b!"/r/d" b!"f", { merge := false }⟩, .wakeRead 1 [([⟨.create b!"/r" b!"g", { merge := false }⟩], false)], .thread .w] ++ deliver ++ rest2 ++
  [.op ⟨.rmdir b!"/r" b!"d", { merge := false }⟩, .wakeRead 9 [], .thread .w] ++ deliver ++ deliver ++ rest2

example : GoodTree fkDirs ∧ goneHs.all (allDo apart) = true ∧ goneHs.all (allWakes keeps) = true ∧ goneHs.all (allDo keeps) = false ∧
    PresentReads cfgF envF (start cfgF fkDirs) goneHs ∧ FineReads cfgF envF (start cfgF fkDirs) goneHs ∧
    ∃ c, hrun cfgF envF (start cfgF fkDirs) goneHs = .ok (some c) ∧ c.life.w = .aWait false ∧
      fileEvents (callbacks c.life.log) = [about b!"/r/d" b!"f" .create .file, about b!"/r/d" b!"f" .destroy .file,
        about b!"/r" b!"g" .create .file, about b!"/r" b!"d" .destroy .dir] ∧
      c.back.world.k.log.length = 4 ∧ c.back.world.k.queue = [] ∧ b!"/r/d" ∉ c.back.world.k.dirs.map (·.2) :=
  ⟨fkDirs_good, by decide, by decide, by decide, readsB_ok herePresentB_ok goneHs _ (by decide +kernel),
    readsB_ok (R := fun _ rs _ => noSwapB rs && roomyB rs) (fun _ rs _ h => by
      rw [Bool.and_eq_true] at h
      exact ⟨noSwapB_ok rs h.1, .inl (of_decide_eq_true h.2)⟩) goneHs _ (by decide +kernel), ranF (by decide +kernel)⟩

/-- A directory that goes while the record about its file is pending; a change before is told, one after it in the same read is not. -/
private def lostHs : List HStep :=
  beginF [b!"/r", b!"/r/d"] [] ++ rest2 ++
  [.op ⟨.create b!"/r" b!"a", { merge := false }⟩, .op ⟨.unlink b!"/r/d" b!"f", { merge := false }⟩, .op ⟨.rmdir b!"/r" b!"d", { merge := false }⟩,
    .op ⟨.create b!"/r" b!"g", { merge := false }⟩, .wakeRead 9 [], .thread .w] ++ deliver ++ rest2 ++
  [.op ⟨.create b!"/r" b!"k", { merge := false }⟩, .wakeRead 9 [], .thread .w] ++ deliver ++ rest2

example : lostHs.all (allDo apart) = true ∧ lostHs.all (allWakes keeps) = true ∧ FineReads cfgF envF (start cfgF fkDirs) lostHs ∧
    ∃ c, hrun cfgF envF (start cfgF fkDirs) lostHs = .ok (some c) ∧ c.life.w = .aWait false ∧
      fileEvents (callbacks c.life.log) = [about b!"/r" b!"a" .create .file, about b!"/r" b!"k" .create .file] ∧
      c.back.world.k.log.length = 5 ∧ c.back.world.k.queue = [] :=
  ⟨by decide, by decide, readsB_ok (R := fun _ rs _ => noSwapB rs && roomyB rs) (fun _ rs _ h => by
      rw [Bool.and_eq_true] at h
      exact ⟨noSwapB_ok rs h.1, .inl (of_decide_eq_true h.2)⟩) lostHs _ (by decide +kernel), ranF (by decide +kernel)⟩

/-- Without moves: the same changes, reads of any size, a pathological order of threads. -/
private def plainHs : List HStep :=
  [.op ⟨.create b!"/r" b!"before", { merge := false }⟩] ++ beginF [b!"/r", b!"/r/d"] [([⟨.create b!"/r" b!"early", { merge := false }⟩], false)] ++ rest2 ++
  [.op ⟨.create b!"/r/d" b!"f", { merge := false }⟩, .op ⟨.modify b!"/r/d" b!"f", { merge := false }⟩,
   .op ⟨.unlink b!"/r/d" b!"f", { merge := false }⟩,
   .wakeRead 2 [([⟨.create b!"/r" b!"g", { pid := 7, merge := false }⟩], false)], .thread .w] ++ deliver ++ deliver ++ rest2 ++
  [.wakeRead 1 [], .thread .w] ++ deliver ++ rest2

example : GoodTree fkDirs ∧ plainHs.all (allDo (fun x => plain x && apart x)) = true ∧
    ∃ c, hrun cfgF envF (start cfgF fkDirs) plainHs = .ok (some c) ∧ c.life.w = .aWait false ∧
      fileEvents (callbacks c.life.log) = [about b!"/r/d" b!"f" .create .file, about b!"/r/d" b!"f" .modify .file,
        about b!"/r/d" b!"f" .destroy .file] ∧ c.back.world.k.log.length = 4 ∧ c.back.world.k.queue.length = 1 :=
  ⟨fkDirs_good, by decide, ranF (by decide +kernel)⟩

/-- C107 as stated is false of the code: a file is made and removed again before the watcher reads. -/
theorem C107_refuted : ¬ C107_full := by
  intro h
  have : ∃ c, hrun cfgF envF (start cfgF fkDirs) (beginF [b!"/r", b!"/r/d"] [] ++ rest2 ++
      [.op ⟨.create b!"/r" b!"f", {}⟩, .op ⟨.unlink b!"/r" b!"f", {}⟩, .wakeRead 9 [], .thread .w] ++ deliver ++ rest2) = .ok (some c) ∧
      c.life.w = .aWait false ∧ fileEvents (callbacks c.life.log) = [about b!"/r" b!"f" .create .file] ∧ c.back.world.k.queue = [] ∧
      c.back.world.k.log = [⟨[1], b!"/r", b!"f", .create, false⟩, ⟨[1], b!"/r", b!"f", .delete, false⟩] :=
    ranF (by decide +kernel)
  obtain ⟨c, h1, h2, h3, h4, h5⟩ := this
  obtain ⟨o, g1, g2⟩ := h true cfgF envF rfl fkDirs _ fkDirs_good
  rw [h1] at g1
  cases g1
  obtain ⟨told, pending, k1, k2, k3⟩ := g2 c rfl (.inl ⟨false, h2⟩)
  rw [k3 h4, List.append_nil, h5] at k1
  rw [← k1, h3] at k2
  cases k2 with
  | one _ ht => cases ht

/-! ## C108 -/

/-- All operations: what is told. -/
theorem keeping_up_end_to_end (rf : Bool) (cfg : Life.Cfg) (E : Env World) (hE : E.fa = FKer.sys rf) (dirs : List (Handle × Str))
    (hs : List HStep) (hg : GoodTree dirs) (hn : NewHandles dirs (opsOf hs)) (hx : ∀ x ∈ opsOf hs, x.who.extra.length ≤ 200)
    (hk : KeepsUp cfg E (start cfg dirs) hs) :
    ∃ o, hrun cfg E (start cfg dirs) hs = .ok o ∧
      ∀ c, o = some c → (∃ second, c.life.w = .aWait second) ∨ c.life.w = .finished → c.back.world.k.queue = [] →
        fileEvents (callbacks c.life.log) = actualAll (dirs.map (fun e => (e.2, (marksOf hs).contains e.2))) (opsOf hs) := by
  have hready : Ready dirs (opsOf hs) := by
    obtain ⟨h1, h2⟩ := hn
    have h3 := List.nodup_append.1 h1
    exact ⟨h3.2.1, fun h hh => ⟨fun hd => h3.2.2 h hd h hh rfl, h2 h hh⟩, hx⟩
  obtain ⟨o, h1, h2⟩ := hrun_ust (rf := rf) (cfg := cfg) hE hg hs (start cfg dirs) ⟨rfl, trivial, hready, rfl⟩ hk
  refine ⟨o, h1, ?_⟩
  intro c ho hw hq
  have hu := h2 c ho
  subst ho
  rw [fsettled (freach h1) hw]
  cases hst : c.back with
  | none w =>
    simp only [USt, hst] at hu
    rw [hu.2.2.2]
    simp only [handed, hst, Back.out, opsOf, actualAll]
    rfl
  | inn st => simp only [USt, hst] at hu
  | fa st =>
    simp only [USt, hst] at hu
    simp only [hst, Back.world] at hq
    have hd := (nearly_empty hu.1 hq).due
    simp only [handed, hst, Back.out]
    simpa [opsOf, actualAll] using hd

/-- C108: if the watcher keeps up, then whenever it waits or has finished and nothing is pending, the callback
has received, in order, exactly the events a directory tree with these operations calls for (for exchanges of two
directories in one call see C164), whatever the schedule of the threads. -/
theorem C108_keeping_up_end_to_end (rf : Bool) (cfg : Life.Cfg) (E : Env World) (hE : E.fa = FKer.sys rf) (dirs : List (Handle × Str))
    (hs : List HStep) (hg : GoodTree dirs) (hn : NewHandles dirs (opsOf hs)) (hx : ∀ x ∈ opsOf hs, x.who.extra.length ≤ 200)
    (hone : ∀ x ∈ opsOf hs, single x = true) (hk : KeepsUp cfg E (start cfg dirs) hs) :
    ∃ o, hrun cfg E (start cfg dirs) hs = .ok o ∧
      ∀ c, o = some c → (∃ second, c.life.w = .aWait second) ∨ c.life.w = .finished → c.back.world.k.queue = [] →
        fileEvents (callbacks c.life.log) = expectedAll (dirs.map (fun e => (e.2, (marksOf hs).contains e.2))) (opsOf hs) :=
  actual_neat (opsOf hs) _ (neat_single _ _ hone) ▸ keeping_up_end_to_end rf cfg E hE dirs hs hg hn hx hk

/-- Checks `calm` and `KeepsUp` on a concrete history. -/
private def calmB (c : CS World) : HStep → Bool
  | .op _ => (match c.back with | .fa _ => true | _ => false) && c.back.world.k.queue.isEmpty
  | .openFanotify _ sched => sched.isEmpty
  | .wakeRead n sched | .wakeBoth _ n sched => sched.isEmpty && decide (c.back.world.k.queue.length ≤ n)
  | _ => true

private def keepsUpB (cfg : Life.Cfg) (E : Env World) (c : CS World) : List HStep → Bool
  | [] => true
  | a :: as => calmB c a && (match hstep cfg E c a with
      | .ok (some c') => keepsUpB cfg E c' as
      | _ => true)

private theorem calmB_ok {c : CS World} {a : HStep} (h : calmB c a = true) : calm c a := by
  cases a with
  | op o =>
    simp only [calmB, Bool.and_eq_true, List.isEmpty_iff] at h
    refine ⟨?_, h.2⟩
    cases hb : c.back with
    | fa st => exact ⟨st, rfl⟩
    | none w => rw [hb] at h; cases h.1
    | inn st => rw [hb] at h; cases h.1
  | openFanotify a sched => simpa [calmB, calm] using h
  | wakeRead n sched => simpa [calmB, calm] using h
  | wakeBoth f n sched => simpa [calmB, calm] using h
  | _ => trivial

private theorem keepsUpB_ok {cfg : Life.Cfg} {E : Env World} :
    ∀ (hs : List HStep) (c : CS World), keepsUpB cfg E c hs = true → KeepsUp cfg E c hs := by
  intro hs
  induction hs with
  | nil => intro c _; trivial
  | cons a as ih =>
    intro c h
    simp only [keepsUpB, Bool.and_eq_true] at h
    refine ⟨calmB_ok h.1, ?_⟩
    intro c' hc
    have h2 := h.2
    rw [hc] at h2
    exact ih c' h2

/-- A directory is made, filled and moved; a file leaves the watched part; close() comes while the last event is
delivered. -/
private def upHs : List HStep :=
  beginF [b!"/r", b!"/r/d"] [] ++ rest2 ++
  [.op ⟨.mkdir b!"/r/d" b!"n" [4], {}⟩, .wakeRead 1 [], .thread .w] ++ deliver ++ rest2 ++
  [.op ⟨.create b!"/r/d/n" b!"f", {}⟩, .wakeRead 4 [], .thread .w] ++ deliver ++ rest2 ++
  [.op ⟨.moveDir b!"/r" b!"d" b!"/r" b!"e", {}⟩, .wakeRead 2 [], .thread .w] ++ deliver ++ rest2 ++
  [.op ⟨.move b!"/r/e/n" b!"f" b!"/o" b!"f", { pid := 7 }⟩, .wakeRead 2 [], .thread .w, .thread .w, .thread .oClose, .thread .o,
    .thread .o, .thread .o, .thread .cbReturn] ++ rest2 ++ [.wakeStop, .thread .w, .thread .w, .thread .w] ++ deliver ++ [.thread .w]

example : GoodTree fkDirs ∧ NewHandles fkDirs (opsOf upHs) ∧ (∀ x ∈ opsOf upHs, x.who.extra.length ≤ 200) ∧ (∀ x ∈ opsOf upHs, single x = true) ∧
    KeepsUp cfgF envF (start cfgF fkDirs) upHs ∧
    ∃ c, hrun cfgF envF (start cfgF fkDirs) upHs = .ok (some c) ∧ c.life.w = .finished ∧ c.back.world.k.queue = [] ∧
      fileEvents (callbacks c.life.log) = [about b!"/r/d" b!"n" .create .dir, about b!"/r/d/n" b!"f" .create .file,
        ⟨b!"/r/d", .rename, .dir, some ⟨b!"/r/e", .rename, .dir⟩⟩, about b!"/r/e/n" b!"f" .rename .file] :=
  ⟨fkDirs_good, ⟨by decide, by decide⟩, by decide, by decide, keepsUpB_ok _ _ (by decide +kernel), ranF (by decide +kernel)⟩

end Verif.Props
