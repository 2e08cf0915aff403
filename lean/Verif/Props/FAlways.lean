import Verif.Props.FWhole
import Verif.Lemmas.FLost4
/-!
# What is told of fanotify's records in order, whenever directories are removed: C86, C107
-/
namespace Verif.Props
open Verif Verif.Model Verif.Model.Fa Verif.Model.FKer Verif.Spec Verif.Spec.FKer Verif.Lemmas Verif.Lemmas.FKer

/-- C86 (partial: the kernel does not merge records, and no read is like those of `Fine`; directories may be removed at any time): what is told is told in
order and once, and the rest of what was read was missed, in the way of `C85_always_partial`. -/
theorem C86_always_partial (rf : Bool) (dirs : List (Handle × Str)) (marks : List Str) (sched : List (List Do × Bool)) (ss : List Step)
    (hg : GoodTree dirs) (hs : allSched apart sched = true) (ha : ss.all (allOps apart) = true)
    (hf : Fine rf (opened rf dirs marks sched) ss) :
    ∃ st seen told pending, execs rf (opened rf dirs marks sched) ss = .ok st ∧ st.sys.k.log = seen ++ pending ∧ told.Sublist seen ∧
      ToldNear st.sys.k.past told (fileEvents (st.out.map Prod.fst)) ∧ (∀ c ∈ seen, c ∈ told ∨ MissedLate rf (opened rf dirs marks sched) ss c) ∧
      (st.sys.k.queue = [] → pending = []) := by
  obtain ⟨st, h1, _, _, seen, told, h2, h3, h4, h5⟩ := execs_uinv ss (opened_uinv (rf := rf) hg marks sched hs) ha hf
  obtain ⟨P, h6, h7⟩ := h2
  refine ⟨st, seen, told, P, h1, h6, h3, h4, fun c hc => (h5 c hc).imp id (fun h => h.resolve_left id), ?_⟩
  intro hq
  rw [hq] at h7
  cases h7
  rfl

/-- A directory goes during a read, after its record was looked up. -/
example :
    let who : Who := { merge := false }
    let ss : List Step := [.op ⟨.create b!"/r" b!"a", who⟩, .op ⟨.modify b!"/r" b!"a", who⟩, .op ⟨.unlink b!"/r/d" b!"f", who⟩, .op ⟨.unlink b!"/r/d" b!"h", who⟩,
      .op ⟨.create b!"/r" b!"g", who⟩, .read 9 [([], false), ([], false), ([], false), ([], false), ([], false), ([⟨.rmdir b!"/r" b!"d", who⟩], false)],
      .op ⟨.move b!"/r" b!"g" b!"/r" b!"k", who⟩, .read 9 []]
    GoodTree fkDirs ∧ ss.all (allReads keeps) = false ∧ ss.all (allOps apart) = true ∧ Fine true (opened true fkDirs fkMarks []) ss ∧
      MissedLate true (opened true fkDirs fkMarks []) ss ⟨[1], b!"/r", b!"g", .create, false⟩ ∧
      (¬ MissedLate true (opened true fkDirs fkMarks []) ss ⟨[1], b!"/r", b!"a", .modify, false⟩) ∧
      ∃ st, execs true (opened true fkDirs fkMarks []) ss = .ok st ∧ st.sys.k.queue = [] ∧ st.sys.k.log.length = 8 ∧
        fileEvents (st.out.map Prod.fst) = [about b!"/r" b!"a" .create .file, about b!"/r" b!"a" .modify .file,
          about b!"/r/d (deleted)" b!"f" .destroy .file, about b!"/r" b!"d" .destroy .dir, ⟨b!"/r/g", .rename, .file, some ⟨b!"/r/k", .rename, .file⟩⟩] :=
  ⟨fkDirs_good, by decide, by decide, fineB_ok _ (by decide +kernel), (missedLateB_iff _).1 (by decide +kernel),
    fun h => absurd ((missedLateB_iff _).2 h) (by decide +kernel), exists_ok (by decide +kernel)⟩

end Verif.Props

namespace Verif.Props
open Verif Verif.Model Verif.Model.Ad Verif.Model.FKer Verif.Spec Verif.Spec.FKer Verif.Spec.WholeF Verif.Lemmas.FKer Verif.Lemmas.AdF

private def Read3 : K → List FRec → List (List Do × Bool) → Prop := fun _ rs _ => NoSwap rs ∧ Roomy rs

private theorem read_recv_u {missed : Change → Prop} {rf : Bool} {st : Fa.St World} (h : UInv st missed) (n : Nat) (sched : List (List Do × Bool))
    (hs : allSched apart sched = true) (hf : (bytesOf st.sys n).length ≤ 4096) (hR : Read3 st.sys.k (st.sys.k.queue.take n) sched) :
    ∃ st' r missed', Model.Fa.doEvRecv (Model.FKer.sys rf) (.data (bytesOf st.sys n)) { st with sys := taken st.sys n sched } = .ok (st', r) ∧
      UInv st' missed' := by
  obtain ⟨st', h1, h2⟩ := read_uinv (rf := rf) h n sched hs hR.1 hR.2
  simp only [exec] at h1
  rw [if_pos (show (fbatch (st.sys.k.queue.take n)).length ≤ Model.Fa.bufLen from hf)] at h1
  obtain ⟨⟨st1, r⟩, h3, h4⟩ := Lemmas.Ad.bind_ok_inv h1
  simp only at h4
  split at h4
  · simp only [Outcome.pure_eq, Outcome.ok.injEq] at h4
    subst h4
    exact ⟨st1, r, _, h3, h2⟩
  · cases h4

private theorem keeps_uinv (rf : Bool) : Keeps rf apart Read3 true
    (fun w => KInv w.k ∧ Kept true [] w.k) (fun st => ∃ missed, UInv st missed) where
  opW := fun w x h hx => (keeps_tinv rf true).opW w x h (mild_true hx)
  opP := fun st x ⟨_, h⟩ hx => ⟨_, op_uinv h x hx⟩
  openP := fun w marks sched h hs => by
    have h1 := tinv_open (rf := rf) (m := true) w marks sched h (allSched_congr (fun _ => mild_true) hs)
    exact ⟨fun _ => False, h1.k, h1.buf, [], [], h1.kept, .slnil, ToldNear.of h1.said, fun c hc => by cases hc⟩
  recvP := by
    intro st n sched st' r ⟨missed, h⟩ hs hf hR h1
    obtain ⟨st1, r1, m1, h2, h3⟩ := read_recv_u (rf := rf) h n sched hs hf hR
    rw [h1] at h2
    cases h2
    exact ⟨m1, h3⟩
  safe := by
    intro _ st n sched ⟨missed, h⟩ hs hf hR
    obtain ⟨st1, r1, m1, h2, h3⟩ := read_recv_u (rf := rf) h n sched hs hf hR
    exact ⟨_, h2⟩

private theorem read3_of {cfg : Life.Cfg} {E : Env World} : ∀ {hs : List HStep} {c : CS World}, FineReads cfg E c hs →
    ReadsOk Read3 cfg E c hs := by
  intro hs
  induction hs with
  | nil => intro c _; trivial
  | cons a as ih =>
    intro c hf
    refine ⟨?_, fun c' hc => ih (hf.2 c' hc)⟩
    have := hf.1
    cases a with
    | wakeRead n sched => exact this
    | wakeBoth f n sched => exact this
    | _ => trivial

/-- C107 (partial: the kernel does not merge records, and no read is like those
excluded by `FineReads`). The history has no undefined behaviour; whenever the watch waits or has finished, the file events of the callback tell some
of the changes, in order and none twice, whenever directories are removed, during reads as well; the paths may then bear the mark of a removed directory. (Which ones may be left out: `C86_always_partial`, `C166_always_partial`.) -/
theorem C107_always_partial (rf : Bool) (cfg : Life.Cfg) (E : Env World) (hE : E.fa = FKer.sys rf) (dirs : List (Handle × Str))
    (hs : List HStep) (hg : GoodTree dirs) (ha : hs.all (allDo apart) = true)
    (hf : FineReads cfg E (start cfg dirs) hs) :
    ∃ o, hrun cfg E (start cfg dirs) hs = .ok o ∧
      ∀ c, o = some c → (∃ second, c.life.w = .aWait second) ∨ c.life.w = .finished →
        ∃ told, told.Sublist c.back.world.k.log ∧ ToldNear c.back.world.k.past told (fileEvents (callbacks c.life.log)) := by
  obtain ⟨h1, h2⟩ := hrun_fst (cfg := cfg) hE (keeps_uinv rf) hs (start cfg dirs)
    ⟨⟨kinv_open hg, kept_start dirs⟩, trivial⟩ ha (read3_of hf)
  obtain ⟨o, h1⟩ := h1 rfl
  refine ⟨o, h1, ?_⟩
  intro c ho hw
  subst ho
  rw [fsettled (freach h1) hw]
  have h := h2 c h1
  cases hb : c.back with
  | none w => exact ⟨[], List.nil_sublist _, by simp only [handed, hb, Back.out, Back.world]; exact .nil⟩
  | inn st => simp only [FSt, hb] at h
  | fa st =>
    simp only [FSt, hb] at h
    obtain ⟨⟨_, _, _, seen, told, ⟨P, h3, _⟩, h4, h5, _⟩, _⟩ := h
    refine ⟨told, ?_, by simp only [handed, hb, Back.out, Back.world]; exact h5⟩
    simp only [Back.world, h3]
    exact h4.trans (List.sublist_append_left _ _)

private def cfgU : Life.Cfg := { path := b!"/r", dirOk := true, fdOk := true }
private def envU : Env World where
  fa := FKer.sys true
  inn := { realpath := fun n _ => (none, n), isDir := fun n _ => (false, n), addWatch := fun n _ => (-1, n) }

private theorem ranU {o : Outcome (Option (CS World))} {p : CS World → Prop} [DecidablePred p]
    (h : (match o with | .ok (some a) => decide (p a) | _ => false) = true) : ∃ a, o = .ok (some a) ∧ p a := by
  cases o with
  | ok a =>
    cases a with
    | none => cases h
    | some a => exact ⟨a, rfl, by simpa using h⟩
  | ub => cases h

/-- Start, live message, fanotify on the given directories. -/
private def beginU (marks : List Str) (sched : List (List Do × Bool)) : List HStep :=
  [.thread .w, .thread .w, .thread .w, .thread .cbReturn, .openFanotify ⟨true, 5, marks, ⟨6, true, true⟩⟩ sched]

/-- The callback runs for the next event. -/
private def deliverU : List HStep := [.thread .w, .thread .cbReturn]
/-- The worker finishes a wake-up. -/
private def restU : List HStep := [.thread .w, .thread .w]

private def roomyU (rs : List FRec) : Bool := decide ((fbatch rs).length ≤ 4092)

/-- A directory goes during a read, after the record about one of its files was looked up. -/
private def lateHs : List HStep :=
  beginU [b!"/r", b!"/r/d"] [] ++ restU ++
  [.op ⟨.create b!"/r" b!"a", { merge := false }⟩, .op ⟨.unlink b!"/r/d" b!"f", { merge := false }⟩, .op ⟨.unlink b!"/r/d" b!"h", { merge := false }⟩,
    .wakeRead 9 [([], false), ([], false), ([], false), ([⟨.rmdir b!"/r" b!"d", { merge := false }⟩], false)], .thread .w] ++ deliverU ++ deliverU ++ restU ++
  [.op ⟨.create b!"/r" b!"k", { merge := false }⟩, .wakeRead 9 [], .thread .w] ++ deliverU ++ deliverU ++ restU

example : GoodTree fkDirs ∧ lateHs.all (allDo (fun x => unmoving x && apart x)) = true ∧ lateHs.all (allDo apart) = true ∧ lateHs.all (allWakes keeps) = false ∧ FineReads cfgU envU (start cfgU fkDirs) lateHs ∧
    ∃ c, hrun cfgU envU (start cfgU fkDirs) lateHs = .ok (some c) ∧ c.life.w = .aWait false ∧
      fileEvents (callbacks c.life.log) = [about b!"/r" b!"a" .create .file, about b!"/r/d (deleted)" b!"f" .destroy .file,
        about b!"/r" b!"d" .destroy .dir, about b!"/r" b!"k" .create .file] ∧
      c.back.world.k.log.length = 5 ∧ c.back.world.k.queue = [] :=
  ⟨fkDirs_good, by decide, by decide, by decide, readsB_ok (R := fun _ rs _ => noSwapB rs && roomyU rs) (fun _ rs _ h => by
      rw [Bool.and_eq_true] at h
      exact ⟨noSwapB_ok rs h.1, .inl (of_decide_eq_true h.2)⟩) lateHs _ (by decide +kernel), ranU (by decide +kernel)⟩

end Verif.Props
