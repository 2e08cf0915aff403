import Verif.Props.FWhole
/-!
# Two directories change places, with fanotify: C164

`renameat2` with `RENAME_EXCHANGE` exchanges two directories in one call; the kernel reports it as two moves.
-/

namespace Verif.Props
open Verif Verif.Model Verif.Model.Ad Verif.Model.FKer Verif.Spec Verif.Spec.FKer Verif.Spec.WholeF Verif.Lemmas.FKer Verif.Lemmas.AdF

/-- C164 in full: if the watcher keeps up, exactly the events due are told, an exchange of two directories being two
moves. -/
def C164_full : Prop :=
  ∀ (rf : Bool) (dirs : List (Handle × Str)) (marks : List Str) (ops : List Do),
    GoodTree dirs → NewHandles dirs ops → (∀ x ∈ ops, x.who.extra.length ≤ 200) →
    ∃ st, follow rf (opened rf dirs marks []) ops = .ok st ∧
      fileEvents (st.out.map Prod.fst) = expectedAll (dirs.map (fun e => (e.2, marks.contains e.2))) ops

/-- C164 (exact): every sequence of operations, exchanges among them, by any processes, merged by the kernel or not, in
watched directories or not: what is told is exactly what `actual` says. Afterwards the paths are right again. -/
theorem C164_exact (rf : Bool) (dirs : List (Handle × Str)) (marks : List Str) (ops : List Do)
    (hg : GoodTree dirs) (hn : NewHandles dirs ops) (hx : ∀ x ∈ ops, x.who.extra.length ≤ 200) :
    ∃ st, follow rf (opened rf dirs marks []) ops = .ok st ∧
      fileEvents (st.out.map Prod.fst) = actualAll (dirs.map (fun e => (e.2, marks.contains e.2))) ops :=
  keeping_up rf dirs marks ops hg hn hx

/-- C164 (partial: no exchange is merged, and of the two directories it takes place in both are watched or none): as
stated. -/
theorem C164_two_moves_partial (rf : Bool) (dirs : List (Handle × Str)) (marks : List Str) (ops : List Do)
    (hg : GoodTree dirs) (hn : NewHandles dirs ops) (hx : ∀ x ∈ ops, x.who.extra.length ≤ 200)
    (hs : neat (dirs.map (fun e => (e.2, marks.contains e.2))) ops = true) :
    ∃ st, follow rf (opened rf dirs marks []) ops = .ok st ∧
      fileEvents (st.out.map Prod.fst) = expectedAll (dirs.map (fun e => (e.2, marks.contains e.2))) ops :=
  actual_neat ops _ hs ▸ keeping_up rf dirs marks ops hg hn hx

/-- The same for whole histories: owner, worker, callback and kernel together, for every schedule of the threads. -/
theorem C164_end_to_end (rf : Bool) (cfg : Life.Cfg) (E : Env World) (hE : E.fa = FKer.sys rf) (dirs : List (Handle × Str))
    (hs : List HStep) (hg : GoodTree dirs) (hn : NewHandles dirs (opsOf hs)) (hx : ∀ x ∈ opsOf hs, x.who.extra.length ≤ 200)
    (hk : KeepsUp cfg E (start cfg dirs) hs) :
    ∃ o, hrun cfg E (start cfg dirs) hs = .ok o ∧
      ∀ c, o = some c → (∃ second, c.life.w = .aWait second) ∨ c.life.w = .finished → c.back.world.k.queue = [] →
        fileEvents (callbacks c.life.log) = actualAll (dirs.map (fun e => (e.2, (marksOf hs).contains e.2))) (opsOf hs) :=
  keeping_up_end_to_end rf cfg E hE dirs hs hg hn hx hk

/-- Two watched directories next to each other, one with a directory in it, and an unwatched one. -/
def swDirs : List (Handle × Str) := [([1], b!"/r"), ([2], b!"/r/d"), ([3], b!"/r/e"), ([4], b!"/r/d/x"), ([5], b!"/o"), ([6], b!"/o/k")]
def swMarks : List Str := [b!"/r", b!"/r/d", b!"/r/e", b!"/r/d/x"]

theorem swDirs_good : GoodTree swDirs := ⟨by decide, by decide, by decide, by decide⟩

private def rn (a b : Str) : Ev := ⟨a, .rename, .dir, some ⟨b, .rename, .dir⟩⟩

/-- The exchanged directories are told, and what happens in them then has the new paths. -/
private def swOps : List Do :=
  [⟨.swapDirs b!"/r" b!"d" b!"/r" b!"e", { merge := false }⟩, ⟨.create b!"/r/e/x" b!"f", {}⟩, ⟨.create b!"/r/d" b!"g", {}⟩,
   ⟨.swapDirs b!"/r/e" b!"x" b!"/r" b!"d", { merge := false, pid := 9 }⟩, ⟨.unlink b!"/r/d" b!"f", {}⟩, ⟨.unlink b!"/r/e/x" b!"g", {}⟩,
   ⟨.swapDirs b!"/r/e" b!"x" b!"/r" b!"e", { merge := false }⟩]

example : GoodTree swDirs ∧ NewHandles swDirs swOps ∧ (∀ x ∈ swOps, x.who.extra.length ≤ 200) ∧
    neat (swDirs.map (fun e => (e.2, swMarks.contains e.2))) swOps = true ∧
    expectedAll (swDirs.map (fun e => (e.2, swMarks.contains e.2))) swOps =
      [rn b!"/r/d" b!"/r/e", rn b!"/r/e" b!"/r/d", about b!"/r/e/x" b!"f" .create .file, about b!"/r/d" b!"g" .create .file,
       rn b!"/r/e/x" b!"/r/d", rn b!"/r/d" b!"/r/e/x", about b!"/r/d" b!"f" .destroy .file, about b!"/r/e/x" b!"g" .destroy .file] :=
  ⟨swDirs_good, ⟨by decide, by decide⟩, by decide, by decide, by decide⟩

/-- C164 as stated is false of the code: the kernel merges the records about each name, and the second half is not told. -/
theorem C164_refuted : ¬ C164_full := by
  intro h
  obtain ⟨st, h1, h2⟩ := h true swDirs swMarks [⟨.swapDirs b!"/r" b!"d" b!"/r" b!"e", {}⟩] swDirs_good ⟨by decide, by decide⟩ (by decide)
  obtain ⟨st', h3, h4⟩ := C164_exact true swDirs swMarks [⟨.swapDirs b!"/r" b!"d" b!"/r" b!"e", {}⟩] swDirs_good ⟨by decide, by decide⟩ (by decide)
  rw [h1] at h3
  cases h3
  rw [h2] at h4
  revert h4
  decide

/-- What is told: only that the first is now where the second was. -/
theorem C164_half_told : ∃ st, follow true (opened true swDirs swMarks []) [⟨.swapDirs b!"/r" b!"d" b!"/r" b!"e", {}⟩] = .ok st ∧
    fileEvents (st.out.map Prod.fst) = [rn b!"/r/d" b!"/r/e"] := exists_ok (by decide +kernel)

/-- If the other directory is not in a watched one and the kernel does not merge, a rename of the directory to itself is
told. -/
theorem C164_to_itself : ∃ st, follow true (opened true swDirs swMarks []) [⟨.swapDirs b!"/o" b!"k" b!"/r" b!"d", { merge := false }⟩] = .ok st ∧
    fileEvents (st.out.map Prod.fst) = [rn b!"/r/d" b!"/r/d"] := exists_ok (by decide +kernel)

/-- With merging, one rename without a new name. -/
theorem C164_no_new_name : ∃ st, follow true (opened true swDirs swMarks []) [⟨.swapDirs b!"/r" b!"d" b!"/o" b!"k", {}⟩] = .ok st ∧
    fileEvents (st.out.map Prod.fst) = [about b!"/r" b!"d" .rename .dir] := exists_ok (by decide +kernel)

end Verif.Props
