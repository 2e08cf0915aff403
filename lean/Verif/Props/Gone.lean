import Verif.Spec.Gone
import Verif.Lemmas.Kernel6
import Verif.Props.Kernel
import Verif.Props.History
import Verif.Model.FKernel
import Verif.Spec.FKernel
/-!
# A watched directory that goes away: C150
-/

namespace Verif.Props
open Verif Verif.Model Verif.Model.In Verif.Model.Ker Verif.Spec Verif.Spec.Gone Verif.Lemmas.Ker

/-- C150 as it should be: when the watched directory has been removed and the watcher has read everything, the callback has been told something. -/
def C150_full : Prop := ∀ (root : Str) (dirs marks : List Str) (sched : List (List Op × Bool)) (ss more : List Step) (st st1 : St World),
  root ∈ marks → (∀ d ∈ marks, Ker.Below root d) → execs (opened dirs marks sched) ss = .ok st → st.sys.k.queue = [] → Watched st.sys.k root →
  execs st more = .ok st1 → root ∉ st1.sys.k.dirs → st1.sys.k.queue = [] → st1.out ≠ st.out

/-- Watches are on directories of the tree, one on each. -/
private structure Placed (k : K) : Prop where
  inTree : ∀ e ∈ k.watches, e.1 ∉ k.dead → e.2 ∈ k.dirs
  one : k.watches.Pairwise (fun a b => a.1 ∉ k.dead → b.1 ∉ k.dead → a.2 ≠ b.2)

private theorem placed_congr {k k' : K} (h : Placed k) (h1 : k'.watches = k.watches) (h2 : k'.dead = k.dead) (h3 : ∀ d ∈ k.dirs, d ∈ k'.dirs) : Placed k' :=
  ⟨fun e he hd => h3 _ (h.inTree e (h1 ▸ he) (h2 ▸ hd)), by rw [h1, h2]; exact h.one⟩

private theorem placed_notify {k : K} (h : Placed k) (d n : Str) (kd : Kind) (od : Bool) : Placed (notify k d n kd od) := by
  unfold notify lose
  repeat' split
  all_goals first | exact h | exact placed_congr h rfl rfl (fun _ h => h)

private theorem placed_push {k : K} (h : Placed k) (r : Rec) : Placed (push k r) := by
  unfold push lose
  split <;> exact placed_congr h rfl rfl (fun _ h => h)

private theorem placed_evict {k : K} (h : Placed k) (wd : Int) : Placed (evictWd k wd) := by
  unfold evictWd
  split
  · refine placed_push (placed_push ⟨?_, ?_⟩ _) _
    · intro e he hd
      simp only [List.mem_filter, bne_iff_ne, ne_eq, not_and, Decidable.not_not] at he hd
      exact h.inTree e he.1 (fun hx => he.2 (hd hx))
    · simp only
      rw [List.pairwise_filter]
      refine h.one.imp ?_
      intro a b hab ha hb hna hnb
      simp only [List.mem_filter, bne_iff_ne, ne_eq, not_and, Decidable.not_not] at ha hb hna hnb
      exact hab (fun hx => ha (hna hx)) (fun hx => hb (hnb hx))
  · exact h

private theorem placed_bury {k : K} (h : Placed k) (p : Str) : Placed (bury k p) := by
  unfold bury
  cases hw : wdOf k p with
  | none =>
    refine ⟨?_, h.one⟩
    intro e he hd
    simp only [List.mem_filter, bne_iff_ne, ne_eq]
    refine ⟨h.inTree e he hd, ?_⟩
    intro hp
    unfold wdOf at hw
    rw [Option.map_eq_none_iff, List.find?_eq_none] at hw
    exact hw e he (by simp [hp]; simpa using hd)
  | some wd =>
    refine ⟨?_, ?_⟩
    · intro e he hd
      simp only [List.mem_filter, bne_iff_ne, ne_eq, List.mem_cons, not_or] at he hd ⊢
      refine ⟨h.inTree e he hd.2, ?_⟩
      intro hp
      obtain ⟨e', he', h1, h2, h3⟩ := wdOf_mem hw
      have : ∀ (l : List (Int × Str)), l.Pairwise (fun a b => a.1 ∉ k.dead → b.1 ∉ k.dead → a.2 ≠ b.2) → e ∈ l → e' ∈ l → e = e' := by
        intro l hl
        induction hl with
        | nil => intro h; cases h
        | cons hx _ ih =>
          intro m1 m2
          rcases List.mem_cons.1 m1 with m1 | m1 <;> rcases List.mem_cons.1 m2 with m2 | m2
          · rw [m1, m2]
          · exact absurd (hp.trans h2.symm) (m1 ▸ hx _ m2 (m1 ▸ hd.2) (h1 ▸ h3))
          · exact absurd (hp.trans h2.symm).symm (m2 ▸ hx _ m1 (m2 ▸ h1 ▸ h3) hd.2)
          · exact ih m1 m2
      have := this _ h.one he he'
      subst this
      exact hd.1 h1
    · exact h.one.imp fun hab ha hb => hab (fun hx => ha (List.mem_cons_of_mem _ hx)) (fun hx => hb (List.mem_cons_of_mem _ hx))

private theorem placed_apply {k : K} (h : Placed k) (o : Op) (ho : Ker.keepsDirs o = true) : Placed (apply k o) := by
  cases o with
  | create | modify | unlink | moveOut | moveIn =>
    simp only [apply]; split
    · exact placed_notify h ..
    · exact h
  | rename | cross =>
    simp only [apply]; split
    · exact placed_notify (placed_notify h ..) ..
    · exact h
  | mkdir | moveInDir =>
    simp only [apply]; split
    · refine placed_notify ?_ ..
      exact placed_congr h rfl rfl (fun _ h => List.mem_append_left _ h)
    · exact h
  | rmdir d n sf =>
    simp only [apply]; split
    · split
      · refine placed_notify ?_ ..
        split
        · exact placed_bury h _
        · exact placed_evict (placed_bury h _) _
      · exact placed_notify (placed_bury h _) ..
    · exact h
  | evict wd => exact placed_evict h wd
  | moveDir | moveOver | swapDirs => cases ho
  | moveInOver d n ck =>
    simp only [apply]; split
    · refine placed_notify ?_ ..
      exact placed_congr (placed_bury h (entryPath d n)) rfl rfl (fun _ h => List.mem_append_left _ h)
    · exact h

private def PW (w : World) : Prop := Placed w.k ∧ Ker.allSched Ker.keepsDirs w.sched = true

private theorem pw_tick {w : World} (h : PW w) : PW (tick w).2 := by
  unfold tick
  split
  · exact h
  · rename_i ops _ rest hs
    have hx := h.2
    rw [hs] at hx
    simp only [Ker.allSched, List.all_cons, Bool.and_eq_true] at hx
    refine ⟨?_, hx.2⟩
    have : ∀ (ops : List Op) (k : K), Placed k → ops.all Ker.keepsDirs = true → Placed (ops.foldl apply k) := by
      intro ops
      induction ops with
      | nil => intro k h _; exact h
      | cons o ops ih =>
        intro k h ho
        simp only [List.all_cons, Bool.and_eq_true] at ho
        exact ih _ (placed_apply h o ho.1) ho.2
    exact this ops _ h.1 hx.1

private theorem placed_addWatch {k : K} (h : Placed k) (p : Str) : Placed (addWatchK k p).2 := by
  unfold addWatchK
  split
  · rename_i hc
    simp only [Bool.and_eq_true, List.contains_eq_mem, decide_eq_true_eq] at hc
    split
    · exact h
    · rename_i hw
      unfold wdOf at hw
      rw [Option.map_eq_none_iff, List.find?_eq_none] at hw
      refine ⟨?_, ?_⟩
      · intro e he hd
        rcases List.mem_cons.1 he with rfl | he
        · exact hc.1
        · exact h.inTree e he hd
      · refine List.pairwise_cons.2 ⟨?_, h.one⟩
        intro b hb _ hnd hp
        exact hw b hb (by simp only [Bool.and_eq_true, beq_iff_eq, Bool.not_eq_true', List.contains_eq_mem, decide_eq_false_iff_not]; exact ⟨hp.symm, hnd⟩)
  · exact h

private theorem pw_mark (p : Str) (t : Table) (w : World) (h : PW w) : PW (markSpec Model.Ker.sys p t w).2.2 := by
  have h1 : ∀ w p, PW w → PW (Model.Ker.sys.realpath w p).2 := fun w p h => pw_tick h
  have h2 : ∀ w p, PW w → PW (Model.Ker.sys.isDir w p).2 := fun w p h => pw_tick h
  have h3 : ∀ w p, PW w → PW (Model.Ker.sys.addWatch w p).2 := by
    intro w p h
    show PW (if (tick w).1 then ((-1 : Int), (tick w).2) else
        ((addWatchK (tick w).2.k p).1, { (tick w).2 with k := (addWatchK (tick w).2.k p).2 })).2
    split
    · exact pw_tick h
    · exact ⟨placed_addWatch (pw_tick h).1 p, (pw_tick h).2⟩
  unfold markSpec
  have g1 := h1 w p h
  cases hr : Model.Ker.sys.realpath w p with
  | mk o w1 =>
    rw [hr] at g1
    cases o with
    | none => exact g1
    | some real =>
      have g2 := h2 w1 real g1
      simp only
      cases hd : Model.Ker.sys.isDir w1 real with
      | mk b w2 =>
        rw [hd] at g2
        cases b with
        | false => exact g2
        | true =>
          have g3 := h3 w2 real g2
          simp only
          split
          · exact g3
          · exact g3

private theorem placed_execs : ∀ (ss : List Step) {st st' : St World} {L0 : List Change}, HInv false false L0 st → Placed st.sys.k →
    ss.all (Ker.allOps Ker.keepsDirs) = true → execs st ss = .ok st' → Placed st'.sys.k := by
  intro ss
  induction ss with
  | nil => intro st st' L0 _ hp _ h; cases h; exact hp
  | cons s ss ih =>
    intro st st' L0 h hp hk he
    simp only [List.all_cons, Bool.and_eq_true] at hk
    obtain ⟨st1, L1, h1, h2⟩ := hinv_exec h s (fun h => by cases h) (fun h => by cases h)
    simp only [execs, h1, Outcome.bind_ok] at he
    refine ih h2 ?_ hk.2 he
    cases s with
    | op o => cases h1; exact placed_apply hp o hk.1
    | read n sched =>
      simp only [exec] at h1
      by_cases hf : (batch (st.sys.k.queue.take n)).length ≤ bufLen
      · rw [if_pos hf] at h1
        have hb : Batch (st.sys.k.queue.take n) :=
          ⟨fun r hr => h.inv.wf r (List.mem_of_mem_take hr), hf, linked_ordered (h.inv.linked.sublist (List.take_sublist _ _))⟩
        rw [Lemmas.In.recv_eq Model.Ker.sys sys_sound (st.sys.k.queue.take n) hb
          { st with sys := { k := { st.sys.k with queue := st.sys.k.queue.drop n }, sched := sched } } h.sound] at h1
        simp only [Outcome.bind_ok] at h1
        rw [if_pos (by decide)] at h1
        cases h1
        exact (report_preserve Model.Ker.sys (fun _ w => PW w) pw_mark _ (st.sys.k.queue.take n) (Nat.le_refl _) st.dm
          { k := { st.sys.k with queue := st.sys.k.queue.drop n }, sched := sched } ⟨placed_congr hp rfl rfl (fun _ h => h), hk.1⟩).1
      · rw [if_neg hf] at h1; cases h1; exact hp

private theorem placed_open (dirs marks : List Str) (sched : List (List Op × Bool)) (hk : Ker.allSched Ker.keepsDirs sched = true) :
    Placed (opened dirs marks sched).sys.k := by
  have key : ∀ (ds : List Str) (st : St World), PW st.sys → PW (ds.foldl (fun st d => (doMark Model.Ker.sys d st).1) st).sys := by
    intro ds
    induction ds with
    | nil => intro st h; exact h
    | cons d ds ih =>
      intro st h
      rw [List.foldl_cons]
      refine ih _ ?_
      rw [Lemmas.In.doMark_eq]
      exact pw_mark d st.dm st.sys h
  exact (key marks { dm := [], sys := { k := { dirs := dirs, limit := none }, sched := sched } } ⟨⟨by simp, by simp⟩, hk⟩).1

/-- No watch, nothing pending. -/
private def Deaf (k : K) : Prop := k.watches = [] ∧ k.dead = [] ∧ k.queue = []

private theorem deaf_wdOf {k : K} (h : Deaf k) (d : Str) : wdOf k d = none := by unfold wdOf; rw [h.1]; rfl

private theorem deaf_notify {k : K} (h : Deaf k) (d n : Str) (kd : Kind) (od : Bool) : notify k d n kd od = k := by
  unfold notify; rw [deaf_wdOf h]

private theorem deaf_bury {k : K} (h : Deaf k) (p : Str) : Deaf (bury k p) := by
  unfold bury; rw [deaf_wdOf h]; exact h

private theorem deaf_relocate {k : K} (h : Deaf k) (f : Str → Str) : Deaf (relocate k f) := ⟨by unfold relocate; simp [h.1], h.2.1, h.2.2⟩

private theorem deaf_pushMoved {k0 k : K} (h0 : Deaf k0) (p : Str) : pushMoved k0 k p = k := by unfold pushMoved; rw [deaf_wdOf h0]

private theorem deaf_evict {k : K} (h : Deaf k) (wd : Int) : evictWd k wd = k := by unfold evictWd; rw [h.2.1]; rfl

private theorem deaf_moveDirK {k : K} (h : Deaf k) (d1 n1 d2 n2 : Str) (ck : BitVec 32) : Deaf (moveDirK k d1 n1 d2 n2 ck) := by
  unfold moveDirK
  rw [deaf_pushMoved h, deaf_notify h, deaf_notify h]
  exact deaf_relocate h _

private theorem deaf_apply {k : K} (h : Deaf k) (o : Op) : Deaf (apply k o) := by
  cases o with
  | create | modify | unlink | moveOut | moveIn | rename | cross =>
    simp only [apply]; split
    · simp only [deaf_notify h]; exact h
    · exact h
  | mkdir d n =>
    simp only [apply]; split
    · rw [deaf_notify (k := { k with dirs := k.dirs ++ [entryPath d n] }) h]; exact h
    · exact h
  | moveInDir d n ck =>
    simp only [apply]; split
    · rw [deaf_notify (k := { k with dirs := k.dirs ++ [entryPath d n] }) h]; exact h
    · exact h
  | rmdir d n sf =>
    simp only [apply, deaf_wdOf h]; split
    · rw [deaf_notify (deaf_bury h _)]
      split <;> exact deaf_bury h _
    · exact h
  | evict wd => simp only [apply, deaf_evict h]; exact h
  | moveDir d1 n1 d2 n2 ck =>
    simp only [apply]; split
    · exact deaf_moveDirK h ..
    · exact h
  | moveOver d1 n1 d2 n2 ck =>
    simp only [apply]; split
    · exact deaf_moveDirK (deaf_bury h _) ..
    · exact h
  | moveInOver d n ck =>
    simp only [apply]; split
    · rw [deaf_notify (k := { bury k (entryPath d n) with dirs := (bury k (entryPath d n)).dirs ++ [entryPath d n] }) (deaf_bury h _)]; exact deaf_bury h _
    · exact h
  | swapDirs d1 n1 d2 n2 ck1 ck2 =>
    simp only [apply]; split
    · simp only [deaf_pushMoved h, deaf_notify h]; exact deaf_relocate h _
    · exact h

private theorem deaf_execs : ∀ (more : List Step) (st : St World), Deaf st.sys.k → ∃ st', execs st more = .ok st' ∧ st'.out = st.out ∧ Deaf st'.sys.k := by
  intro more
  induction more with
  | nil => intro st h; exact ⟨st, rfl, rfl, h⟩
  | cons s more ih =>
    intro st h
    have : ∃ st1, exec st s = .ok st1 ∧ st1.out = st.out ∧ Deaf st1.sys.k := by
      cases s with
      | op o => exact ⟨_, rfl, rfl, deaf_apply h o⟩
      | read n sched =>
        refine ⟨{ st with rm := [], sys := { k := { st.sys.k with queue := [] }, sched := sched } }, ?_, ?_, ?_⟩
        · simp only [exec, h.2.2, List.take_nil, List.drop_nil]
          rw [if_pos (by decide)]
          simp [doEvRecv, batch, loop, flushRm]
          rfl
        · rfl
        · exact ⟨h.1, h.2.1, rfl⟩
    obtain ⟨st1, h1, h2, h3⟩ := this
    obtain ⟨st2, h4, h5, h6⟩ := ih st1 h3
    exact ⟨st2, by simp only [execs, h1, Outcome.bind_ok, h4], h5.trans h2, h6⟩

/-- C150, what happens instead: once nothing is left of the watched tree and everything has been read, the callback is never called again, whatever happens -
also when the directory is made again at the same path -, and the watch does not end by itself either (`execs` has an outcome only while it goes on). Before,
any operations on files and directories that do not move directories. -/
theorem C150_deaf_partial (root : Str) (dirs marks : List Str) (sched : List (List Op × Bool)) (ss : List Step) (hm : ∀ d ∈ marks, Ker.Below root d)
    (hk1 : Ker.allSched Ker.keepsDirs sched = true) (hk2 : ss.all (Ker.allOps Ker.keepsDirs) = true) (st : St World)
    (hst : execs (opened dirs marks sched) ss = .ok st) (hq : st.sys.k.queue = []) (hg : NothingLeft root st.sys.k) (more : List Step) :
    ∃ st', execs st more = .ok st' ∧ st'.out = st.out := by
  have h0 := hinv_open (l := false) (m := false) dirs marks sched (fun h => by cases h) (fun h => by cases h)
  have hp := placed_execs ss h0 (placed_open dirs marks sched hk1) hk2 hst
  obtain ⟨st0, g1, _, g3⟩ := C105_paths_below_partial root none dirs marks sched ss hm
  have g1' : execs (opened dirs marks sched) ss = .ok st0 := g1
  rw [hst] at g1'
  injection g1' with g1'; subst g1'
  have ht := (C35_table_partial dirs marks sched ss hk1 hk2 st hst hq).1
  have hw : st.sys.k.watches = [] := by
    refine List.eq_nil_iff_forall_not_mem.2 ?_
    intro ⟨wd, p⟩ he
    exact hg.1 p (hp.inTree _ he (by rw [hg.2]; simp)) (g3 _ ((ht wd p).2 he))
  obtain ⟨st', h1, h2, _⟩ := deaf_execs more st ⟨hw, hg.2, hq⟩
  exact ⟨st', h1, h2⟩

/-- A tree of two directories is removed, and everything is read. -/
private def goneHistory : List Step :=
  [.op (.create b!"/r/d" b!"f"), .op (.unlink b!"/r/d" b!"f"), .op (.rmdir b!"/r" b!"d" true), .op (.rmdir b!"/" b!"r" false), .op (.evict 1), .read 99 []]

/-- The hypotheses of `C150_deaf_partial` are met by that history: three events, the last about `/r/d`, and none about `/r`. -/
example : ∃ st, execs (opened [b!"/", b!"/r", b!"/r/d"] [b!"/r", b!"/r/d"] []) goneHistory = .ok st ∧ st.sys.k.queue = [] ∧ NothingLeft b!"/r" st.sys.k ∧
    st.out.map (fun e => (e.path, e.effect)) = [(b!"/r/d/f", .create), (b!"/r/d/f", .destroy), (b!"/r/d", .destroy)] := by
  have : ∃ st, execs (opened [b!"/", b!"/r", b!"/r/d"] [b!"/r", b!"/r/d"] []) goneHistory = .ok st ∧ (st.sys.k.queue = [] ∧ ((∀ d ∈ st.sys.k.dirs, ¬ Ker.Below b!"/r" d) ∧
      st.sys.k.dead = []) ∧ st.out.map (fun e => (e.path, e.effect)) = [(b!"/r/d/f", .create), (b!"/r/d/f", .destroy), (b!"/r/d", .destroy)]) := exists_ok (by decide +kernel)
  exact this

/-- C150 in full is false of the code: the removal of the watched directory goes by in silence, and so does what is done in a new one at its path. -/
theorem C150_refuted : ¬ C150_full := by
  intro h
  have : ∃ st, execs (opened [b!"/", b!"/r"] [b!"/r"] []) [] = .ok st ∧ (st.sys.k.queue = [] ∧ (1, b!"/r") ∈ st.sys.k.watches ∧
      ∃ st1, execs st [.op (.rmdir b!"/" b!"r" true), .read 99 []] = .ok st1 ∧ (b!"/r" ∉ st1.sys.k.dirs ∧ st1.sys.k.queue = [] ∧ st1.out = st.out)) := by
    refine ⟨_, rfl, rfl, by decide +kernel, exists_ok (by decide +kernel)⟩
  obtain ⟨st, h1, h2, h3, st1, h4, h5, h6, h7⟩ := this
  exact h b!"/r" [b!"/", b!"/r"] [b!"/r"] [] [] _ st st1 (by simp) (by intro d hd; simp at hd; subst hd; exact .inl rfl) h1 h2 ⟨1, h3⟩ h4 h5 h6 h7

/-- The same with the directory made again, and a file in it. -/
example : ∃ st1, execs (opened [b!"/", b!"/r"] [b!"/r"] []) [.op (.rmdir b!"/" b!"r" true), .read 99 [], .op (.mkdir b!"/" b!"r"), .op (.create b!"/r" b!"f"), .read 99 []]
    = .ok st1 ∧ (b!"/r" ∈ st1.sys.k.dirs ∧ st1.out = []) := exists_ok (by decide +kernel)

/-! ### fanotify -/

/-- The same for fanotify. -/
def C150_fanotify_full : Prop := ∀ (rf : Bool) (root : Str) (dirs : List (FKer.Handle × Str)) (marks : List Str) (ss more : List FKer.Step) (st st1 : Fa.St FKer.World),
  FKer.GoodTree dirs → root ∈ marks → FKer.execs rf (FKer.opened rf dirs marks []) ss = .ok st → st.sys.k.queue = [] → (∃ h ∈ st.sys.k.marked, (h, root) ∈ st.sys.k.dirs) →
  FKer.execs rf st more = .ok st1 → FKer.there st1.sys.k root = false → st1.sys.k.queue = [] → st1.out ≠ st.out

private def FDeaf (k : FKer.K) : Prop := k.marked = [] ∧ k.queue = []

private theorem fdeaf_notify {k : FKer.K} (h : FDeaf k) (d n : Str) (kd : FKer.Kind) (od : Bool) (who : FKer.Who) : FKer.notify k d n kd od who = k := by
  unfold FKer.notify
  split
  · rfl
  · rw [h.1]; rfl

private theorem fdeaf_moveDirF {k : FKer.K} (h : FDeaf k) (who : FKer.Who) (d1 n1 d2 n2 : Str) : FDeaf (FKer.moveDirF k who d1 n1 d2 n2) := by
  unfold FKer.moveDirF
  simp only
  split
  · rw [fdeaf_notify h, fdeaf_notify h]; exact h
  · exact h

private theorem fdeaf_apply {k : FKer.K} (h : FDeaf k) (who : FKer.Who) (o : FKer.Op) : FDeaf (FKer.apply k who o) := by
  cases o with
  | create | modify | unlink | move =>
    simp only [FKer.apply]; split
    · simp only [fdeaf_notify h]; exact h
    · exact h
  | mkdir d n hd =>
    simp only [FKer.apply]; split
    · rw [fdeaf_notify (k := { k with dirs := k.dirs ++ [(hd, FKer.child d n)], past := k.past ++ [(hd, FKer.child d n)] }) h]; exact h
    · exact h
  | rmdir d n =>
    simp only [FKer.apply]; split
    · rw [fdeaf_notify h]; exact ⟨by simp [h.1], h.2⟩
    · exact h
  | moveDir d1 n1 d2 n2 => exact fdeaf_moveDirF h ..
  | moveOver d1 n1 d2 n2 =>
    simp only [FKer.apply]; split
    · have hv : FDeaf (FKer.vanish k (FKer.child d2 n2)) := ⟨by simp [FKer.vanish, h.1], h.2⟩
      exact fdeaf_moveDirF hv ..
    · exact h
  | swapDirs d1 n1 d2 n2 =>
    simp only [FKer.apply, FKer.swapDirsF]; split
    · rw [fdeaf_notify h, fdeaf_notify h, fdeaf_notify h, fdeaf_notify h]; exact h
    · exact h

/-- C150 for fanotify: once the kernel holds no mark any more (it drops a directory's mark with the directory) and everything has been read, the callback is never
called again, whatever happens, and the watch does not end by itself either. -/
theorem C150_fanotify_deaf_partial (rf : Bool) (st : Fa.St FKer.World) (hm : st.sys.k.marked = []) (hq : st.sys.k.queue = []) (more : List FKer.Step) :
    ∃ st', FKer.execs rf st more = .ok st' ∧ st'.out = st.out := by
  have key : ∀ (more : List FKer.Step) (st : Fa.St FKer.World), FDeaf st.sys.k → ∃ st', FKer.execs rf st more = .ok st' ∧ st'.out = st.out := by
    intro more
    induction more with
    | nil => intro st _; exact ⟨st, rfl, rfl⟩
    | cons s more ih =>
      intro st h
      have : ∃ st1, FKer.exec rf st s = .ok st1 ∧ st1.out = st.out ∧ FDeaf st1.sys.k := by
        cases s with
        | op o =>
          refine ⟨_, rfl, rfl, ?_⟩
          show FDeaf (FKer.doIt st.sys.k o)
          unfold FKer.doIt
          split
          · exact fdeaf_apply h ..
          · exact h
        | read n sched =>
          refine ⟨{ st with sys := { st.sys with k := { st.sys.k with queue := [] }, sched := sched } }, ?_, rfl, ⟨h.1, rfl⟩⟩
          simp only [FKer.exec, h.2, List.take_nil, List.drop_nil]
          rw [if_pos (by decide)]
          simp [Fa.doEvRecv, fbatch, Fa.loop, Fa.eventOk]
          rfl
      obtain ⟨st1, h1, h2, h3⟩ := this
      obtain ⟨st2, h4, h5⟩ := ih st1 h3
      exact ⟨st2, by simp only [FKer.execs, h1, Outcome.bind_ok, h4], h5.trans h2⟩
  exact key more st ⟨hm, hq⟩

private def goneDirs : List (FKer.Handle × Str) := [([1], b!"/p"), ([2], b!"/p/r")]

private theorem goneTree : FKer.GoodTree goneDirs where
  handles := by decide
  paths := by decide
  short := by decide
  canon := by decide

/-- A file is made, everything is read, the directory is emptied and removed, and made again with a file in it: the hypotheses are met in between, and only the
first two changes are told. -/
example : ∃ st, FKer.execs false (FKer.opened false goneDirs [b!"/p/r"] []) [.op ⟨.create b!"/p/r" b!"f", {}⟩, .read 9 [], .op ⟨.unlink b!"/p/r" b!"f", {}⟩, .read 9 [],
      .op ⟨.rmdir b!"/p" b!"r", {}⟩, .read 9 []] = .ok st ∧ (st.sys.k.marked = [] ∧ st.sys.k.queue = [] ∧
      st.out.map (fun e => (e.1.path, e.1.effect)) = [(b!"/p/r/f", .create), (b!"/p/r/f", .destroy)]) ∧
    ∃ st1, FKer.execs false st [.op ⟨.mkdir b!"/p" b!"r" [3], {}⟩, .op ⟨.create b!"/p/r" b!"f", {}⟩, .read 9 []] = .ok st1 ∧ (FKer.there st1.sys.k b!"/p/r" = true ∧ st1.out = st.out) := by
  obtain ⟨st, h1, h2⟩ : ∃ st, FKer.execs false (FKer.opened false goneDirs [b!"/p/r"] []) [.op ⟨.create b!"/p/r" b!"f", {}⟩, .read 9 [], .op ⟨.unlink b!"/p/r" b!"f", {}⟩, .read 9 [],
      .op ⟨.rmdir b!"/p" b!"r", {}⟩, .read 9 []] = .ok st ∧ ((st.sys.k.marked = [] ∧ st.sys.k.queue = [] ∧
      st.out.map (fun e => (e.1.path, e.1.effect)) = [(b!"/p/r/f", .create), (b!"/p/r/f", .destroy)]) ∧
      (match FKer.execs false st [.op ⟨.mkdir b!"/p" b!"r" [3], {}⟩, .op ⟨.create b!"/p/r" b!"f", {}⟩, .read 9 []] with
        | .ok st1 => decide (FKer.there st1.sys.k b!"/p/r" = true ∧ st1.out = st.out) | .ub _ => false) = true) := exists_ok (by decide +kernel)
  have h3 := h2.2
  split at h3
  · rename_i st1 h4
    exact ⟨st, h1, h2.1, st1, h4, of_decide_eq_true h3⟩
  · cases h3

/-- C150 in full is false of the fanotify back end as well. -/
theorem C150_fanotify_refuted : ¬ C150_fanotify_full := by
  intro h
  obtain ⟨st, h1, ⟨h2, h3⟩, h4⟩ : ∃ st, FKer.execs false (FKer.opened false goneDirs [b!"/p/r"] []) [] = .ok st ∧ ((st.sys.k.queue = [] ∧ ([2] ∈ st.sys.k.marked ∧ ([2], b!"/p/r") ∈ st.sys.k.dirs)) ∧
      (match FKer.execs false st [.op ⟨.rmdir b!"/p" b!"r", {}⟩, .read 9 []] with
        | .ok st1 => decide (FKer.there st1.sys.k b!"/p/r" = false ∧ st1.sys.k.queue = [] ∧ st1.out = st.out) | .ub _ => false) = true) := exists_ok (by decide +kernel)
  split at h4
  case h_2 => cases h4
  rename_i st1 h5
  obtain ⟨h6, h7, h8⟩ := of_decide_eq_true h4
  exact h false b!"/p/r" goneDirs [b!"/p/r"] [] _ st st1 goneTree (by simp) h1 h2 ⟨[2], h3⟩ h5 h6 h7 h8

end Verif.Props
