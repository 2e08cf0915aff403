import Verif.Model.Unmount
import Verif.Spec.Gone
import Verif.Lemmas.Kernel6
import Verif.Props.Kernel
import Verif.Props.Gone
/-!
# The file system of a watched directory is unmounted: C161
-/

namespace Verif.Props
open Verif Verif.Model Verif.Model.In Verif.Model.Ker Verif.Spec Verif.Spec.Gone Verif.Lemmas.Ker

/-- C161 as it should be: when the file system of the watched directory has been unmounted and the watcher has read everything, the callback has been told something. -/
def C161_full : Prop := ∀ (root m : Str) (dirs marks under : List Str) (sched : List (List Op × Bool)) (ss more : List Step) (st st1 : St World),
  root ∈ marks → (∀ d ∈ marks, Ker.Below root d) → execs (opened dirs marks sched) ss = .ok st → st.sys.k.queue = [] → st.sys.k.dead = [] → Watched st.sys.k root →
  Ker.Below m root → execs (unmounted st m under) more = .ok st1 → st1.sys.k.queue = [] → st1.out ≠ st.out

/-- No watch. -/
private def Mute (k : K) : Prop := k.watches = [] ∧ k.dead = []

private theorem mute_wdOf {k : K} (h : Mute k) (d : Str) : wdOf k d = none := by unfold wdOf; rw [h.1]; rfl

private theorem mute_notify {k : K} (h : Mute k) (d n : Str) (kd : Kind) (od : Bool) : notify k d n kd od = k := by
  unfold notify; rw [mute_wdOf h]

private theorem mute_bury {k : K} (h : Mute k) (p : Str) : Mute (bury k p) ∧ (bury k p).queue = k.queue := by
  unfold bury; rw [mute_wdOf h]; exact ⟨h, rfl⟩

private theorem mute_relocate {k : K} (h : Mute k) (f : Str → Str) : Mute (relocate k f) := ⟨by unfold relocate; simp [h.1], h.2⟩

private theorem mute_pushMoved {k0 k : K} (h0 : Mute k0) (p : Str) : pushMoved k0 k p = k := by unfold pushMoved; rw [mute_wdOf h0]

private theorem mute_evict {k : K} (h : Mute k) (wd : Int) : evictWd k wd = k := by unfold evictWd; rw [h.2]; rfl

private theorem mute_moveDirK {k : K} (h : Mute k) (d1 n1 d2 n2 : Str) (ck : BitVec 32) :
    Mute (moveDirK k d1 n1 d2 n2 ck) ∧ (moveDirK k d1 n1 d2 n2 ck).queue = k.queue := by
  unfold moveDirK
  rw [mute_pushMoved h, mute_notify h, mute_notify h]
  exact ⟨mute_relocate h _, rfl⟩

private theorem mute_apply {k : K} (h : Mute k) (o : Op) : Mute (apply k o) ∧ (apply k o).queue = k.queue := by
  cases o with
  | create | modify | unlink | moveOut | moveIn | rename | cross =>
    simp only [apply]; split
    · simp only [mute_notify h]; exact ⟨h, trivial⟩
    · exact ⟨h, rfl⟩
  | mkdir d n =>
    simp only [apply]; split
    · rw [mute_notify (k := { k with dirs := k.dirs ++ [entryPath d n] }) h]; exact ⟨h, rfl⟩
    · exact ⟨h, rfl⟩
  | moveInDir d n ck =>
    simp only [apply]; split
    · rw [mute_notify (k := { k with dirs := k.dirs ++ [entryPath d n] }) h]; exact ⟨h, rfl⟩
    · exact ⟨h, rfl⟩
  | rmdir d n sf =>
    simp only [apply, mute_wdOf h]; split
    · rw [mute_notify (mute_bury h _).1]
      split <;> exact mute_bury h _
    · exact ⟨h, rfl⟩
  | evict wd => simp only [apply, mute_evict h]; exact ⟨h, trivial⟩
  | moveDir d1 n1 d2 n2 ck =>
    simp only [apply]; split
    · exact mute_moveDirK h ..
    · exact ⟨h, rfl⟩
  | moveOver d1 n1 d2 n2 ck =>
    simp only [apply]; split
    · have h1 := mute_bury h (entryPath d2 n2)
      have h2 := mute_moveDirK h1.1 d1 n1 d2 n2 ck
      exact ⟨h2.1, h2.2.trans h1.2⟩
    · exact ⟨h, rfl⟩
  | moveInOver d n ck =>
    simp only [apply]; split
    · rw [mute_notify (k := { bury k (entryPath d n) with dirs := (bury k (entryPath d n)).dirs ++ [entryPath d n] }) (mute_bury h _).1]; exact mute_bury h _
    · exact ⟨h, rfl⟩
  | swapDirs d1 n1 d2 n2 ck1 ck2 =>
    simp only [apply]; split
    · simp only [mute_pushMoved h, mute_notify h]; exact ⟨mute_relocate h _, rfl⟩
    · exact ⟨h, rfl⟩

/-- Records of an unmounting: of watches in the table. -/
private def Parting (t : Table) (r : Rec) : Prop := (r = unmountRec r.wd ∨ r = ignoredRec r.wd) ∧ 0 < r.wd ∧ r.wd < 2147483648 ∧ ∃ p, t.lookup r.wd = some p

private theorem parting_rep {t : Table} {r : Rec} (h : Parting t r) : r.reportable = false ∧ (r.deleteSelf && !r.moveSelf) = false ∧ r.movedTo = false := by
  rcases h.1 with h | h <;> rw [h] <;> simp [unmountRec, ignoredRec, Rec.reportable, Rec.created, Rec.deleted, Rec.modified, Rec.movedFrom, Rec.movedTo, Rec.deleteSelf, Rec.bit]

private theorem parting_wf {t : Table} {r : Rec} (h : Parting t r) : r.WF := by
  obtain ⟨h1, h2, h3, _⟩ := h
  have h4 : r.name = [] ∧ r.pad = 0 ∧ r.overflow = false ∧ r.reportable = false ∧ (r.created || r.deleted || r.modified || r.movedFrom || r.movedTo) = false := by
    rcases h1 with h | h <;> rw [h] <;>
      simp [unmountRec, ignoredRec, Rec.reportable, Rec.created, Rec.deleted, Rec.modified, Rec.movedFrom, Rec.movedTo, Rec.overflow, Rec.bit]
  obtain ⟨a, b, c, d, e⟩ := h4
  exact ⟨⟨by omega, h3⟩, by rw [a, b]; decide, by rw [a]; simp, by rw [a]; simp, fun x => absurd a x, fun _ => e, (fun x => by rw [d] at x; cases x),
    (fun x => by rw [c] at x; cases x)⟩

private theorem parting_ordered {t : Table} : ∀ (q : List Rec), (∀ r ∈ q, Parting t r) → Ordered q
  | [], _ => trivial
  | [_], _ => trivial
  | a :: b :: rest, h => ⟨(fun x => by rw [(parting_rep (h a (by simp))).2.2] at x; cases x.1), parting_ordered (b :: rest) (fun r hr => h r (List.mem_cons_of_mem _ hr))⟩

private theorem parting_report {t : Table} (w : World) : ∀ (q : List Rec), (∀ r ∈ q, Parting t r) → report Model.Ker.sys q t w = ([], t, w) ∧ gone q = [] := by
  intro q
  induction q with
  | nil => intro _; exact ⟨by simp [report], rfl⟩
  | cons r q ih =>
    intro h
    have hr := h r (by simp)
    obtain ⟨i1, i2⟩ := ih (fun r hr => h r (List.mem_cons_of_mem _ hr))
    obtain ⟨p, hp⟩ := hr.2.2.2
    refine ⟨?_, ?_⟩
    · unfold report
      simp only [hp, (parting_rep hr).1, Bool.not_false, ↓reduceIte, i1]
    · unfold gone at i2 ⊢
      rw [List.filter_cons, if_neg (by rw [(parting_rep hr).2.1]; simp)]
      exact i2

private theorem mute_execs : ∀ (more : List Step) (st : St World), Mute st.sys.k → SoundTable st.dm → (∀ r ∈ st.sys.k.queue, Parting st.dm r) →
    ∃ st', execs st more = .ok st' ∧ st'.out = st.out ∧ st'.dm = st.dm := by
  intro more
  induction more with
  | nil => intro st _ _ _; exact ⟨st, rfl, rfl, rfl⟩
  | cons s more ih =>
    intro st h ht hq
    have : ∃ st1, exec st s = .ok st1 ∧ st1.out = st.out ∧ st1.dm = st.dm ∧ Mute st1.sys.k ∧ ∀ r ∈ st1.sys.k.queue, Parting st.dm r := by
      cases s with
      | op o =>
        have h1 := mute_apply h o
        exact ⟨_, rfl, rfl, rfl, h1.1, fun r hr => hq r (h1.2 ▸ hr)⟩
      | read n sched =>
        simp only [exec]
        have hq1 : ∀ r ∈ st.sys.k.queue.take n, Parting st.dm r := fun r hr => hq r (List.mem_of_mem_take hr)
        by_cases hf : (batch (st.sys.k.queue.take n)).length ≤ bufLen
        · rw [if_pos hf, Lemmas.In.recv_eq Model.Ker.sys sys_sound (st.sys.k.queue.take n) ⟨fun r hr => parting_wf (hq1 r hr), hf, parting_ordered _ hq1⟩
            { st with sys := { k := { st.sys.k with queue := st.sys.k.queue.drop n }, sched := sched } } ht]
          obtain ⟨i1, i2⟩ := parting_report (t := st.dm) { k := { st.sys.k with queue := st.sys.k.queue.drop n }, sched := sched } _ hq1
          simp only [i1, i2, Outcome.bind_ok]
          rw [if_pos (by decide)]
          refine ⟨_, rfl, by simp, ?_, h, fun r hr => hq r (List.mem_of_mem_drop hr)⟩
          unfold without
          simp
        · rw [if_neg hf]; exact ⟨st, rfl, rfl, rfl, h, hq⟩
    obtain ⟨st1, h1, h2, h3, h4, h5⟩ := this
    obtain ⟨st2, g1, g2, g3⟩ := ih st1 h4 (h3 ▸ ht) (h3 ▸ h5)
    exact ⟨st2, by simp only [execs, h1, Outcome.bind_ok, g1], g2.trans h2, g3.trans h3⟩

private theorem onMount_below {m p : Str} (h : Ker.Below m p) : onMount m p = true := by
  unfold onMount
  rcases h with h | h
  · simp [h]
  · simp only [Bool.or_eq_true, List.isPrefixOf_iff_prefix]; exact .inr h

/-- C161, what happens instead: after any history, when the file system that all watches are on is unmounted, the callback is never called again, whatever happens -
also when it is mounted again -, the watch does not end by itself (`execs` has an outcome only while it goes on), and its table of directories stays as it was. -/
theorem C161_silent_partial (dirs marks : List Str) (sched : List (List Op × Bool)) (ss : List Step) (st : St World)
    (hst : execs (opened dirs marks sched) ss = .ok st) (hq : st.sys.k.queue = []) (hd : st.sys.k.dead = [])
    (m : Str) (hm : ∀ e ∈ st.sys.k.watches, Ker.Below m e.2) (under : List Str) (more : List Step) :
    ∃ st', execs (unmounted st m under) more = .ok st' ∧ st'.out = st.out ∧ st'.dm = st.dm := by
  have h0 := hinv_open (l := false) (m := false) dirs marks sched (fun h => by cases h) (fun h => by cases h)
  obtain ⟨st0, L, h1, h2⟩ := hinv_execs ss h0 (fun h => by cases h) (fun h => by cases h)
  rw [hst] at h1; injection h1 with h1; subst h1
  have hall : st.sys.k.watches.filter (fun e => !onMount m e.2) = [] := by
    rw [List.filter_eq_nil_iff]; intro e he; rw [onMount_below (hm e he)]; simp
  have hany : st.sys.k.watches.any (fun e => onMount m e.2 && st.sys.k.dead.contains e.1) = false := by rw [hd]; simp
  have key : ∀ (l : List (Int × Str)) (k : K), (∀ e ∈ l, e ∈ st.sys.k.watches) → Mute k → k.limit = none → (∀ r ∈ k.queue, Parting st.dm r) →
      Mute (l.foldl (fun k e => push (push k (unmountRec e.1)) (ignoredRec e.1)) k) ∧
        ∀ r ∈ (l.foldl (fun k e => push (push k (unmountRec e.1)) (ignoredRec e.1)) k).queue, Parting st.dm r := by
    intro l
    induction l with
    | nil => intro k _ h1 _ h3; exact ⟨h1, h3⟩
    | cons e l ih =>
      intro k hl h1 h2' h3
      rw [List.foldl_cons]
      have hx : push (push k (unmountRec e.1)) (ignoredRec e.1) = { k with queue := k.queue ++ [unmountRec e.1] ++ [ignoredRec e.1] } := by
        simp [push, full, h2']
      rw [hx]
      refine ih _ (fun e he => hl e (List.mem_cons_of_mem _ he)) h1 h2' ?_
      obtain ⟨p, hp⟩ := h2.inv.live e (hl e (by simp))
      have hb := h2.inv.hist _ _ (h2.inv.table _ _ hp)
      have hn := h2.inv.next
      have hb1 := hb.1
      have hb2 : e.1 < 2147483648 := by omega
      intro r hr
      simp only [List.mem_append, List.mem_singleton] at hr
      rcases hr with (hr | hr) | hr
      · exact h3 r hr
      · subst hr; exact ⟨.inl rfl, hb1, hb2, p, hp⟩
      · subst hr; exact ⟨.inr rfl, hb1, hb2, p, hp⟩
  have hlim : st.sys.k.limit = none := lost_zero _ _ _ _ hst
  have hk := key (st.sys.k.watches.filter (fun e => onMount m e.2))
    { st.sys.k with dirs := st.sys.k.dirs.filter (fun d => !onMount m d) ++ under, watches := st.sys.k.watches.filter (fun e => !onMount m e.2) }
    (fun e he => (List.mem_filter.1 he).1) ⟨hall, hd⟩ hlim (by intro r hr; simp only [hq] at hr; cases hr)
  have hu : (unmounted st m under).sys.k = (st.sys.k.watches.filter (fun e => onMount m e.2)).foldl (fun k e => push (push k (unmountRec e.1)) (ignoredRec e.1))
      { st.sys.k with dirs := st.sys.k.dirs.filter (fun d => !onMount m d) ++ under, watches := st.sys.k.watches.filter (fun e => !onMount m e.2) } := by
    unfold unmounted unmount
    simp only [hany]
    rfl
  exact mute_execs more (unmounted st m under) (by rw [hu]; exact hk.1) h2.sound (by rw [hu]; exact hk.2)

/-- Two directories of a mounted file system, both watched, with an event before. -/
example : ∃ st, execs (opened [b!"/", b!"/r", b!"/r/d"] [b!"/r", b!"/r/d"] []) [.op (.create b!"/r/d" b!"f"), .read 99 []] = .ok st ∧
    (st.sys.k.queue = [] ∧ st.sys.k.dead = [] ∧ st.sys.k.watches.length = 2 ∧ (∀ e ∈ st.sys.k.watches, Ker.Below b!"/r" e.2) ∧ st.out.length = 1 ∧
    (unmounted st b!"/r" [b!"/r"]).sys.k.queue.length = 4 ∧ (unmounted st b!"/r" [b!"/r"]).sys.k.dirs = [b!"/", b!"/r"]) := exists_ok (by decide +kernel)

/-- C161 in full is false of the code: the unmounting goes by in silence, and so does what is done afterwards. -/
theorem C161_refuted : ¬ C161_full := by
  intro h
  have : ∃ st, execs (opened [b!"/", b!"/r"] [b!"/r"] []) [] = .ok st ∧ (st.sys.k.queue = [] ∧ st.sys.k.dead = [] ∧ (1, b!"/r") ∈ st.sys.k.watches ∧
      ∃ st1, execs (unmounted st b!"/r" [b!"/r"]) [.read 99 [], .op (.create b!"/r" b!"f"), .read 99 []] = .ok st1 ∧ (st1.sys.k.queue = [] ∧ st1.out = st.out)) := by
    refine ⟨_, rfl, rfl, rfl, by decide +kernel, exists_ok (by decide +kernel)⟩
  obtain ⟨st, h1, h2, h3, h4, st1, h5, h6, h7⟩ := this
  exact h b!"/r" b!"/r" [b!"/", b!"/r"] [b!"/r"] [b!"/r"] [] [] _ st st1 (by simp) (by intro d hd; simp at hd; subst hd; exact .inl rfl) h1 h2 h3 ⟨1, h4⟩ (.inl rfl) h5 h6 h7

/-! ### fanotify -/

/-- The same for fanotify. -/
def C161_fanotify_full : Prop := ∀ (rf : Bool) (root m : Str) (dirs under : List (FKer.Handle × Str)) (marks : List Str) (ss more : List FKer.Step) (st st1 : Fa.St FKer.World),
  FKer.GoodTree dirs → root ∈ marks → FKer.execs rf (FKer.opened rf dirs marks []) ss = .ok st → st.sys.k.queue = [] → (∃ h ∈ st.sys.k.marked, (h, root) ∈ st.sys.k.dirs) →
  Ker.Below m root → FKer.execs rf (FKer.unmounted st m under) more = .ok st1 → st1.sys.k.queue = [] → st1.out ≠ st.out

/-- C161 for fanotify: when everything has been read and the file system that all marked directories are on is unmounted, the callback is never called again,
whatever happens, and the watch does not end by itself either. -/
theorem C161_fanotify_silent_partial (rf : Bool) (st : Fa.St FKer.World) (hq : st.sys.k.queue = []) (m : Str)
    (hm : ∀ h ∈ st.sys.k.marked, ∃ p, (h, p) ∈ st.sys.k.dirs ∧ Ker.Below m p) (under : List (FKer.Handle × Str)) (more : List FKer.Step) :
    ∃ st', FKer.execs rf (FKer.unmounted st m under) more = .ok st' ∧ st'.out = st.out := by
  refine C150_fanotify_deaf_partial rf (FKer.unmounted st m under) ?_ hq more
  show st.sys.k.marked.filter _ = []
  rw [List.filter_eq_nil_iff]
  intro h hh
  obtain ⟨p, h1, h2⟩ := hm h hh
  have : st.sys.k.dirs.any (fun e => e.1 == h && onMount m e.2) = true := by
    rw [List.any_eq_true]; exact ⟨(h, p), h1, by simp [onMount_below h2]⟩
  rw [this]; simp

private def mountDirs : List (FKer.Handle × Str) := [([1], b!"/p"), ([2], b!"/p/r")]

private theorem mountTree : FKer.GoodTree mountDirs where
  handles := by decide
  paths := by decide
  short := by decide
  canon := by decide

/-- The hypotheses are met after a first event. -/
example : ∃ st, FKer.execs false (FKer.opened false mountDirs [b!"/p/r"] []) [.op ⟨.create b!"/p/r" b!"f", {}⟩, .read 9 []] = .ok st ∧
    (st.sys.k.queue = [] ∧ st.sys.k.marked = [[2]] ∧ ([2], b!"/p/r") ∈ st.sys.k.dirs ∧ st.out.length = 1) := exists_ok (by decide +kernel)

/-- C161 in full is false of the fanotify back end as well. -/
theorem C161_fanotify_refuted : ¬ C161_fanotify_full := by
  intro h
  obtain ⟨st, h1, ⟨h2, h3⟩, h4⟩ : ∃ st, FKer.execs false (FKer.opened false mountDirs [b!"/p/r"] []) [] = .ok st ∧ ((st.sys.k.queue = [] ∧ ([2] ∈ st.sys.k.marked ∧ ([2], b!"/p/r") ∈ st.sys.k.dirs)) ∧
      (match FKer.execs false (FKer.unmounted st b!"/p/r" [([3], b!"/p/r")]) [.op ⟨.create b!"/p/r" b!"f", {}⟩, .read 9 []] with
        | .ok st1 => decide (st1.sys.k.queue = [] ∧ st1.out = st.out) | .ub _ => false) = true) := exists_ok (by decide +kernel)
  split at h4
  case h_2 => cases h4
  rename_i st1 h5
  obtain ⟨h6, h7⟩ := of_decide_eq_true h4
  exact h false b!"/p/r" b!"/p/r" mountDirs _ [b!"/p/r"] [] _ st st1 mountTree (by simp) h1 h2 ⟨[2], h3⟩ (.inl rfl) h5 h6 h7

/-- (environment, fanotify) Unmounting leaves no directory without the handle and path it was made known by, and what is marked was known. -/
theorem C161_known (k : Model.FKer.K) (m : Str) (under : List (Model.FKer.Handle × Str)) (h : ∀ e ∈ k.dirs, e ∈ k.past) :
    (∀ e ∈ (Model.FKer.unmount k m under).dirs, e ∈ (Model.FKer.unmount k m under).past) ∧ ∀ e ∈ k.past, e ∈ (Model.FKer.unmount k m under).past := by
  refine ⟨fun e he => ?_, fun e he => List.mem_append_left _ he⟩
  rcases List.mem_append.1 he with he | he
  · exact List.mem_append_left _ (h e (List.mem_filter.1 he).1)
  · exact List.mem_append_right _ he

end Verif.Props
