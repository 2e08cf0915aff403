import Verif.Lemmas.Kernel3
/-! A watcher that keeps up. -/
namespace Verif.Lemmas.Ker
open Verif Verif.Model Verif.Model.In Verif.Model.Ker Verif.Spec Verif.Lemmas.In

/-- Watches and directories correspond. -/
structure Cover (k : K) : Prop where
  cover : ∀ d, d ∈ k.dirs ↔ ∃ wd, wdOf k d = some wd
  uniq : ∀ e ∈ k.watches, ∀ e' ∈ k.watches, e.1 ∉ k.dead → e'.1 ∉ k.dead → e.2 = e'.2 → e.1 = e'.1
  canon : ∀ d ∈ k.dirs, Canonical d

structure Sync (L0 : List Change) (st : St World) : Prop where
  h : HInv true true L0 st
  empty : st.sys.k.queue = []
  c : Cover st.sys.k
  lim : st.sys.k.limit = none

theorem full_none {k : K} (h : k.limit = none) : full k = false := by unfold full; rw [h]

theorem evict_eq {k : K} (hl : k.limit = none) (wd : Int) : evictWd k wd = if k.dead.contains wd then { k with
      queue := k.queue ++ [deleteSelfRec wd, ignoredRec wd]
      watches := k.watches.filter (fun e => e.1 != wd)
      dead := k.dead.filter (· != wd) } else k := by
  have hp : ∀ (k : K) (r : Rec), k.limit = none → push k r = { k with queue := k.queue ++ [r] } := by
    intro k r h; unfold push; rw [full_none h]; rfl
  unfold evictWd
  split
  · rw [hp _ _ (by rw [hp _ _ (by exact hl)]; exact hl), hp _ _ (by exact hl)]
    simp
  · rfl

theorem wdOf_some {k : K} {d : Str} : (∃ wd, wdOf k d = some wd) ↔ ∃ e ∈ k.watches, e.2 = d ∧ e.1 ∉ k.dead := by
  constructor
  · rintro ⟨wd, h⟩
    obtain ⟨e, he, h1, h2, h3⟩ := wdOf_mem h
    exact ⟨e, he, h2, h1 ▸ h3⟩
  · rintro ⟨e, he, h1, h2⟩
    unfold wdOf
    cases hf : k.watches.find? (fun e => e.2 == d && !k.dead.contains e.1) with
    | some x => exact ⟨x.1, rfl⟩
    | none =>
      have := List.find?_eq_none.1 hf e he
      simp [h1] at this
      exact absurd this h2

/-- The table's name of a live watch is its directory's path. -/
theorem HInv.name {l : Bool} {L0 : List Change} {st : St World} (h : HInv l true L0 st) {d wd} (hw : wdOf st.sys.k d = some wd) :
    st.dm.lookup wd = some d := by
  obtain ⟨e, he, h1, h2, _⟩ := wdOf_mem hw
  obtain ⟨p, hp⟩ := h.inv.live e he
  have h3 := h.inv.table _ _ hp
  have h4 := (h.still rfl).watch e he
  rw [h4] at h3
  injection h3 with h3
  rw [h1] at hp
  rw [hp, ← h3, h2]

theorem canonical_entry {d n : Str} (hn : okName n = true) : Canonical (entryPath d n) := by
  simp only [okName, Bool.and_eq_true, bne_iff_ne, ne_eq, decide_eq_true_eq, Bool.not_eq_true',
    List.contains_eq_mem, decide_eq_false_iff_not] at hn
  obtain ⟨⟨⟨hn1, hn2⟩, hn3⟩, hn4⟩ := hn
  have hl : ∀ x : Str, (x ++ n).getLast? ≠ some 47 := by
    intro x hx
    rw [List.getLast?_append] at hx
    cases hg : n.getLast? with
    | none => rw [List.getLast?_eq_none_iff] at hg; exact hn1 hg
    | some y =>
      rw [hg] at hx
      simp at hx; subst hx
      exact hn4 (List.mem_of_getLast? hg)
  unfold entryPath
  split
  · exact ⟨by simp, fun h => absurd h (hl _)⟩
  · exact ⟨by simp, fun h => absurd h (hl _)⟩

theorem canonicalB_of {p : Str} (h : Canonical p) : canonicalB p = true := by
  obtain ⟨h1, h2⟩ := h
  simp only [canonicalB, Bool.and_eq_true, bne_iff_ne, ne_eq, Bool.or_eq_true, beq_iff_eq]
  refine ⟨h1, ?_⟩
  by_cases hx : p.getLast? = some 47
  · exact .inr (h2 hx)
  · exact .inl hx

/-- What marking does to an undisturbed world. -/
theorem markSpec_calm (p : Str) (t : Table) (w : World) (h : w.sched = []) :
    (markSpec Model.Ker.sys p t w).2.2 =
      if w.k.dirs.contains p && canonicalB p then { w with k := (addWatchK w.k p).2 } else w := by
  have ht : tick w = (false, w) := by unfold tick; rw [h]
  by_cases hc : (w.k.dirs.contains p && canonicalB p) = true
  · have hd : w.k.dirs.contains p = true := by simp only [Bool.and_eq_true] at hc; exact hc.1
    have e1 : Model.Ker.sys.realpath w p = (some p, w) := by
      show ((if (tick w).2.k.dirs.contains p && canonicalB p then some p else none), (tick w).2) = _
      rw [ht]; simp only [hc, if_true]
    have e2 : Model.Ker.sys.isDir w p = (true, w) := by
      show ((tick w).2.k.dirs.contains p, (tick w).2) = _
      rw [ht]; simp only [hd]
    have e3 : Model.Ker.sys.addWatch w p = ((addWatchK w.k p).1, { w with k := (addWatchK w.k p).2 }) := by
      show (if (tick w).1 then ((-1 : Int), (tick w).2) else
        ((addWatchK (tick w).2.k p).1, { (tick w).2 with k := (addWatchK (tick w).2.k p).2 })) = _
      rw [ht]; rfl
    unfold markSpec
    rw [if_pos hc]
    simp only [e1, e2, e3]
    split <;> rfl
  · have e1 : Model.Ker.sys.realpath w p = (none, w) := by
      show ((if (tick w).2.k.dirs.contains p && canonicalB p then some p else none), (tick w).2) = _
      rw [ht]; simp only [hc]; rfl
    unfold markSpec
    rw [if_neg hc]
    simp only [e1]

/-- Without creations of directories a batch changes neither the table nor the world. -/
theorem report_nomark {σ} (S : Sys σ) : ∀ (n : Nat) (rs : List Rec), rs.length ≤ n → ∀ (t : Table) (w : σ),
    (∀ r ∈ rs, (r.created && r.onDir) = false) → (report S rs t w).2 = (t, w) := by
  intro n
  induction n with
  | zero => intro rs h t w _; rw [List.length_eq_zero_iff.1 (by omega : rs.length = 0)]; simp [report_nil]
  | succ n ih =>
    intro rs hn t w hk
    cases rs with
    | nil => simp [report_nil]
    | cons r rest =>
      simp only [List.length_cons] at hn
      have hk' : ∀ x ∈ rest, (x.created && x.onDir) = false := fun x hx => hk x (by simp [hx])
      cases hd : t.lookup r.wd with
      | none => rw [report_unknown S _ w hd]; exact ih rest (by omega) t w hk'
      | some d' =>
        by_cases hr : r.reportable = true
        · rcases alone_or r rest with h | ⟨r2, rest2, rfl, h⟩
          · rw [report_single S w hd hr h]
            have : markOf S r d' t w = ([], t, w) := by
              rw [markOf, hk r (by simp)]; simp
            rw [this]; exact ih rest (by omega) _ _ hk'
          · simp only [List.length_cons] at hn
            rw [report_pair S _ w hd hr h]; exact ih rest2 (by omega) t w (fun x hx => hk' x (by simp [hx]))
        · rw [report_silent S _ w hd (by simpa using hr)]; exact ih rest (by omega) t w hk'

/-- A read of everything pending. -/
theorem read_all {l m : Bool} {L0 : List Change} {st : St World} (h : HInv l m L0 st) (hf : (batch st.sys.k.queue).length ≤ 4096) :
    exec st (.read st.sys.k.queue.length []) = .ok {
      dm := without (report Model.Ker.sys st.sys.k.queue st.dm { k := { st.sys.k with queue := [] }, sched := [] }).2.1
        (gone st.sys.k.queue)
      rm := []
      sys := (report Model.Ker.sys st.sys.k.queue st.dm { k := { st.sys.k with queue := [] }, sched := [] }).2.2
      out := st.out ++ (report Model.Ker.sys st.sys.k.queue st.dm { k := { st.sys.k with queue := [] }, sched := [] }).1 } := by
  simp only [exec, List.take_length, List.drop_length]
  rw [if_pos (by simpa [bufLen] using hf)]
  have hb : Batch st.sys.k.queue := ⟨h.inv.wf, hf, linked_ordered h.inv.linked⟩
  rw [recv_eq Model.Ker.sys sys_sound _ hb { st with sys := { k := { st.sys.k with queue := [] }, sched := [] } } h.sound]
  simp only [Outcome.bind_ok]
  rw [if_pos (by decide)]
  rfl

/-- The file events of such a read. -/
theorem read_due {l m : Bool} {L0 : List Change} {st : St World} (h : HInv l m L0 st) (w : World) :
    fileEvents (report Model.Ker.sys st.sys.k.queue st.dm w).1 = due st.dm st.sys.k.queue :=
  report_due' Model.Ker.sys _ _ (Nat.le_refl _) _ _ (fun r hr hrep => h.inv.known r hr hrep)

theorem okName_len {n : Str} (h : okName n = true) : n.length ≤ 255 := by
  simp [okName] at h; exact h.1.1.2

theorem rec_size {wd kd n od} (h : okName n = true) : (recOf wd kd n od).bytes.length ≤ 288 := by
  rw [rec_length]
  have := okName_len h
  simp only [recOf]; omega

theorem Cover.dirs_queue {k : K} (h : Cover k) (q : List Rec) (l : List Change) : Cover { k with queue := q, log := l } :=
  ⟨h.cover, h.uniq, h.canon⟩

theorem notify_eq {k : K} {d n : Str} {kd : Kind} {od : Bool} {wd : Int} (hl : k.limit = none) (hw : wdOf k d = some wd) :
    notify k d n kd od = { k with
      queue := enqueue k.queue (recOf wd kd n od) kd
      log := k.log ++ [{ dir := d, known := (k.hist.lookup wd).getD [], name := n, kind := kd, onDir := od }] } := by
  unfold notify; rw [hw]; simp only [full_none hl]; rfl

theorem notify_none {k : K} {d n : Str} {kd : Kind} {od : Bool} (hw : wdOf k d = none) : notify k d n kd od = k := by
  unfold notify; rw [hw]

theorem Cover.none {k : K} (h : Cover k) {d : Str} (hd : d ∉ k.dirs) : wdOf k d = none := by
  cases hw : wdOf k d with
  | none => rfl
  | some wd => exact absurd ((h.cover d).2 ⟨wd, hw⟩) hd

theorem enqueue_nil (r : Rec) (kd : Kind) : enqueue [] r kd = [r] := by simp [enqueue]

/-- The conclusion for one operation. -/
def Good (st : St World) (dirs' : List Str) (evs : List Ev) (st' : St World) : Prop :=
  (∃ L, Sync L st') ∧ st'.sys.k.dirs = dirs' ∧ fileEvents st'.out = fileEvents st.out ++ evs ∧
    st'.sys.k.next ≤ st.sys.k.next + 1

/-- One step: the operation, then the read, when no directory is created. -/
theorem follow_plain {L0 : List Change} {st : St World} (hs : Sync L0 st) (o : Op) (ho : Ker.local o = true)
    (hd : Ker.keepsDirs o = true) (dirs' : List Str) (evs : List Ev)
    (hfit : (batch (apply st.sys.k o).queue).length ≤ 4096)
    (hcr : ∀ r ∈ (apply st.sys.k o).queue, (r.created && r.onDir) = false)
    (hcov : Cover (apply st.sys.k o)) (hdirs : (apply st.sys.k o).dirs = dirs')
    (hnext : (apply st.sys.k o).next = st.sys.k.next)
    (hdue : due st.dm (apply st.sys.k o).queue = evs) :
    ∃ st', (do let st ← exec st (.op o); exec st (.read st.sys.k.queue.length [])) = .ok st' ∧ Good st dirs' evs st' := by
  have h1 : HInv true true L0 { st with sys := { st.sys with k := apply st.sys.k o } } :=
    hs.h.op o (fun _ => ho) (fun _ => hd)
  obtain ⟨st2, L2, h2, h3⟩ := hinv_exec h1 (.read (apply st.sys.k o).queue.length []) (fun _ => rfl) (fun _ => rfl)
  have h4 := read_all h1 hfit
  have h4' : exec { st with sys := { st.sys with k := apply st.sys.k o } } (.read (apply st.sys.k o).queue.length []) = _ := h4
  rw [h2] at h4'
  injection h4' with h4'
  have hnm := report_nomark Model.Ker.sys _ (apply st.sys.k o).queue (Nat.le_refl _) st.dm
    { k := { apply st.sys.k o with queue := [] }, sched := [] } hcr
  have hsys : st2.sys = { k := { apply st.sys.k o with queue := [] }, sched := [] } := by
    rw [h4']; simp only; rw [hnm]
  refine ⟨st2, by simp only [exec, Outcome.bind_ok] at h2 ⊢; exact h2, ⟨L2, h3, ?_, ?_, ?_⟩, ?_, ?_, ?_⟩
  · rw [hsys]
  · rw [hsys]; exact ⟨hcov.cover, hcov.uniq, hcov.canon⟩
  · rw [hsys]; simp only; rw [(grow_apply st.sys.k o).limit]; exact hs.lim
  · rw [hsys]; exact hdirs
  · rw [h4']
    simp only
    rw [file_append]
    have := read_due h1 { k := { apply st.sys.k o with queue := [] }, sched := [] }
    simp only at this
    rw [this, hdue]
  · rw [hsys]; simp only; omega

theorem due_one {t : Table} {wd : Int} {d n : Str} {kd : Kind} {od : Bool} (h : t.lookup wd = some d) :
    due t [recOf wd kd n od] = [Ker.event { dir := d, known := d, name := n, kind := kd, onDir := od } d] := by
  rw [due.eq_def]
  have hwd : (recOf wd kd n od).wd = wd := rfl
  simp only [recOf_reportable, hwd, Bool.not_true, Bool.false_eq_true, if_false, h, Option.getD_some]
  have := recOf_event wd { dir := d, known := d, name := n, kind := kd, onDir := od } d
  rw [← this]

theorem batch_one_len {r : Rec} (h : r.bytes.length ≤ 288) : (batch [r]).length ≤ 4096 := by
  simp only [batch, List.flatMap_cons, List.flatMap_nil, List.append_nil]; omega

/-- A plain change of a file. -/
theorem follow_file {L0 : List Change} {st : St World} (hs : Sync L0 st) (o : Op) (ho : Ker.local o = true)
    (hd : Ker.keepsDirs o = true) (d n : Str) (kd : Kind) (hn : okName n = true)
    (happ : apply st.sys.k o = notify st.sys.k d n kd false) (evs : List Ev)
    (hev : evs = if st.sys.k.dirs.contains d then [Ker.event { dir := d, known := d, name := n, kind := kd, onDir := false } d] else []) :
    ∃ st', (do let st ← exec st (.op o); exec st (.read st.sys.k.queue.length [])) = .ok st' ∧
      Good st st.sys.k.dirs evs st' := by
  by_cases hdir : d ∈ st.sys.k.dirs
  · obtain ⟨wd, hw⟩ := (hs.c.cover d).1 hdir
    have hap : apply st.sys.k o = { st.sys.k with
        queue := [recOf wd kd n false]
        log := st.sys.k.log ++ [{ dir := d, known := (st.sys.k.hist.lookup wd).getD [], name := n, kind := kd, onDir := false }] } := by
      rw [happ, notify_eq hs.lim hw, hs.empty, enqueue_nil]
    refine follow_plain hs o ho hd _ evs ?_ ?_ ?_ ?_ ?_ ?_
    · rw [hap]; exact batch_one_len (rec_size hn)
    · rw [hap]; intro r hr; rw [List.mem_singleton] at hr; subst hr
      rw [(bits_of wd kd n false).2.2.2.2.2.2.2.2.2]; simp
    · rw [hap]; exact hs.c.dirs_queue _ _
    · rw [hap]
    · rw [hap]
    · rw [hap, hev]; simp only; rw [due_one (hs.h.name hw)]; simp [hdir]
  · have hap : apply st.sys.k o = st.sys.k := by rw [happ, notify_none (hs.c.none hdir)]
    refine follow_plain hs o ho hd _ evs ?_ ?_ ?_ ?_ ?_ ?_
    · rw [hap, hs.empty]; simp [batch]
    · rw [hap, hs.empty]; intro r hr; cases hr
    · rw [hap]; exact hs.c
    · rw [hap]
    · rw [hap]
    · rw [hap, hs.empty, hev]; simp [hdir, due]

/-- An operation that does nothing. -/
theorem follow_nothing {L0 : List Change} {st : St World} (hs : Sync L0 st) (o : Op) (ho : Ker.local o = true)
    (hd : Ker.keepsDirs o = true) (hap : apply st.sys.k o = st.sys.k) :
    ∃ st', (do let st ← exec st (.op o); exec st (.read st.sys.k.queue.length [])) = .ok st' ∧
      Good st st.sys.k.dirs [] st' := by
  refine follow_plain hs o ho hd _ [] ?_ ?_ ?_ ?_ ?_ ?_
  · rw [hap, hs.empty]; simp [batch]
  · rw [hap, hs.empty]; intro r hr; cases hr
  · rw [hap]; exact hs.c
  · rw [hap]
  · rw [hap]
  · rw [hap, hs.empty]; rfl

/-- Evicting a dead watch does not touch the live ones. -/
theorem cover_evict {k : K} (hl : k.limit = none) (h : Cover k) (wd : Int) : Cover (evictWd k wd) := by
  rw [evict_eq hl]
  split
  · rename_i hd
    have key : ∀ d, (∃ x, wdOf { k with
          queue := k.queue ++ [deleteSelfRec wd, ignoredRec wd]
          watches := k.watches.filter (fun e => e.1 != wd)
          dead := k.dead.filter (· != wd) } d = some x) ↔ ∃ x, wdOf k d = some x := by
      intro d
      rw [wdOf_some, wdOf_some]
      constructor
      · rintro ⟨e, he, h1, h2⟩
        have he := List.mem_filter.1 he
        refine ⟨e, he.1, h1, fun hx => h2 (List.mem_filter.2 ⟨hx, he.2⟩)⟩
      · rintro ⟨e, he, h1, h2⟩
        have hne : e.1 ≠ wd := by
          intro hx; rw [hx] at h2; exact h2 (by simpa using hd)
        exact ⟨e, List.mem_filter.2 ⟨he, by simpa using hne⟩, h1, fun hx => h2 (List.mem_filter.1 hx).1⟩
    refine ⟨fun d => (h.cover d).trans (key d).symm, ?_, h.canon⟩
    intro e he e' he' h1 h2 h3
    have he := List.mem_filter.1 he
    have he' := List.mem_filter.1 he'
    exact h.uniq e he.1 e' he'.1 (fun hx => h1 (List.mem_filter.2 ⟨hx, he.2⟩))
      (fun hx => h2 (List.mem_filter.2 ⟨hx, he'.2⟩)) h3
  · exact h

theorem cover_bury {k : K} (h : Cover k) (hst : Still k) (p : Str) : Cover (bury k p) := by
  unfold bury
  cases hw : wdOf k p with
  | none =>
    simp only
    have hp : p ∉ k.dirs := fun hx => by obtain ⟨wd, h1⟩ := (h.cover p).1 hx; rw [hw] at h1; cases h1
    refine ⟨?_, h.uniq, ?_⟩
    · intro d
      show d ∈ k.dirs.filter (· != p) ↔ ∃ wd, wdOf k d = some wd
      rw [← h.cover d, List.mem_filter]
      constructor
      · exact fun hx => hx.1
      · intro hx; refine ⟨hx, ?_⟩
        simp only [bne_iff_ne, ne_eq]; intro he; rw [he] at hx; exact hp hx
    · intro d hd; exact h.canon d (List.mem_filter.1 hd).1
  | some wd =>
    simp only
    obtain ⟨e0, he0, h1, h2, h3⟩ := wdOf_mem hw
    refine ⟨?_, ?_, ?_⟩
    · intro d
      show d ∈ k.dirs.filter (· != p) ↔ ∃ x, wdOf { k with dead := wd :: k.dead, dirs := k.dirs.filter (· != p) } d = some x
      rw [wdOf_some, List.mem_filter, h.cover d, wdOf_some]
      simp only [bne_iff_ne, ne_eq]
      constructor
      · rintro ⟨⟨e, he, h4, h5⟩, h6⟩
        refine ⟨e, he, h4, ?_⟩
        intro hx
        rcases List.mem_cons.1 hx with hx | hx
        · have s1 := hst.watch e he
          have s2 := hst.watch e0 he0
          rw [h1, ← hx, s1] at s2
          injection s2 with s2
          rw [h2] at s2
          exact h6 (h4.symm.trans s2)
        · exact h5 hx
      · rintro ⟨e, he, h4, h5⟩
        have h5' : e.1 ≠ wd ∧ e.1 ∉ k.dead := by
          constructor
          · intro hx; exact h5 (by simp [hx])
          · intro hx; exact h5 (by simp [hx])
        refine ⟨⟨e, he, h4, h5'.2⟩, ?_⟩
        intro hx
        have := h.uniq e he e0 he0 h5'.2 (by rw [h1]; exact h3) (by rw [h4, h2, hx])
        rw [h1] at this
        exact h5'.1 this
    · intro e he e' he' h4 h5 h6
      refine h.uniq e he e' he' (fun hx => h4 (by simp [hx])) (fun hx => h5 (by simp [hx])) h6
    · intro d hd; exact h.canon d (List.mem_filter.1 hd).1

theorem bury_queue (k : K) (p : Str) : (bury k p).queue = k.queue ∧ (bury k p).next = k.next ∧
    (bury k p).dirs = k.dirs.filter (· != p) ∧ (bury k p).watches = k.watches ∧
    (bury k p).limit = k.limit := by
  unfold bury
  cases wdOf k p <;> exact ⟨rfl, rfl, rfl, rfl, rfl⟩

/-- One step for every calm operation. -/
theorem follow_step {L0 : List Change} {st : St World} (hs : Sync L0 st) (o : Op) (ho : Ker.calm o = true)
    (hnx : st.sys.k.next < 2147483647) :
    ∃ st', (do let st ← exec st (.op o); exec st (.read st.sys.k.queue.length [])) = .ok st' ∧
      Good st (Ker.expected st.sys.k.dirs o).2 (Ker.expected st.sys.k.dirs o).1 st' := by
  have hfresh : ∀ ck, fresh st.sys.k ck = (ck != 0#32) := by
    intro ck; simp [fresh, hs.empty]
  cases o with
  | cross => cases ho
  | moveDir => cases ho
  | moveInDir | moveOver | moveInOver | swapDirs => cases ho
  | create d n =>
    by_cases hn : okName n = true
    · have := follow_file hs (.create d n) rfl rfl d n .create hn (by simp [apply, hn]) _ rfl
      simpa [Ker.expected, hn, Ker.event, Ker.plainEv] using this
    · have := follow_nothing hs (.create d n) rfl rfl (by simp [apply, hn])
      simpa [Ker.expected, hn] using this
  | modify d n =>
    by_cases hn : okName n = true
    · have := follow_file hs (.modify d n) rfl rfl d n .modify hn (by simp [apply, hn]) _ rfl
      simpa [Ker.expected, hn, Ker.event, Ker.plainEv] using this
    · have := follow_nothing hs (.modify d n) rfl rfl (by simp [apply, hn])
      simpa [Ker.expected, hn] using this
  | unlink d n =>
    by_cases hn : okName n = true
    · have := follow_file hs (.unlink d n) rfl rfl d n .delete hn (by simp [apply, hn]) _ rfl
      simpa [Ker.expected, hn, Ker.event, Ker.plainEv] using this
    · have := follow_nothing hs (.unlink d n) rfl rfl (by simp [apply, hn])
      simpa [Ker.expected, hn] using this
  | moveOut d n ck =>
    by_cases hn : okName n = true ∧ ck ≠ 0#32
    · have := follow_file hs (.moveOut d n ck) rfl rfl d n (.moveFrom ck) hn.1 (by simp [apply, hn, hfresh]) _ rfl
      simpa [Ker.expected, hn, Ker.event, Ker.plainEv] using this
    · have h0 : (okName n && ck != 0#32) = false := by
        cases hx : okName n <;> simp_all
      have := follow_nothing hs (.moveOut d n ck) rfl rfl (by simp only [apply, hfresh, h0]; rfl)
      simpa [Ker.expected, h0] using this
  | moveIn d n ck =>
    by_cases hn : okName n = true ∧ ck ≠ 0#32
    · have := follow_file hs (.moveIn d n ck) rfl rfl d n (.moveTo ck) hn.1 (by simp [apply, hn, hfresh]) _ rfl
      simpa [Ker.expected, hn, Ker.event, Ker.plainEv] using this
    · have h0 : (okName n && ck != 0#32) = false := by
        cases hx : okName n <;> simp_all
      have := follow_nothing hs (.moveIn d n ck) rfl rfl (by simp only [apply, hfresh, h0]; rfl)
      simpa [Ker.expected, h0] using this
  | rename d n1 n2 ck =>
    by_cases hn : (okName n1 && okName n2 && ck != 0#32) = true
    · have hn' := hn
      simp only [Bool.and_eq_true, bne_iff_ne, ne_eq] at hn'
      by_cases hdir : d ∈ st.sys.k.dirs
      · obtain ⟨wd, hw⟩ := (hs.c.cover d).1 hdir
        have hap : ∃ lg, apply st.sys.k (.rename d n1 n2 ck) = { st.sys.k with
            queue := [recOf wd (.moveFrom ck) n1 false, recOf wd (.moveTo ck) n2 false], log := lg } := by
          have e1 := notify_eq (n := n1) (kd := .moveFrom ck) (od := false) hs.lim hw
          rw [hs.empty, enqueue_nil] at e1
          have hw2 : wdOf (notify st.sys.k d n1 (.moveFrom ck) false) d = some wd := by rw [e1]; exact hw
          have e2 := notify_eq (n := n2) (kd := .moveTo ck) (od := false) (by rw [e1]; exact hs.lim) hw2
          refine ⟨(notify (notify st.sys.k d n1 (.moveFrom ck) false) d n2 (.moveTo ck) false).log, ?_⟩
          simp only [apply, hfresh, hn, if_true]
          rw [e2, e1]
          simp [enqueue]
        obtain ⟨lg, hap⟩ := hap
        have hb1 := bits_of wd (.moveFrom ck) n1 false
        have hb2 := bits_of wd (.moveTo ck) n2 false
        have := follow_plain hs (.rename d n1 n2 ck) rfl rfl st.sys.k.dirs
          [{ path := entryPath d n1, effect := .rename, ptype := .file,
             assoc := some { path := entryPath d n2, effect := .rename, ptype := .file } }]
          (by
            rw [hap]
            have h1 := rec_size (wd := wd) (kd := .moveFrom ck) (od := false) hn'.1.1
            have h2 := rec_size (wd := wd) (kd := .moveTo ck) (od := false) hn'.1.2
            simp only [batch, List.flatMap_cons, List.flatMap_nil, List.append_nil, List.length_append]; omega)
          (by
            rw [hap]; intro r hr
            simp only [List.mem_cons, List.not_mem_nil, or_false] at hr
            rcases hr with rfl | rfl
            · rw [hb1.2.1]; simp
            · rw [hb2.2.1]; simp)
          (by rw [hap]; exact hs.c.dirs_queue _ _) (by rw [hap]) (by rw [hap])
          (by
            rw [hap]
            have hnm := hs.h.name hw
            have hren : (recOf wd (.moveFrom ck) n1 false).renamedTo (recOf wd (.moveTo ck) n2 false) = true := by
              have he : (recOf wd (.moveFrom ck) n1 false).effect = .rename := by
                simp [Rec.effect, hb1.2.1, hb1.2.2.1, hb1.2.2.2.1]
              simp [Rec.renamedTo, he, hb1.2.2.2.1, hb2.2.2.2.2.1, recOf_cookie, Kind.cookie, hn'.2]
            rw [due.eq_def]
            simp only [recOf_reportable, Bool.not_true, Bool.false_eq_true, if_false, hren, if_true]
            have hwd : (recOf wd (.moveFrom ck) n1 false).wd = wd := rfl
            rw [hwd, hnm]
            have hx1 : (recOf wd (.moveFrom ck) n1 false).name = n1 := rfl
            have hx2 : (recOf wd (.moveTo ck) n2 false).name = n2 := rfl
            simp [pairEvent, due, Rec.ptype, hb1.2.2.2.2.2.2.2.2.2, hx1, hx2])
        simpa [Ker.expected, hn'.1.1, hn'.1.2, hn'.2, hdir] using this
      · have hnone := hs.c.none hdir
        have := follow_nothing hs (.rename d n1 n2 ck) rfl rfl (by
          simp only [apply, hfresh, hn, if_true]
          rw [notify_none hnone, notify_none hnone])
        simpa [Ker.expected, hdir] using this
    · have h0 : (okName n1 && okName n2 && ck != 0#32) = false := by simpa using hn
      have := follow_nothing hs (.rename d n1 n2 ck) rfl rfl (by simp only [apply, hfresh, h0]; rfl)
      simpa [Ker.expected, h0] using this
  | evict wd =>
    have hq : ∃ q, (apply st.sys.k (.evict wd)).queue = q ∧ (q = [] ∨ q = [deleteSelfRec wd, ignoredRec wd]) := by
      refine ⟨_, rfl, ?_⟩
      simp only [apply, evict_eq hs.lim]
      split
      · right; simp [hs.empty]
      · left; exact hs.empty
    obtain ⟨q, hq, hq'⟩ := hq
    have hb : (deleteSelfRec wd).bytes.length = 16 ∧ (ignoredRec wd).bytes.length = 16 := ⟨rfl, rfl⟩
    have := follow_plain hs (.evict wd) rfl rfl st.sys.k.dirs []
      (by
        rw [hq]
        rcases hq' with rfl | rfl
        · simp [batch]
        · simp only [batch, List.flatMap_cons, List.flatMap_nil, List.append_nil, List.length_append]; omega)
      (by
        rw [hq]; intro r hr
        rcases hq' with rfl | rfl
        · cases hr
        · simp only [List.mem_cons, List.not_mem_nil, or_false] at hr
          rcases hr with rfl | rfl <;> simp [deleteSelfRec, ignoredRec, Rec.created, Rec.bit])
      (cover_evict hs.lim hs.c wd)
      (by simp only [apply, evict_eq hs.lim]; split <;> rfl) (by simp only [apply, evict_eq hs.lim]; split <;> rfl)
      (by
        rw [hq]
        rcases hq' with rfl | rfl
        · rfl
        · rw [due.eq_def]; simp only [(delself_self wd).1, Bool.not_false, if_true]
          rw [due.eq_def]; simp only [(ignored_self wd).1, Bool.not_false, if_true]
          rfl)
    simpa [Ker.expected] using this
  | rmdir d n sf =>
    by_cases hv : (okName n && st.sys.k.dirs.contains (entryPath d n) &&
        st.sys.k.dirs.all (fun q => !(entryPath d n ++ b!"/").isPrefixOf q)) = true
    · have hn : okName n = true := by simp only [Bool.and_eq_true] at hv; exact hv.1.1
      -- the state before the parent's record
      have hk2 : ∃ k2, apply st.sys.k (.rmdir d n sf) = notify k2 d n .delete true ∧ Cover k2 ∧
          k2.dirs = st.sys.k.dirs.filter (· != entryPath d n) ∧ k2.next = st.sys.k.next ∧
          k2.limit = none ∧ (k2.queue = [] ∨ ∃ wd, k2.queue = [deleteSelfRec wd, ignoredRec wd]) ∧
          (∀ wd, wdOf k2 d = some wd → wdOf st.sys.k d = some wd ∨ st.dm.lookup wd = some d) := by
        have hb := bury_queue st.sys.k (entryPath d n)
        have hbl : (bury st.sys.k (entryPath d n)).limit = none := by rw [hb.2.2.2.2]; exact hs.lim
        have hc := cover_bury hs.c (hs.h.still rfl) (entryPath d n)
        -- live watches carry the right name
        have hnm : ∀ k2 : K, (∀ e ∈ k2.watches, e ∈ st.sys.k.watches) → ∀ wd, wdOf k2 d = some wd →
            wdOf st.sys.k d = some wd ∨ st.dm.lookup wd = some d := by
          intro k2 hsub wd hw
          obtain ⟨e, he, h1, h2, h3⟩ := wdOf_mem hw
          right
          have he' := hsub e he
          obtain ⟨p, hp⟩ := hs.h.inv.live e he'
          have h4 := hs.h.inv.table _ _ hp
          rw [(hs.h.still rfl).watch e he'] at h4
          injection h4 with h4
          rw [h1] at hp
          rw [hp, ← h4, h2]
        cases sf with
        | false =>
          refine ⟨bury st.sys.k (entryPath d n), ?_, hc, hb.2.2.1, hb.2.1, hbl, .inl (by rw [hb.1, hs.empty]), ?_⟩
          · simp only [apply, hv, if_true, Bool.false_eq_true, if_false]
          · exact hnm _ (fun e he => by rw [hb.2.2.2.1] at he; exact he)
        | true =>
          cases hw : wdOf st.sys.k (entryPath d n) with
          | none =>
            refine ⟨bury st.sys.k (entryPath d n), ?_, hc, hb.2.2.1, hb.2.1, hbl, .inl (by rw [hb.1, hs.empty]), ?_⟩
            · simp only [apply, hv, if_true, hw]
            · exact hnm _ (fun e he => by rw [hb.2.2.2.1] at he; exact he)
          | some wd =>
            refine ⟨evictWd (bury st.sys.k (entryPath d n)) wd, ?_, cover_evict hbl hc wd, ?_, ?_, ?_, ?_, ?_⟩
            · simp only [apply, hv, if_true, hw]
            · rw [← hb.2.2.1]; rw [evict_eq hbl]; split <;> rfl
            · rw [← hb.2.1]; rw [evict_eq hbl]; split <;> rfl
            · rw [(grow_evict _ wd).limit]; exact hbl
            · rw [evict_eq hbl]; split
              · right; exact ⟨wd, by simp [hb.1, hs.empty]⟩
              · left; rw [hb.1, hs.empty]
            · refine hnm _ ?_
              intro e he
              rw [evict_eq hbl] at he
              split at he
              · have := (List.mem_filter.1 he).1; rw [hb.2.2.2.1] at this; exact this
              · rw [hb.2.2.2.1] at he; exact he
      obtain ⟨k2, hap, hc2, hd2, hnx2, hl2, hq2, hname⟩ := hk2
      have hexp : Ker.expected st.sys.k.dirs (.rmdir d n sf) =
          (if st.sys.k.dirs.contains d then [Ker.plainEv d n .destroy .dir] else [], st.sys.k.dirs.filter (· != entryPath d n)) := by
        simp only [Ker.expected, hv, if_true]
      rw [hexp]
      have hne : d ≠ entryPath d n := by
        intro hx
        have hlen := congrArg List.length hx
        have hnn : n ≠ [] := by simp [okName] at hn; exact hn.1.1.1
        have : n.length ≠ 0 := fun h => hnn (List.length_eq_zero_iff.1 h)
        unfold entryPath at hlen
        split at hlen
        · rename_i hr
          rw [hr] at hlen; simp only [List.length_append, List.length_cons, List.length_nil] at hlen; omega
        · simp only [List.length_append, List.length_cons, List.length_nil] at hlen; omega
      have hdd : d ∈ k2.dirs ↔ d ∈ st.sys.k.dirs := by
        rw [hd2, List.mem_filter]
        simp [hne]
      have hselfs : ∀ wd, due st.dm [deleteSelfRec wd, ignoredRec wd] = [] := by
        intro wd
        rw [due.eq_def]; simp only [(delself_self wd).1, Bool.not_false, if_true]
        rw [due.eq_def]; simp only [(ignored_self wd).1, Bool.not_false, if_true]
        rfl
      have hselfs' : ∀ wd r, due st.dm [deleteSelfRec wd, ignoredRec wd, r] = due st.dm [r] := by
        intro wd r
        rw [due.eq_def]; simp only [(delself_self wd).1, Bool.not_false, if_true]
        rw [due.eq_def]; simp only [(ignored_self wd).1, Bool.not_false, if_true]
      have hcrs : ∀ wd, ∀ r ∈ [deleteSelfRec wd, ignoredRec wd], (r.created && r.onDir) = false := by
        intro wd r hr
        simp only [List.mem_cons, List.not_mem_nil, or_false] at hr
        rcases hr with rfl | rfl <;> simp [deleteSelfRec, ignoredRec, Rec.created, Rec.bit]
      have hb16 : ∀ wd, (deleteSelfRec wd).bytes.length = 16 ∧ (ignoredRec wd).bytes.length = 16 := fun _ => ⟨rfl, rfl⟩
      by_cases hdir : d ∈ st.sys.k.dirs
      · obtain ⟨wd, hw⟩ := (hc2.cover d).1 (hdd.2 hdir)
        have hlook : st.dm.lookup wd = some d := by
          rcases hname wd hw with h | h
          · exact hs.h.name h
          · exact h
        rw [notify_eq hl2 hw] at hap
        have hbit := bits_of wd .delete n true
        have hq : (apply st.sys.k (.rmdir d n sf)).queue = k2.queue ++ [recOf wd .delete n true] := by
          rw [hap]; simp [enqueue]
        have hsz := rec_size (wd := wd) (kd := .delete) (od := true) hn
        have := follow_plain hs (.rmdir d n sf) rfl rfl (st.sys.k.dirs.filter (· != entryPath d n))
          [Ker.plainEv d n .destroy .dir]
          (by
            rw [hq]
            rcases hq2 with h | ⟨x, h⟩ <;> rw [h]
            · exact batch_one_len hsz
            · have := hb16 x
              simp only [batch, List.cons_append, List.nil_append, List.flatMap_cons, List.flatMap_nil, List.append_nil,
                List.length_append]; omega)
          (by
            rw [hq]; intro r hr
            rcases List.mem_append.1 hr with hr | hr
            · rcases hq2 with h | ⟨x, h⟩ <;> rw [h] at hr
              · cases hr
              · exact hcrs x r hr
            · rw [List.mem_singleton] at hr; subst hr; rw [hbit.2.1]; simp)
          (by rw [hap]; exact hc2.dirs_queue _ _) (by rw [hap]; exact hd2) (by rw [hap]; exact hnx2)
          (by
            rw [hq]
            have h1 : due st.dm [recOf wd .delete n true] = [Ker.plainEv d n .destroy .dir] := by
              rw [due_one hlook]; simp [Ker.event, Ker.plainEv]
            rcases hq2 with h | ⟨x, h⟩ <;> rw [h]
            · exact h1
            · exact (hselfs' x _).trans h1)
        simpa [hdir] using this
      · have hap' : apply st.sys.k (.rmdir d n sf) = k2 := by
          rw [hap, notify_none (hc2.none (fun hx => hdir (hdd.1 hx)))]
        have := follow_plain hs (.rmdir d n sf) rfl rfl (st.sys.k.dirs.filter (· != entryPath d n)) []
          (by
            rw [hap']
            rcases hq2 with h | ⟨x, h⟩ <;> rw [h]
            · simp [batch]
            · have := hb16 x
              simp only [batch, List.flatMap_cons, List.flatMap_nil, List.append_nil, List.length_append]; omega)
          (by
            rw [hap']; intro r hr
            rcases hq2 with h | ⟨x, h⟩ <;> rw [h] at hr
            · cases hr
            · exact hcrs x r hr)
          (by rw [hap']; exact hc2) (by rw [hap']; exact hd2) (by rw [hap']; exact hnx2)
          (by
            rw [hap']
            rcases hq2 with h | ⟨x, h⟩ <;> rw [h]
            · rfl
            · exact hselfs x)
        simpa [hdir] using this
    · have hap : apply st.sys.k (.rmdir d n sf) = st.sys.k := by simp only [apply, hv]; rfl
      have := follow_nothing hs (.rmdir d n sf) rfl rfl hap
      have hexp : Ker.expected st.sys.k.dirs (.rmdir d n sf) = ([], st.sys.k.dirs) := by
        simp only [Ker.expected, hv]; rfl
      rw [hexp]; exact this
  | mkdir d n =>
    by_cases hv : (okName n && st.sys.k.dirs.contains d && !st.sys.k.dirs.contains (entryPath d n)) = true
    · have hv' := hv
      simp only [Bool.and_eq_true, Bool.not_eq_true', List.contains_eq_mem, decide_eq_true_eq, decide_eq_false_iff_not] at hv'
      obtain ⟨⟨hn, hdir⟩, hnew⟩ := hv'
      obtain ⟨wd, hw⟩ := (hs.c.cover d).1 hdir
      have hexp : Ker.expected st.sys.k.dirs (.mkdir d n) =
          ([Ker.plainEv d n .create .dir], st.sys.k.dirs ++ [entryPath d n]) := by
        simp only [Ker.expected, hv, if_true]
      rw [hexp]
      have hap : ∃ lg, apply st.sys.k (.mkdir d n) = { st.sys.k with
          dirs := st.sys.k.dirs ++ [entryPath d n], queue := [recOf wd .create n true], log := lg } := by
        simp only [apply, hv, if_true]
        rw [notify_eq (wd := wd) (by exact hs.lim) (by exact hw)]
        simp only [hs.empty, enqueue_nil]
        exact ⟨_, rfl⟩
      obtain ⟨lg, hap⟩ := hap
      have h1 : HInv true true L0 { st with sys := { st.sys with k := apply st.sys.k (.mkdir d n) } } :=
        hs.h.op (.mkdir d n) (fun _ => rfl) (fun _ => rfl)
      have hlen : (apply st.sys.k (.mkdir d n)).queue.length = 1 := by rw [hap]; rfl
      obtain ⟨st2, L2, h2, h3⟩ := hinv_exec h1 (.read (apply st.sys.k (.mkdir d n)).queue.length []) (fun _ => rfl) (fun _ => rfl)
      have h4 := read_all h1 (by
        simp only [hap]; exact batch_one_len (rec_size hn))
      have h4' : exec { st with sys := { st.sys with k := apply st.sys.k (.mkdir d n) } }
          (.read (apply st.sys.k (.mkdir d n)).queue.length []) = _ := h4
      rw [h2] at h4'
      injection h4' with h4'
      have hlook := hs.h.name hw
      have hbit := bits_of wd .create n true
      -- the marking
      have hcan : canonicalB (entryPath d n) = true := canonicalB_of (canonical_entry hn)
      have hnone : wdOf st.sys.k (entryPath d n) = none := hs.c.none hnew
      have hrep := report_single Model.Ker.sys (r := recOf wd .create n true) (rest := []) (t := st.dm)
        { k := { apply st.sys.k (.mkdir d n) with queue := [] }, sched := [] } hlook (recOf_reportable ..)
        (fun _ _ h => by cases h)
      have hmark : (markOf Model.Ker.sys (recOf wd .create n true) d st.dm
          { k := { apply st.sys.k (.mkdir d n) with queue := [] }, sched := [] }).2.2 =
          { k := { st.sys.k with
              dirs := st.sys.k.dirs ++ [entryPath d n], queue := [], log := lg,
              watches := (st.sys.k.next, entryPath d n) :: st.sys.k.watches,
              hist := (st.sys.k.next, entryPath d n) :: st.sys.k.hist, next := st.sys.k.next + 1 }, sched := [] } := by
        rw [hap]
        have hc : (recOf wd .create n true).created && (recOf wd .create n true).onDir := by
          rw [hbit.2.1, hbit.2.2.2.2.2.2.2.2.2]; simp
        have hnone' : wdOf { st.sys.k with dirs := st.sys.k.dirs ++ [entryPath d n], queue := [], log := lg } (entryPath d n) = none := hnone
        rw [markOf, if_pos hc]
        have hname : (recOf wd .create n true).name = n := rfl
        have hpos := hs.h.inv.next.1
        simp only [markSpec, Model.Ker.sys, tick, hname, List.contains_append, List.contains_cons, BEq.rfl,
          Bool.true_or, Bool.or_true, hcan, Bool.and_self, if_true, Bool.false_eq_true, if_false, addWatchK,
          hnx, decide_true, hnone', hpos]
      have hq : (apply st.sys.k (.mkdir d n)).queue = [recOf wd .create n true] := by rw [hap]
      have hsys : st2.sys = { k := { st.sys.k with
              dirs := st.sys.k.dirs ++ [entryPath d n], queue := [], log := lg,
              watches := (st.sys.k.next, entryPath d n) :: st.sys.k.watches,
              hist := (st.sys.k.next, entryPath d n) :: st.sys.k.hist, next := st.sys.k.next + 1 }, sched := [] } := by
        rw [h4']; simp only [hq]; rw [hrep]; simp only [report_nil]; exact hmark
      refine ⟨st2, by simp only [exec, Outcome.bind_ok] at h2 ⊢; exact h2, ⟨L2, h3, ?_, ?_, ?_⟩, ?_, ?_, ?_⟩
      · rw [hsys]
      · rw [hsys]
        have hfreshk : st.sys.k.next ∉ st.sys.k.dead := by
          intro hx
          obtain ⟨e, he, h5⟩ := hs.h.inv.dead _ hx
          obtain ⟨p, hp⟩ := hs.h.inv.live e he
          have := (hs.h.inv.hist _ _ (hs.h.inv.table _ _ hp)).2
          omega
        refine ⟨?_, ?_, ?_⟩
        · intro x
          rw [wdOf_some]
          simp only
          rw [List.mem_append, hs.c.cover x, wdOf_some]
          constructor
          · rintro (⟨e, he, h5, h6⟩ | hx)
            · exact ⟨e, List.mem_cons_of_mem _ he, h5, h6⟩
            · rw [List.mem_singleton] at hx; subst hx
              exact ⟨_, List.mem_cons_self .., rfl, hfreshk⟩
          · rintro ⟨e, he, h5, h6⟩
            rcases List.mem_cons.1 he with rfl | he
            · right; simpa using h5.symm
            · left; exact ⟨e, he, h5, h6⟩
        · intro e he e' he' h5 h6 h7
          have hno : ∀ x ∈ st.sys.k.watches, x.1 ∉ st.sys.k.dead → x.2 ≠ entryPath d n := by
            intro x hx hxd hxe
            have := (hs.c.cover (entryPath d n)).2 (wdOf_some.2 ⟨x, hx, hxe, hxd⟩)
            exact hnew this
          rcases List.mem_cons.1 he with rfl | he <;> rcases List.mem_cons.1 he' with rfl | he'
          · rfl
          · exact absurd h7.symm (hno e' he' h6)
          · exact absurd h7 (hno e he h5)
          · exact hs.c.uniq e he e' he' h5 h6 h7
        · intro x hx
          rcases List.mem_append.1 hx with hx | hx
          · exact hs.c.canon x hx
          · rw [List.mem_singleton] at hx; subst hx; exact canonical_entry hn
      · rw [hsys]; exact hs.lim
      · rw [hsys]
      · rw [h4']
        simp only
        rw [file_append]
        have := read_due h1 { k := { apply st.sys.k (.mkdir d n) with queue := [] }, sched := [] }
        simp only at this
        rw [this, hq, due_one hlook]
        simp [Ker.event, Ker.plainEv]
      · rw [hsys]; simp
    · have hap : apply st.sys.k (.mkdir d n) = st.sys.k := by simp only [apply, hv]; rfl
      have := follow_nothing hs (.mkdir d n) rfl rfl hap
      have hexp : Ker.expected st.sys.k.dirs (.mkdir d n) = ([], st.sys.k.dirs) := by
        simp only [Ker.expected, hv]; rfl
      rw [hexp]; exact this

theorem follow_all : ∀ (ops : List Op) {L0 : List Change} {st : St World}, Sync L0 st → ops.all Ker.calm = true →
    st.sys.k.next + ops.length ≤ 2147483647 →
    ∃ st' L, Ker.follow st ops = .ok st' ∧ Sync L st' ∧
      fileEvents st'.out = fileEvents st.out ++ Ker.expectedAll st.sys.k.dirs ops := by
  intro ops
  induction ops with
  | nil => intro L0 st hs _ _; exact ⟨st, L0, rfl, hs, by simp [Ker.expectedAll]⟩
  | cons o os ih =>
    intro L0 st hs hc hn
    simp only [List.all_cons, Bool.and_eq_true, List.length_cons] at hc hn
    obtain ⟨st1, h1, ⟨L1, hs1⟩, h2, h3, h4⟩ := follow_step hs o hc.1 (by omega)
    obtain ⟨st2, L2, h5, h6, h7⟩ := ih hs1 hc.2 (by omega)
    refine ⟨st2, L2, ?_, h6, ?_⟩
    · simp only [Ker.follow, exec, Outcome.bind_ok] at h1 ⊢
      rw [h1]; exact h5
    · rw [h7, h3, h2, Ker.expectedAll, List.append_assoc]

/-- Opening undisturbed, with every directory marked. -/
theorem sync_open (dirs marks : List Str) (hm : ∀ d ∈ dirs, d ∈ marks) (hc : ∀ d ∈ dirs, Canonical d)
    (hlen : marks.length < 2147483646) :
    (∃ L, Sync L (opened dirs marks [])) ∧ (opened dirs marks []).sys.k.dirs = dirs ∧
      (opened dirs marks []).sys.k.next ≤ marks.length + 1 ∧ fileEvents (opened dirs marks []).out = [] := by
  have h0 := hinv_open (l := true) (m := true) dirs marks [] (fun _ => rfl) (fun _ => rfl)
  -- what marking does
  have key : ∀ (ms : List Str) (st : St World), st.sys.sched = [] → st.sys.k.dirs = dirs → st.sys.k.queue = [] →
      st.sys.k.dead = [] →
      (∃ L, WInv true true [] L st.dm st.sys) → st.sys.k.next + ms.length ≤ 2147483646 →
      (∀ e ∈ st.sys.k.watches, e.2 ∈ dirs) →
      (∀ e ∈ st.sys.k.watches, ∀ e' ∈ st.sys.k.watches, e.2 = e'.2 → e.1 = e'.1) →
      let st' := ms.foldl (fun st d => (doMark Model.Ker.sys d st).1) st
      st'.sys.k.dirs = dirs ∧ st'.sys.k.queue = [] ∧ st'.sys.k.dead = [] ∧
      st'.sys.k.next ≤ st.sys.k.next + ms.length ∧ (∀ e ∈ st'.sys.k.watches, e.2 ∈ dirs) ∧
      (∀ e ∈ st'.sys.k.watches, ∀ e' ∈ st'.sys.k.watches, e.2 = e'.2 → e.1 = e'.1) ∧
      (∀ d, d ∈ dirs → (d ∈ ms ∨ ∃ e ∈ st.sys.k.watches, e.2 = d) → ∃ e ∈ st'.sys.k.watches, e.2 = d) := by
    intro ms
    induction ms with
    | nil =>
      intro st h1 h2 h3 h4 h5 h6 h7 h8
      exact ⟨h2, h3, h4, by simp, h7, h8, fun d _ h => by simpa using h⟩
    | cons p ms ih =>
      intro st h1 h2 h3 h4 h5 h6 h7 h8
      simp only [List.length_cons] at h6
      obtain ⟨L, h5⟩ := h5
      have hw := winv_mark h5 p
      have hpos := h5.inv.next.1
      -- the new state
      have hst : (doMark Model.Ker.sys p st).1.sys.sched = [] ∧ (doMark Model.Ker.sys p st).1.sys.k.dirs = dirs ∧
          (doMark Model.Ker.sys p st).1.sys.k.queue = [] ∧ (doMark Model.Ker.sys p st).1.sys.k.dead = [] ∧
          (doMark Model.Ker.sys p st).1.sys.k.next ≤ st.sys.k.next + 1 ∧
          ((doMark Model.Ker.sys p st).1.sys.k.watches = st.sys.k.watches ∧ (p ∈ dirs → ∃ e ∈ st.sys.k.watches, e.2 = p) ∨
           (doMark Model.Ker.sys p st).1.sys.k.watches = (st.sys.k.next, p) :: st.sys.k.watches ∧ p ∈ dirs ∧
            ∀ e ∈ st.sys.k.watches, e.2 ≠ p) := by
        rw [doMark_eq]
        simp only
        rw [markSpec_calm p st.dm st.sys h1]
        by_cases hp : p ∈ dirs
        · have hcan := canonicalB_of (hc p hp)
          have hpc : dirs.contains p = true := by simpa using hp
          have hlt : st.sys.k.next < 2147483647 := by omega
          rw [h2, hpc, hcan]
          simp only [Bool.and_self, if_true, addWatchK, h2, hpc, hlt, decide_true]
          cases hwd : wdOf st.sys.k p with
          | some wd =>
            obtain ⟨e, he, h9, h10, _⟩ := wdOf_mem hwd
            exact ⟨h1, h2, h3, h4, by simp only; omega, .inl ⟨rfl, fun _ => ⟨e, he, h10⟩⟩⟩
          | none =>
            refine ⟨h1, rfl, h3, h4, by simp, .inr ⟨rfl, hp, ?_⟩⟩
            intro e he hx
            have := wdOf_some.2 ⟨e, he, hx, by rw [h4]; simp⟩
            rw [hwd] at this
            obtain ⟨x, hx⟩ := this; cases hx
        · have hpc : dirs.contains p = false := by simpa using hp
          rw [h2, hpc]
          rw [Bool.false_and, if_neg (by simp)]
          exact ⟨h1, h2, h3, h4, by omega, .inl ⟨rfl, fun h => absurd h hp⟩⟩
      obtain ⟨s1, s2, s3, s4, s5, s6⟩ := hst
      have hw' : WInv true true [] L (doMark Model.Ker.sys p st).1.dm (doMark Model.Ker.sys p st).1.sys := by
        rw [doMark_eq]; exact hw
      have hsub : ∀ e ∈ (doMark Model.Ker.sys p st).1.sys.k.watches, e.2 ∈ dirs := by
        intro e he
        rcases s6 with ⟨hx, _⟩ | ⟨hx, hp, _⟩ <;> rw [hx] at he
        · exact h7 e he
        · rcases List.mem_cons.1 he with rfl | he
          · exact hp
          · exact h7 e he
      have hun : ∀ e ∈ (doMark Model.Ker.sys p st).1.sys.k.watches, ∀ e' ∈ (doMark Model.Ker.sys p st).1.sys.k.watches,
          e.2 = e'.2 → e.1 = e'.1 := by
        intro e he e' he' hee
        rcases s6 with ⟨hx, _⟩ | ⟨hx, hp, hno⟩ <;> rw [hx] at he he'
        · exact h8 e he e' he' hee
        · rcases List.mem_cons.1 he with rfl | he <;> rcases List.mem_cons.1 he' with rfl | he'
          · rfl
          · exact absurd hee.symm (hno e' he')
          · exact absurd hee (hno e he)
          · exact h8 e he e' he' hee
      have := ih (doMark Model.Ker.sys p st).1 s1 s2 s3 s4 ⟨L, hw'⟩ (by omega) hsub hun
      obtain ⟨t1, t2, t3, t4, t5, t6, t7⟩ := this
      refine ⟨t1, t2, t3, by simp only [List.length_cons]; rw [List.foldl_cons]; omega, t5, t6, ?_⟩
      intro d hd hor
      refine t7 d hd ?_
      rcases hor with hor | ⟨e, he, hx⟩
      · rcases List.mem_cons.1 hor with rfl | hor
        · right
          rcases s6 with ⟨hx, hh⟩ | ⟨hx, _⟩ <;> rw [hx]
          · exact hh hd
          · exact ⟨_, List.mem_cons_self .., rfl⟩
        · exact .inl hor
      · right
        rcases s6 with ⟨hx', _⟩ | ⟨hx', _⟩ <;> rw [hx']
        · exact ⟨e, he, hx⟩
        · exact ⟨e, List.mem_cons_of_mem _ he, hx⟩
  have hw0 : WInv true true [] [] ([] : Table) ({ k := { dirs := dirs }, sched := [] } : World) := by
    refine ⟨?_, ?_, by simp, fun _ => rfl, fun _ => rfl⟩
    · refine ⟨by simp, ?_, ?_, ?_, ?_, ?_, ?_, ?_, ?_, ?_, by simp, by simp, ?_, ⟨[], rfl, .nil⟩, ?_, ?_, ?_⟩ <;>
        simp
    · intro _; exact ⟨by simp, by simp⟩
  have := key marks { dm := [], sys := { k := { dirs := dirs }, sched := [] } } rfl rfl rfl rfl ⟨[], hw0⟩
    (by simp only; omega) (by simp) (by simp)
  obtain ⟨t1, t2, t3, t4, t5, t6, t7⟩ := this
  have hfile : fileEvents (opened dirs marks []).out = [] := by
    have : ∀ {L : List Change} {es : List Ev}, Tells (·.known) L es → L = [] → es = [] := by
      intro L es h
      cases h <;> intro h <;> first | rfl | cases h
    exact this h0.told.tells rfl
  refine ⟨⟨[], h0, t2, ⟨?_, ?_, ?_⟩, (hinv_openLim (l := true) (m := true) none dirs marks [] (fun _ => rfl) (fun _ => rfl)).2⟩, t1, ?_, hfile⟩
  · intro d
    have hdd : (opened dirs marks []).sys.k.dirs = dirs := t1
    have hde : (opened dirs marks []).sys.k.dead = [] := t3
    rw [hdd, wdOf_some]
    constructor
    · intro hd
      obtain ⟨e, he, hx⟩ := t7 d hd (.inl (hm d hd))
      exact ⟨e, he, hx, by rw [hde]; simp⟩
    · rintro ⟨e, he, hx, _⟩
      rw [← hx]; exact t5 e he
  · intro e he e' he' _ _ h; exact t6 e he e' he' h
  · intro d hd
    have hdd : (opened dirs marks []).sys.k.dirs = dirs := t1
    rw [hdd] at hd; exact hc d hd
  · have : (opened dirs marks []).sys.k.next ≤ 1 + marks.length := t4
    omega

end Verif.Lemmas.Ker
