import Verif.Spec.Starve
import Verif.Lemmas.FKernel5
import Verif.Lemmas.Fanotify5
import Verif.Props.FKernel
/-!
# No change waits for ever, with fanotify: C163
-/

namespace Verif.Props
open Verif Verif.Model Verif.Model.Fa Verif.Model.FKer Verif.Spec Verif.Spec.FKer Verif.Spec.Starve Verif.Lemmas.Fa Verif.Lemmas.FKer

/-- C163: every change in a watched directory is mentioned by an event once `read()` has returned as often as there were records pending. -/
def C163_full : Prop :=
  ∀ (rf : Bool) (dirs : List (Handle × Str)) (marks : List Str) (sched : List (List Do × Bool)) (ss more : List Step) (st st1 : Fa.St World),
    GoodTree dirs → execs rf (opened rf dirs marks sched) ss = .ok st → execs rf st more = .ok st1 → st.sys.k.queue.length ≤ fReads rf st more →
    ∀ c ∈ st.sys.k.log, ∃ e ∈ fileEvents (st1.out.map Prod.fst), Mentions st1.sys.k.past c e

/-- What records are merged by. -/
def keysOf (q : List FRec) : List (Handle × Str) := q.map (fun r => (r.handle, r.name))

private theorem mergeInto_keysOf {r : FRec} : ∀ {q q' : List FRec}, mergeInto q r = some q' → keysOf q' = keysOf q := by
  intro q
  induction q with
  | nil => intro q' h; cases h
  | cons x q ih =>
    intro q' h
    rw [mergeInto] at h
    split at h
    · injection h with h; subst h; rfl
    · rw [Option.map_eq_some_iff] at h
      obtain ⟨q2, h1, rfl⟩ := h
      have := ih h1
      unfold keysOf at this ⊢
      rw [List.map_cons, List.map_cons, this]

private theorem enqueue_keysOf (q : List FRec) (r : FRec) (m : Bool) : keysOf q <+: keysOf (enqueue q r m) := by
  have happ : keysOf q <+: keysOf (q ++ [r]) := by unfold keysOf; rw [List.map_append]; exact List.prefix_append _ _
  unfold enqueue
  cases m with
  | false => exact happ
  | true =>
    simp only [if_true]
    cases h : mergeInto q r with
    | none => exact happ
    | some q' => simp only [Option.getD_some]; rw [mergeInto_keysOf h]; exact List.prefix_rfl

/-- From `k` to `k'` records were only added. -/
private def Added (k k' : K) : Prop := keysOf k.queue <+: keysOf k'.queue

private theorem added_notify (k : K) (d n : Str) (kd : Kind) (od : Bool) (who : Who) : Added k (notify k d n kd od who) := by
  unfold notify
  split
  · exact List.prefix_rfl
  · split
    · exact enqueue_keysOf _ _ _
    · exact List.prefix_rfl

private theorem added_moveDirF (k : K) (who : Who) (d1 n1 d2 n2 : Str) : Added k (moveDirF k who d1 n1 d2 n2) := by
  unfold moveDirF
  simp only
  split
  · exact List.IsPrefix.trans (added_notify ..) (added_notify ..)
  · exact List.prefix_rfl

theorem added_doIt (k : K) (x : Do) : Added k (doIt k x) := by
  unfold doIt
  split
  · generalize x.who = who
    cases x.op with
    | create | modify | unlink =>
      simp only [apply]; split
      · exact added_notify ..
      · exact List.prefix_rfl
    | move =>
      simp only [apply]; split
      · exact List.IsPrefix.trans (added_notify ..) (added_notify ..)
      · exact List.prefix_rfl
    | mkdir d n h =>
      simp only [apply]; split
      · exact added_notify { k with dirs := k.dirs ++ [(h, child d n)], past := k.past ++ [(h, child d n)] } d n .create true who
      · exact List.prefix_rfl
    | rmdir d n =>
      simp only [apply]; split
      · exact added_notify ..
      · exact List.prefix_rfl
    | moveDir d1 n1 d2 n2 => exact added_moveDirF ..
    | moveOver d1 n1 d2 n2 =>
      simp only [apply]; split
      · exact added_moveDirF (vanish k (child d2 n2)) who d1 n1 d2 n2
      · exact List.prefix_rfl
    | swapDirs d1 n1 d2 n2 =>
      simp only [apply, swapDirsF]; split
      · exact ((List.IsPrefix.trans (added_notify ..) (added_notify ..) |>.trans (added_notify ..)).trans (added_notify ..))
      · exact List.prefix_rfl
  · exact List.prefix_rfl

private theorem added_tick (w : World) : Added w.k (tick w).2.k := by
  unfold tick
  split
  · exact List.prefix_rfl
  · rename_i ops _ _ _
    have : ∀ (ops : List Do) (k : K), Added k (ops.foldl doIt k) := by
      intro ops
      induction ops with
      | nil => intro k; exact List.prefix_rfl
      | cons x ops ih => intro k; exact List.IsPrefix.trans (added_doIt k x) (ih _)
    exact this ops w.k

variable {rf : Bool}

theorem added_later {w0 w : World} (hw : Fa.Later (sys rf) w0 w) : Added w0.k w.k := by
  induction hw with
  | now => exact List.prefix_rfl
  | realpath p _ ih => exact List.IsPrefix.trans ih (added_tick _)
  | isDir p _ ih => exact List.IsPrefix.trans ih (added_tick _)
  | readlink fd _ ih => exact List.IsPrefix.trans ih (added_tick _)
  | @openByHandle w h _ ih =>
    have h2 : ((sys rf).openByHandle w h).2.k = (tick w).2.k := by
      simp only [sys]; split <;> rfl
    rw [h2]
    exact List.IsPrefix.trans ih (added_tick _)
  | @mark w p _ ih =>
    have h2 : ((sys rf).mark w p).2.k.queue = (tick w).2.k.queue := by
      simp only [sys]; split
      · rfl
      · split <;> rfl
    unfold Added
    rw [h2]
    exact List.IsPrefix.trans ih (added_tick _)

/-- The changes `S` are mentioned, or shown by the first `o` pending records. -/
def FFront (S : List Change) (o : Nat) (st : Fa.St World) : Prop :=
  ∃ old, old <+: keysOf st.sys.k.queue ∧ old.length ≤ o ∧
    ∀ c ∈ S, (∃ e ∈ fileEvents (st.out.map Prod.fst), Mentions st.sys.k.past c e) ∨ (c.handle, c.name) ∈ old

theorem ffront_exec {S : List Change} {o : Nat} {st st1 : Fa.St World} {seen : List Change} (hi : TInv false st seen) (h : FFront S o st) (s : Step)
    (hk : allReads keeps s = true) (hf : ∀ n sched, s = .read n sched → (NoSwap (st.sys.k.queue.take n) ∧ Roomy (st.sys.k.queue.take n)) ∧
      ∀ r ∈ st.sys.k.queue.take n, r.handle ∈ st.sys.k.dirs.map (·.1))
    (he : exec rf st s = .ok st1) : FFront S (o - if fReturns st s then 1 else 0) st1 := by
  obtain ⟨old, h1, h2, h3⟩ := h
  cases s with
  | op x =>
    cases he
    refine ⟨old, List.IsPrefix.trans h1 (added_doIt _ x), h2, ?_⟩
    intro c hc
    rcases h3 c hc with ⟨e, he, hm⟩ | h3
    · exact .inl ⟨e, he, Mentions.mono (doIt_kinv hi.k x).2.past hm⟩
    · exact .inr h3
  | read n sched =>
    simp only [exec] at he
    by_cases hfit : (fbatch (st.sys.k.queue.take n)).length ≤ bufLen
    · rw [if_pos hfit] at he
      obtain ⟨⟨hn, hr⟩, hp⟩ := hf n sched rfl
      obtain ⟨more, hk2, hsaid⟩ := kept_take hi.kept n
      have hcov : ∀ r ∈ st.sys.k.queue.take n, Cov st.sys.k.log st.sys.k.past r := fun r hr => hi.k.queue r (List.mem_of_mem_take hr)
      have hw : WInvN (· ∈ st.sys.k.dirs.map (·.1)) false (seen ++ more) { st.sys with k := { st.sys.k with queue := st.sys.k.queue.drop n }, sched := sched } :=
        ⟨take_kinv hi.k n, fun _ _ h => h, hk2, mild_false _, .inl hk⟩
      obtain ⟨out, w', e, iw, g, t⟩ := run_told (rf := rf) _ _ (Nat.le_refl _) hw hcov hp
      have hb : FBatch (st.sys.k.queue.take n) := ⟨fun r hr => (hcov r hr).wf, hfit⟩
      have hrun := recv_run (sys rf) (sound rf) _ hb hr hn
        { st with sys := { st.sys with k := { st.sys.k with queue := st.sys.k.queue.drop n }, sched := sched } } hi.buf
      obtain ⟨_, _, _, hl⟩ := Verif.Lemmas.Fa.recv_drawn (sys rf) (sound rf) _ hb _ _ _ hrun
      simp only [e] at hrun hl
      simp only [hrun, Outcome.bind_ok] at he
      rw [if_pos (by decide)] at he
      cases he
      have ha := added_later hl
      refine ⟨old.drop n, ?_, ?_, ?_⟩
      · refine List.IsPrefix.trans ?_ ha
        unfold keysOf at h1 ⊢
        simp only [List.map_drop]
        obtain ⟨rest, hrest⟩ := h1
        rw [← hrest, List.drop_append]
        exact List.prefix_append _ _
      · rw [List.length_drop]
        by_cases hx : fReturns st (.read n sched) = true
        · rw [if_pos hx]
          simp only [fReturns, Bool.and_eq_true, decide_eq_true_eq] at hx; omega
        · rw [if_neg hx]; omega
      · intro c hc
        simp only [List.map_append, fileEvents_append]
        rcases h3 c hc with ⟨ev, hev, hm⟩ | h3
        · exact .inl ⟨ev, List.mem_append_left _ hev, Mentions.mono g.past hm⟩
        · rw [← List.take_append_drop n old] at h3
          rcases List.mem_append.1 h3 with h3 | h3
          · have : (c.handle, c.name) ∈ keysOf (st.sys.k.queue.take n) := by
              unfold keysOf at h1 ⊢
              rw [List.map_take]
              obtain ⟨rest, hrest⟩ := h1
              rw [← hrest, List.take_append]
              exact List.mem_append_left _ h3
            obtain ⟨r, hr, hk⟩ := List.mem_map.1 this
            injection hk with hk1 hk2
            obtain ⟨ev, hev, hm⟩ := rtold_mentions t hr hk1 hk2
            exact .inl ⟨ev, List.mem_append_right _ hev, hm⟩
          · exact .inr h3
    · rw [if_neg hfit] at he; cases he
      have : fReturns st (.read n sched) = false := by
        have hf' : ¬ (fbatch (st.sys.k.queue.take n)).length ≤ 4096 := hfit
        simp [fReturns, hf']
      rw [this]
      exact ⟨old, h1, h2, h3⟩

private theorem ffront_execs {S : List Change} : ∀ (ss : List Step) {o : Nat} {st st1 : Fa.St World} {seen : List Change}, TInv false st seen → FFront S o st →
    ss.all (allReads keeps) = true → Fine rf st ss → Present rf st ss → execs rf st ss = .ok st1 → FFront S (o - fReads rf st ss) st1 := by
  intro ss
  induction ss with
  | nil => intro o st st1 seen _ h _ _ _ he; cases he; exact h
  | cons s ss ih =>
    intro o st st1 seen hi h ha hf hp he
    rw [List.all_cons, Bool.and_eq_true] at ha
    cases s with
    | op x =>
      rw [execs] at he
      have g := ffront_exec (rf := rf) hi h (.op x) ha.1 (by intro n sched hx; cases hx) rfl
      have := ih (op_tinv hi x rfl) g ha.2 (hf _ rfl) (hp _ rfl) he
      rw [Nat.sub_sub] at this
      exact this
    | read n sched =>
      obtain ⟨st2, seen2, h1, h2⟩ := read_tinv (rf := rf) hi n sched (allSched_congr allowed_false ha.1) hp.1 hf.1 hf.2.1
      rw [execs, h1] at he
      have g := ffront_exec (rf := rf) hi h (.read n sched) ha.1 (by intro m sch hx; cases hx; exact ⟨⟨hf.1, hf.2.1⟩, hp.1⟩) h1
      have := ih h2 g ha.2 (hf.2.2 _ h1) (hp.2 _ h1) he
      simp only [fReads, h1]
      rw [Nat.sub_sub] at this
      exact this

theorem ffront_now {st : Fa.St World} {seen : List Change} (h2 : TInv false st seen) : FFront st.sys.k.log st.sys.k.queue.length st := by
  refine ⟨keysOf st.sys.k.queue, List.prefix_rfl, by simp [keysOf], ?_⟩
  intro c hc
  rcases (show ∀ c ∈ st.sys.k.log, c ∈ seen ∨ _ from h2.kept) c hc with h | ⟨r, hr, g1, g2⟩
  · exact .inl ((show ∀ c ∈ seen, _ from h2.said) c h)
  · exact .inr (List.mem_map.2 ⟨r, hr, by rw [g1, g2]⟩)

/-- C163 (partial: histories in which the directories of the records read are still there, no directory is removed during a
read, and no read is like those of `Fine`, as in C85): however busy the tree is and however the kernel merges records. -/
theorem C163_no_starving_partial (rf : Bool) (dirs : List (Handle × Str)) (marks : List Str) (sched : List (List Do × Bool)) (ss more : List Step) (hg : GoodTree dirs)
    (hk : ss.all (allReads keeps) = true) (hp : Present rf (opened rf dirs marks sched) ss) (hf : Fine rf (opened rf dirs marks sched) ss) (st st1 : Fa.St World)
    (hst : execs rf (opened rf dirs marks sched) ss = .ok st) (hk1 : more.all (allReads keeps) = true) (hp1 : Present rf st more) (hf1 : Fine rf st more)
    (hst1 : execs rf st more = .ok st1) (hr : st.sys.k.queue.length ≤ fReads rf st more) :
    ∀ c ∈ st.sys.k.log, ∃ e ∈ fileEvents (st1.out.map Prod.fst), Mentions st1.sys.k.past c e := by
  obtain ⟨st', seen, h1, h2⟩ := execs_tinv (m := false) ss (opened_tinv (rf := rf) hg marks sched (mild_false _)) (reads_false hk) hf hp
  rw [hst] at h1; injection h1 with h1; subst h1
  obtain ⟨old, g1, g2, g3⟩ := ffront_execs more h2 (ffront_now h2) hk1 hf1 hp1 hst1
  have : old = [] := List.length_eq_zero_iff.1 (by omega)
  subst this
  intro c hc
  rcases g3 c hc with h | h
  · exact h
  · cases h

/-- The same for histories in which no directory is removed at all. -/
theorem C163_no_removal_partial (rf : Bool) (dirs : List (Handle × Str)) (marks : List Str) (sched : List (List Do × Bool)) (ss more : List Step) (hg : GoodTree dirs)
    (hs : allSched keeps sched = true) (hk : ss.all (allOps keeps) = true) (hf : Fine rf (opened rf dirs marks sched) ss) (st st1 : Fa.St World)
    (hst : execs rf (opened rf dirs marks sched) ss = .ok st) (hk1 : more.all (allOps keeps) = true) (hf1 : Fine rf st more)
    (hst1 : execs rf st more = .ok st1) (hr : st.sys.k.queue.length ≤ fReads rf st more) :
    ∀ c ∈ st.sys.k.log, ∃ e ∈ fileEvents (st1.out.map Prod.fst), Mentions st1.sys.k.past c e := by
  have ho := opened_sinv (rf := rf) hg marks sched
  have hh := opened_here (rf := rf) hg marks sched hs
  obtain ⟨h1, h2⟩ := execs_here ss ho.k hh hk hst
  exact C163_no_starving_partial rf dirs marks sched ss more hg (keeps_reads hk) (present_of_keeps ss ho.k hh hk) hf st st1 hst
    (keeps_reads hk1) (present_of_keeps more h1 h2 hk1) hf1 hst1 hr

/-- The changes `S` are mentioned, or missed, or shown by the first `o` pending records. -/
def FFrontM (S : List Change) (missed : Change → Prop) (o : Nat) (st : Fa.St World) : Prop :=
  ∃ old, old <+: keysOf st.sys.k.queue ∧ old.length ≤ o ∧
    ∀ c ∈ S, c ∈ st.sys.k.log ∧
      ((∃ e ∈ fileEvents (st.out.map Prod.fst), Mentions st.sys.k.past c e) ∨ missed c ∨ (c.handle, c.name) ∈ old)

private theorem ffrontM_read {S : List Change} {any missed : Change → Prop} {o : Nat} {st st1 : Fa.St World} (hi : LInv st any) (h : FFrontM S missed o st)
    (n : Nat) (sched : List (List Do × Bool)) (hk : allSched keeps sched = true) (hn : NoSwap (st.sys.k.queue.take n)) (hr : Roomy (st.sys.k.queue.take n))
    (he : exec rf st (.read n sched) = .ok st1) :
    FFrontM S (fun c => missed c ∨ MissedNow st n c) (o - if fReturns st (.read n sched) then 1 else 0) st1 := by
  obtain ⟨old, h1, h2, h3⟩ := h
  simp only [exec] at he
  by_cases hfit : (fbatch (st.sys.k.queue.take n)).length ≤ bufLen
  · rw [if_pos hfit] at he
    have hcov : ∀ r ∈ st.sys.k.queue.take n, Cov st.sys.k.log st.sys.k.past r := fun r hr => hi.k.queue r (List.mem_of_mem_take hr)
    let need : Handle → Prop := fun g => g ∈ st.sys.k.dirs.map (·.1) ∨ g ∉ st.sys.k.past.map (·.1)
    have hne : ∃ g, need g := by
      obtain ⟨g, hg⟩ := exists_longer (st.sys.k.past.map (·.1)); exact ⟨g, .inr hg⟩
    have hkept : Kept false st.sys.k.log { st.sys.k with queue := st.sys.k.queue.drop n } := fun c hc => .inl hc
    have hw : WInvN need false st.sys.k.log { st.sys with k := { st.sys.k with queue := st.sys.k.queue.drop n }, sched := sched } :=
      ⟨take_kinv hi.k n, fun e he hneed => hneed.elim id (fun hx => absurd (List.mem_map.2 ⟨e, he, rfl⟩) hx), hkept, mild_false sched, .inl hk⟩
    obtain ⟨out, w', res, told, lost, e, hkr, iw, g, hsp, t, hst⟩ := run_lost (rf := rf) hne _ _ (Nat.le_refl _) hw hcov
    have hb : FBatch (st.sys.k.queue.take n) := ⟨fun r hr => (hcov r hr).wf, hfit⟩
    have hrun := recv_run (sys rf) (sound rf) _ hb hr hn
      { st with sys := { st.sys with k := { st.sys.k with queue := st.sys.k.queue.drop n }, sched := sched } } hi.buf
    obtain ⟨_, _, _, hl⟩ := Verif.Lemmas.Fa.recv_drawn (sys rf) (sound rf) _ hb _ _ _ hrun
    simp only [e] at hrun hl
    simp only [hrun, Outcome.bind_ok] at he
    rw [if_pos hkr] at he
    cases he
    have ha := added_later hl
    refine ⟨old.drop n, ?_, ?_, ?_⟩
    · refine List.IsPrefix.trans ?_ ha
      unfold keysOf at h1 ⊢
      simp only [List.map_drop]
      obtain ⟨rest, hrest⟩ := h1
      rw [← hrest, List.drop_append]
      exact List.prefix_append _ _
    · rw [List.length_drop]
      by_cases hx : fReturns st (.read n sched) = true
      · rw [if_pos hx]
        simp only [fReturns, Bool.and_eq_true, decide_eq_true_eq] at hx; omega
      · rw [if_neg hx]; omega
    · intro c hc
      refine ⟨g.log.subset (h3 c hc).1, ?_⟩
      simp only [List.map_append, fileEvents_append]
      rcases (h3 c hc).2 with ⟨ev, hev, hm⟩ | hm | h4
      · exact .inl ⟨ev, List.mem_append_left _ hev, Mentions.mono g.past hm⟩
      · exact .inr (.inl (.inl hm))
      · rw [← List.take_append_drop n old] at h4
        rcases List.mem_append.1 h4 with h4 | h4
        · have : (c.handle, c.name) ∈ keysOf (st.sys.k.queue.take n) := by
            unfold keysOf at h1 ⊢
            rw [List.map_take]
            obtain ⟨rest, hrest⟩ := h1
            rw [← hrest, List.take_append]
            exact List.mem_append_left _ h4
          obtain ⟨r, hr, hk⟩ := List.mem_map.1 this
          injection hk with hk1 hk2
          rw [hsp] at hr
          rcases List.mem_append.1 hr with hr | hr
          · obtain ⟨ev, hev, hm⟩ := rtold_mentions t hr hk1 hk2
            exact .inl ⟨ev, List.mem_append_right _ hev, hm⟩
          · refine .inr (.inl (.inr ⟨(h3 c hc).1, hfit, r, ?_, hk1, hk2⟩))
            rw [hsp]
            rcases hst with hst | hst
            · rw [hst] at hr; cases hr
            · exact skipped_of_stale (fun g hg hd => hg (.inl hd)) hst r hr
        · exact .inr (.inr h4)
  · rw [if_neg hfit] at he; cases he
    have : fReturns st (.read n sched) = false := by
      have hf' : ¬ (fbatch (st.sys.k.queue.take n)).length ≤ 4096 := hfit
      simp [fReturns, hf']
    rw [this]
    exact ⟨old, h1, h2, fun c hc => ⟨(h3 c hc).1, (h3 c hc).2.imp id (Or.imp .inl id)⟩⟩

theorem ffrontM_execs {S : List Change} : ∀ (ss : List Step) {any missed : Change → Prop} {o : Nat} {st st1 : Fa.St World}, LInv st any →
    FFrontM S missed o st → ss.all (allReads keeps) = true → Fine rf st ss → execs rf st ss = .ok st1 →
    FFrontM S (fun c => missed c ∨ Missed rf st ss c) (o - fReads rf st ss) st1 := by
  intro ss
  induction ss with
  | nil =>
    intro any missed o st st1 _ h _ _ he; cases he
    obtain ⟨old, h1, h2, h3⟩ := h
    exact ⟨old, h1, h2, fun c hc => ⟨(h3 c hc).1, (h3 c hc).2.imp id (Or.imp .inl id)⟩⟩
  | cons s ss ih =>
    intro any missed o st st1 hi h ha hf he
    rw [List.all_cons, Bool.and_eq_true] at ha
    cases s with
    | op x =>
      rw [execs] at he
      have g : FFrontM S missed o { st with sys := { st.sys with k := doIt st.sys.k x } } := by
        obtain ⟨old, h1, h2, h3⟩ := h
        refine ⟨old, List.IsPrefix.trans h1 (added_doIt _ x), h2, fun c hc => ⟨(doIt_kinv hi.k x).2.log.subset (h3 c hc).1, ?_⟩⟩
        rcases (h3 c hc).2 with ⟨e, he, hm⟩ | h3
        · exact .inl ⟨e, he, Mentions.mono (doIt_kinv hi.k x).2.past hm⟩
        · exact .inr h3
      obtain ⟨old, h1, h2, h3⟩ := ih (op_linv hi x) g ha.2 (hf _ rfl) he
      refine ⟨old, h1, ?_, fun c hc => ⟨(h3 c hc).1, (h3 c hc).2.imp id (Or.imp (Or.imp id fun hx => ⟨_, rfl, hx⟩) id)⟩⟩
      simp only [fReads, exec]
      simpa [fReturns] using h2
    | read n sched =>
      obtain ⟨st2, h1, h2⟩ := read_linv (rf := rf) hi n sched ha.1 hf.1 hf.2.1
      rw [execs, h1] at he
      have g := ffrontM_read (rf := rf) hi h n sched ha.1 hf.1 hf.2.1 h1
      obtain ⟨old, g1, g2, g3⟩ := ih h2 g ha.2 (hf.2.2 _ h1) he
      refine ⟨old, g1, ?_, fun c hc => ⟨(g3 c hc).1, (g3 c hc).2.imp id (Or.imp ?_ id)⟩⟩
      · simp only [fReads, h1]
        rw [← Nat.sub_sub]; exact g2
      · rintro ((hx | hx) | hx)
        · exact .inl hx
        · exact .inr (.inl hx)
        · exact .inr (.inr ⟨_, h1, hx⟩)

/-- Without any hypothesis on the directories the records are about: once `read()` has returned as often as there were records pending, a
change that is not mentioned was missed, in the way of `C85_missed_partial`. -/
theorem C163_missed_partial (rf : Bool) (dirs : List (Handle × Str)) (marks : List Str) (sched : List (List Do × Bool)) (ss more : List Step) (hg : GoodTree dirs)
    (hk : ss.all (allReads keeps) = true) (hf : Fine rf (opened rf dirs marks sched) ss) (st st1 : Fa.St World)
    (hst : execs rf (opened rf dirs marks sched) ss = .ok st) (hk1 : more.all (allReads keeps) = true) (hf1 : Fine rf st more)
    (hst1 : execs rf st more = .ok st1) (hr : st.sys.k.queue.length ≤ fReads rf st more) :
    ∀ c ∈ st.sys.k.log, (∃ e ∈ fileEvents (st1.out.map Prod.fst), Mentions st1.sys.k.past c e) ∨
      Missed rf (opened rf dirs marks sched) ss c ∨ Missed rf st more c := by
  obtain ⟨st', h1, h2⟩ := execs_linv ss (opened_linv hg marks sched) hk hf
  rw [hst] at h1; injection h1 with h1; subst h1
  have g : FFrontM st.sys.k.log (fun c => False ∨ Missed rf (opened rf dirs marks sched) ss c) st.sys.k.queue.length st := by
    refine ⟨keysOf st.sys.k.queue, List.prefix_rfl, by simp [keysOf], fun c hc => ⟨hc, ?_⟩⟩
    rcases h2.all c hc with ⟨r, hr, g1, g2⟩ | h | h
    · exact .inr (.inr (List.mem_map.2 ⟨r, hr, by rw [g1, g2]⟩))
    · exact .inl h
    · exact .inr (.inl h)
  obtain ⟨old, g1, g2, g3⟩ := ffrontM_execs more h2 g hk1 hf1 hst1
  have : old = [] := List.length_eq_zero_iff.1 (by omega)
  subst this
  intro c hc
  rcases (g3 c hc).2 with h | ((h | h) | h) | h
  · exact .inl h
  · cases h
  · exact .inr (.inl h)
  · exact .inr (.inr h)
  · cases h

/-- `rm -r d; touch g` in a queue that is read one record at a time: only the change in `d` is missed. -/
example :
    let dirs : List (Handle × Str) := [([1], b!"/r"), ([2], b!"/r/d")]
    let ss : List Step := [.op ⟨.unlink b!"/r/d" b!"f", {}⟩, .op ⟨.rmdir b!"/r" b!"d", {}⟩, .op ⟨.create b!"/r" b!"g", {}⟩]
    let more : List Step := [.read 1 [], .op ⟨.create b!"/r" b!"k", {}⟩, .read 1 [], .read 1 []]
    GoodTree dirs ∧ ∃ st, execs true (opened true dirs [b!"/r", b!"/r/d"] []) ss = .ok st ∧ Fine true st more ∧ st.sys.k.queue.length = fReads true st more ∧
      Missed true st more ⟨[2], b!"/r/d", b!"f", .delete, false⟩ ∧ ¬ Missed true st more ⟨[1], b!"/r", b!"g", .create, false⟩ := by
  refine ⟨⟨by decide, by decide, by decide, by decide⟩, ?_⟩
  obtain ⟨st, h1, h2, h3, h4, h5⟩ : ∃ st, execs true (opened true [([1], b!"/r"), ([2], b!"/r/d")] [b!"/r", b!"/r/d"] [])
      [.op ⟨.unlink b!"/r/d" b!"f", {}⟩, .op ⟨.rmdir b!"/r" b!"d", {}⟩, .op ⟨.create b!"/r" b!"g", {}⟩] = .ok st ∧
      fineB true st [.read 1 [], .op ⟨.create b!"/r" b!"k", {}⟩, .read 1 [], .read 1 []] = true ∧
      st.sys.k.queue.length = fReads true st [.read 1 [], .op ⟨.create b!"/r" b!"k", {}⟩, .read 1 [], .read 1 []] ∧
      missedB true st [.read 1 [], .op ⟨.create b!"/r" b!"k", {}⟩, .read 1 [], .read 1 []] ⟨[2], b!"/r/d", b!"f", .delete, false⟩ = true ∧
      missedB true st [.read 1 [], .op ⟨.create b!"/r" b!"k", {}⟩, .read 1 [], .read 1 []] ⟨[1], b!"/r", b!"g", .create, false⟩ = false :=
    exists_ok (by decide +kernel)
  exact ⟨st, h1, fineB_ok _ h2, h3, (missedB_iff _).1 h4, fun h => by rw [(missedB_iff _).2 h] at h5; cases h5⟩

/-- C163 in full is false of the fanotify back end: a record that cannot be looked up takes what was read with it down. -/
theorem C163_refuted : ¬ C163_full := by
  intro h
  obtain ⟨st, h1, ⟨h2, h3⟩, h4⟩ : ∃ st, execs true (opened true [([1], b!"/r"), ([2], b!"/r/d")] [b!"/r", b!"/r/d"] [])
      [.op ⟨.unlink b!"/r/d" b!"f", {}⟩, .op ⟨.rmdir b!"/r" b!"d", {}⟩, .op ⟨.create b!"/r" b!"g", {}⟩] = .ok st ∧
      ((⟨[1], b!"/r", b!"g", .create, false⟩ ∈ st.sys.k.log ∧ st.sys.k.queue.length ≤ fReads true st [.read 3 [], .read 1 [], .read 1 []]) ∧
      (match execs true st [.read 3 [], .read 1 [], .read 1 []] with
        | .ok st1 => decide (fileEvents (st1.out.map Prod.fst) = []) | .ub _ => false) = true) := exists_ok (by decide +kernel)
  split at h4
  case h_2 => cases h4
  rename_i st1 h5
  have h6 := of_decide_eq_true h4
  obtain ⟨e, he, _⟩ := h true _ _ [] _ _ st st1 ⟨by decide, by decide, by decide, by decide⟩ h1 h5 h3 _ h2
  rw [h6] at he; cases he

/-- A busy tree, with a merged record: the hypotheses are met (`Fine` by `fineB_ok`). -/
private def busyBefore : List Step := [.op ⟨.create b!"/r" b!"f", {}⟩, .op ⟨.create b!"/r" b!"g", {}⟩, .op ⟨.modify b!"/r" b!"f", {}⟩]
private def busyAfter : List Step := [.op ⟨.modify b!"/r" b!"f", {}⟩, .read 1 [], .op ⟨.modify b!"/r" b!"f", {}⟩, .read 1 []]

example : ∃ st, execs true (opened true [([1], b!"/r")] [b!"/r"] []) busyBefore = .ok st ∧
    ((fineB true (opened true [([1], b!"/r")] [b!"/r"] []) busyBefore = true ∧ fineB true st busyAfter = true ∧ (busyBefore ++ busyAfter).all (allOps keeps) = true) ∧
      st.sys.k.queue.length = 2 ∧ st.sys.k.log.length = 3 ∧ fReads true st busyAfter = 2 ∧
      (match execs true st busyAfter with
        | .ok st1 => decide (st1.sys.k.queue.length = 1 ∧ (fileEvents (st1.out.map Prod.fst)).map (·.path) = [b!"/r/f", b!"/r/g"])
        | .ub _ => false) = true) := exists_ok (by decide +kernel)

/-- Directories are removed between the reads, and one is put in the place of another. -/
private def goneBefore : List Step := [.op ⟨.create b!"/r/d" b!"f", {}⟩, .read 1 [], .op ⟨.unlink b!"/r/d" b!"f", {}⟩, .read 1 [], .op ⟨.rmdir b!"/r" b!"d", {}⟩,
  .op ⟨.mkdir b!"/r" b!"d" [3], {}⟩]
private def goneAfter : List Step := [.op ⟨.create b!"/r/d" b!"g", {}⟩, .read 1 [], .op ⟨.rmdir b!"/r" b!"d", {}⟩, .op ⟨.create b!"/r" b!"k", {}⟩, .read 2 []]

example : ∃ st, execs true (opened true [([1], b!"/r"), ([2], b!"/r/d")] [b!"/r", b!"/r/d"] []) goneBefore = .ok st ∧
    (((fineB true (opened true [([1], b!"/r"), ([2], b!"/r/d")] [b!"/r", b!"/r/d"] []) goneBefore = true ∧
        presentB true (opened true [([1], b!"/r"), ([2], b!"/r/d")] [b!"/r", b!"/r/d"] []) goneBefore = true) ∧
      (fineB true st goneAfter = true ∧ presentB true st goneAfter = true) ∧ (goneBefore ++ goneAfter).all (allReads keeps) = true) ∧
      st.sys.k.queue.length = 1 ∧ st.sys.k.log.length = 4 ∧ fReads true st goneAfter = 2 ∧
      (match execs true st goneAfter with
        | .ok st1 => decide ((fileEvents (st1.out.map Prod.fst)).map (·.path) = [b!"/r/d/f", b!"/r/d/f", b!"/r/d", b!"/r/d", b!"/r/k"])
        | .ub _ => false) = true) := exists_ok (by decide +kernel)

end Verif.Props
