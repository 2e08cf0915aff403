import Verif.Lemmas.Kernel5
/-! Reported paths lie below the watched directory. -/
namespace Verif.Lemmas.Ker
open Verif Verif.Model Verif.Model.In Verif.Model.Ker Verif.Spec Verif.Lemmas.In

theorem below_entry {root d n : Str} (h : Ker.Below root d) : Ker.Below root (entryPath d n) := by
  unfold Ker.Below at h ⊢
  right
  by_cases hr : root = b!"/"
  · rw [if_pos hr] at h ⊢
    unfold entryPath
    split
    · exact List.prefix_append _ _
    · rename_i hd
      rcases h with h | h
      · exact absurd (h.trans hr) hd
      · rw [List.append_assoc]; exact h.trans (List.prefix_append _ _)
  · rw [if_neg hr] at h ⊢
    unfold entryPath
    split
    · rename_i hd
      rcases h with h | h
      · exact absurd (h.symm.trans hd) hr
      · exact (hd ▸ h).trans (List.prefix_append _ _)
    · rcases h with h | h
      · rw [h]; exact List.prefix_append _ _
      · rw [List.append_assoc]; exact h.trans (List.prefix_append _ _)

/-- All directories of the table lie below `root`. -/
def LowT (root : Str) (t : Table) : Prop := ∀ e ∈ t, Ker.Below root e.2

theorem low_mark {root p : Str} {t : Table} (w : World) (h : LowT root t) (hp : Ker.Below root p) :
    LowT root (markSpec Model.Ker.sys p t w).2.1 := by
  unfold markSpec
  simp only
  split
  · exact h
  · rename_i real w1 h1
    have hre : real = p := by
      simp only [Model.Ker.sys] at h1
      injection h1 with h1 _
      split at h1
      · injection h1 with h1; exact h1.symm
      · cases h1
    subst hre
    split
    · exact h
    · split
      · split
        · intro e he
          rcases List.mem_cons.1 he with rfl | he
          · exact hp
          · exact h e he
        · exact h
      · exact h

theorem low_report {root : Str} : ∀ (n : Nat) (rs : List Rec), rs.length ≤ n → ∀ (t : Table) (w : World), LowT root t →
    LowT root (report Model.Ker.sys rs t w).2.1 ∧
      ∀ e ∈ fileEvents (report Model.Ker.sys rs t w).1, Ker.BelowEv root e := by
  intro n
  induction n with
  | zero =>
    intro rs h t w hk; rw [List.length_eq_zero_iff.1 (by omega : rs.length = 0)]
    rw [report_nil]; exact ⟨hk, fun e he => by cases he⟩
  | succ n ih =>
    intro rs hn t w hk
    cases rs with
    | nil => rw [report_nil]; exact ⟨hk, fun e he => by cases he⟩
    | cons r rest =>
      simp only [List.length_cons] at hn
      cases hd : t.lookup r.wd with
      | none =>
        rw [report_unknown Model.Ker.sys _ w hd]
        have := ih rest (by omega) t w hk
        refine ⟨this.1, fun e he => this.2 e ?_⟩
        simpa [fileEvents, phantomMsg] using he
      | some d' =>
        have hd' : Ker.Below root d' := hk _ (lookup_mem hd)
        by_cases hr : r.reportable = true
        · rcases alone_or r rest with h | ⟨r2, rest2, rfl, h⟩
          · rw [report_single Model.Ker.sys w hd hr h]
            have hm : LowT root (markOf Model.Ker.sys r d' t w).2.1 := by
              unfold markOf
              split
              · exact low_mark w hk (below_entry hd')
              · exact hk
            have hrest := ih rest (by omega) _ (markOf Model.Ker.sys r d' t w).2.2 hm
            refine ⟨hrest.1, ?_⟩
            intro e he
            simp only [file_append, List.mem_append] at he
            rcases he with he | he
            · exfalso
              have hmw : fileEvents (markOf Model.Ker.sys r d' t w).1 = [] := by
                unfold markOf
                split
                · rcases mark_warn Model.Ker.sys (entryPath d' r.name) t w with h | h <;> rw [h] <;> rfl
                · rfl
              rw [hmw] at he; cases he
            · have : e = r.event d' ∨ e ∈ fileEvents (report Model.Ker.sys rest (markOf Model.Ker.sys r d' t w).2.1 (markOf Model.Ker.sys r d' t w).2.2).1 := by
                simp only [fileEvents, List.mem_filter, List.mem_cons] at he ⊢
                rcases he with ⟨rfl | he, h1⟩
                · exact .inl rfl
                · exact .inr ⟨he, h1⟩
              rcases this with rfl | he
              · exact ⟨below_entry hd', fun a ha => by cases ha⟩
              · exact hrest.2 e he
          · simp only [List.length_cons] at hn
            rw [report_pair Model.Ker.sys _ w hd hr h]
            have := ih rest2 (by omega) t w hk
            refine ⟨this.1, ?_⟩
            intro e he
            simp only [fileEvents, List.mem_filter, List.mem_cons] at he
            rcases he with ⟨rfl | he, h1⟩
            · refine ⟨below_entry hd', fun a ha => ?_⟩
              simp only [pairEvent] at ha
              injection ha with ha; subst ha
              exact below_entry hd'
            · exact this.2 e (by simp only [fileEvents, List.mem_filter]; exact ⟨he, h1⟩)
        · rw [report_silent Model.Ker.sys _ w hd (by simpa using hr)]; exact ih rest (by omega) t w hk

/-- The invariant. -/
def Low (root : Str) (st : St World) : Prop := LowT root st.dm ∧ ∀ e ∈ fileEvents st.out, Ker.BelowEv root e

theorem low_exec {root : Str} {l m : Bool} {L0 : List Change} {st st' : St World} (h : HInv l m L0 st) (hl : Low root st) (s : Step)
    (hs : exec st s = .ok st') : Low root st' := by
  cases s with
  | op o => cases hs; exact hl
  | read n sched =>
    simp only [exec] at hs
    by_cases hf : (batch (st.sys.k.queue.take n)).length ≤ bufLen
    · rw [if_pos hf] at hs
      have hb : Batch (st.sys.k.queue.take n) :=
        ⟨fun r hr => h.inv.wf r (List.mem_of_mem_take hr), hf, linked_ordered (h.inv.linked.sublist (List.take_sublist _ _))⟩
      have hr := recv_eq Model.Ker.sys sys_sound (st.sys.k.queue.take n) hb
        { st with sys := { k := { st.sys.k with queue := st.sys.k.queue.drop n }, sched := sched } } h.sound
      rw [hr] at hs
      simp only [Outcome.bind_ok] at hs
      rw [if_pos (by decide)] at hs
      cases hs
      have := low_report _ (st.sys.k.queue.take n) (Nat.le_refl _) st.dm
        { k := { st.sys.k with queue := st.sys.k.queue.drop n }, sched := sched } hl.1
      refine ⟨fun e he => this.1 e (List.mem_filter.1 he).1, ?_⟩
      intro e he
      simp only at he
      rw [file_append] at he
      rcases List.mem_append.1 he with he | he
      · exact hl.2 e he
      · exact this.2 e he
    · rw [if_neg hf] at hs; cases hs; exact hl

theorem low_execs {root : Str} : ∀ (ss : List Step) {st st' : St World} {L0 : List Change}, HInv false false L0 st →
    Low root st → execs st ss = .ok st' → Low root st' := by
  intro ss
  induction ss with
  | nil => intro st st' L0 _ hl h; cases h; exact hl
  | cons s ss ih =>
    intro st st' L0 h hl he
    obtain ⟨st1, L1, h1, h2⟩ := hinv_exec h s (fun h => by cases h) (fun h => by cases h)
    simp only [execs, h1, Outcome.bind_ok] at he
    exact ih h2 (low_exec h hl s h1) he

theorem low_open {root : Str} (lim : Option Nat) (dirs marks : List Str) (sched : List (List Op × Bool))
    (hm : ∀ d ∈ marks, Ker.Below root d) : Low root (openedLim lim dirs marks sched) := by
  have key : ∀ (ds : List Str) (st : St World), (∀ d ∈ ds, Ker.Below root d) → LowT root st.dm → fileEvents st.out = [] →
      LowT root (ds.foldl (fun st d => (doMark Model.Ker.sys d st).1) st).dm ∧
      fileEvents (ds.foldl (fun st d => (doMark Model.Ker.sys d st).1) st).out = [] := by
    intro ds
    induction ds with
    | nil => intro st _ h1 h2; exact ⟨h1, h2⟩
    | cons d ds ih =>
      intro st hd h1 h2
      rw [List.foldl_cons]
      refine ih _ (fun x hx => hd x (List.mem_cons_of_mem _ hx)) ?_ ?_
      · rw [doMark_eq]; exact low_mark _ h1 (hd d (List.mem_cons_self ..))
      · rw [doMark_eq]
        simp only
        rw [file_append, h2]
        rcases mark_warn Model.Ker.sys d st.dm st.sys with h | h <;> rw [h] <;> rfl
  have := key marks { dm := [], sys := { k := { dirs := dirs, limit := lim }, sched := sched } } hm (fun e he => by cases he) rfl
  refine ⟨this.1, ?_⟩
  intro e he
  have h2 : fileEvents (openedLim lim dirs marks sched).out = [] := this.2
  rw [h2] at he; cases he

end Verif.Lemmas.Ker
