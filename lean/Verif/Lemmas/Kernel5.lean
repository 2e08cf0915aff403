import Verif.Lemmas.Kernel4
/-! A directory noticed in time. -/
namespace Verif.Lemmas.Ker
open Verif Verif.Model Verif.Model.In Verif.Model.Ker Verif.Spec Verif.Lemmas.In

/-- What an undisturbed batch leaves as it is. -/
structure Same (k k' : K) (n : Nat) : Prop where
  dirs : k'.dirs = k.dirs
  queue : k'.queue = k.queue
  next : k'.next ≤ k.next + n

theorem addWatchK_same (k : K) (p : Str) : Same k (addWatchK k p).2 1 := by
  unfold addWatchK
  split
  · split
    · exact ⟨rfl, rfl, by simp only; omega⟩
    · exact ⟨rfl, rfl, by simp⟩
  · exact ⟨rfl, rfl, by simp only; omega⟩

theorem mark_same (p : Str) (t : Table) (w : World) (h : w.sched = []) :
    (markSpec Model.Ker.sys p t w).2.2.sched = [] ∧ Same w.k (markSpec Model.Ker.sys p t w).2.2.k 1 := by
  rw [markSpec_calm p t w h]
  split
  · exact ⟨h, addWatchK_same _ _⟩
  · exact ⟨h, rfl, rfl, by omega⟩

theorem Same.trans {k k' k'' : K} {a b : Nat} (h : Same k k' a) (h' : Same k' k'' b) : Same k k'' (a + b) :=
  ⟨h'.dirs.trans h.dirs, h'.queue.trans h.queue, by have := h.next; have := h'.next; omega⟩

theorem Same.mono {k k' : K} {a b : Nat} (h : Same k k' a) (hab : a ≤ b) : Same k k' b :=
  ⟨h.dirs, h.queue, by have := h.next; omega⟩

theorem report_same : ∀ (n : Nat) (rs : List Rec), rs.length ≤ n → ∀ (t : Table) (w : World), w.sched = [] →
    (report Model.Ker.sys rs t w).2.2.sched = [] ∧ Same w.k (report Model.Ker.sys rs t w).2.2.k rs.length := by
  intro n
  induction n with
  | zero =>
    intro rs h t w hw
    rw [List.length_eq_zero_iff.1 (by omega : rs.length = 0)]
    exact ⟨hw, rfl, rfl, by simp [report_nil]⟩
  | succ n ih =>
    intro rs hn t w hw
    cases rs with
    | nil => exact ⟨by simpa [report_nil] using hw, by simp [report_nil], by simp [report_nil], by simp [report_nil]⟩
    | cons r rest =>
      simp only [List.length_cons] at hn ⊢
      cases hd : t.lookup r.wd with
      | none =>
        rw [report_unknown Model.Ker.sys _ w hd]
        have := ih rest (by omega) t w hw
        exact ⟨this.1, this.2.mono (by omega)⟩
      | some d' =>
        by_cases hr : r.reportable = true
        · rcases alone_or r rest with h | ⟨r2, rest2, rfl, h⟩
          · rw [report_single Model.Ker.sys w hd hr h]
            have h1 : (markOf Model.Ker.sys r d' t w).2.2.sched = [] ∧ Same w.k (markOf Model.Ker.sys r d' t w).2.2.k 1 := by
              unfold markOf; split
              · exact mark_same _ _ _ hw
              · exact ⟨hw, rfl, rfl, by simp only; omega⟩
            have h2 := ih rest (by omega) (markOf Model.Ker.sys r d' t w).2.1 _ h1.1
            exact ⟨h2.1, (h1.2.trans h2.2).mono (by omega)⟩
          · simp only [List.length_cons] at hn ⊢
            rw [report_pair Model.Ker.sys _ w hd hr h]
            have := ih rest2 (by omega) t w hw
            exact ⟨this.1, this.2.mono (by omega)⟩
        · rw [report_silent Model.Ker.sys _ w hd (by simpa using hr)]
          have := ih rest (by omega) t w hw
          exact ⟨this.1, this.2.mono (by omega)⟩

/-- A directory's creation that is read undisturbed leads to a watch. -/
theorem noticed {l : Bool} {L0 : List Change} {st : St World} (h : HInv l true L0 st) (hlim : st.sys.k.limit = none) (d n : Str) (hn : okName n = true)
    (hd : d ∈ st.sys.k.dirs) (hnew : entryPath d n ∉ st.sys.k.dirs) {wd : Int} (hw : wdOf st.sys.k d = some wd)
    (hfit : (batch (apply st.sys.k (.mkdir d n)).queue).length ≤ 4096)
    (hnx : st.sys.k.next + st.sys.k.queue.length + 1 < 2147483647) :
    ∃ st' L, execs st [.op (.mkdir d n), .read (st.sys.k.queue.length + 1) []] = .ok st' ∧ HInv l true L st' ∧
      st'.sys.k.queue = [] ∧ ∃ wd', wdOf st'.sys.k (entryPath d n) = some wd' := by
  have hap : ∃ lg, apply st.sys.k (.mkdir d n) = { st.sys.k with
      dirs := st.sys.k.dirs ++ [entryPath d n], queue := st.sys.k.queue ++ [recOf wd .create n true], log := lg } := by
    have hv : (okName n && st.sys.k.dirs.contains d && !st.sys.k.dirs.contains (entryPath d n)) = true := by
      simp [hn, hd, hnew]
    simp only [apply, hv, if_true]
    rw [notify_eq (wd := wd) (by exact hlim) (by exact hw)]
    simp only [enqueue]
    rw [if_neg (by simp)]
    exact ⟨_, rfl⟩
  obtain ⟨lg, hap⟩ := hap
  have h1 : HInv l true L0 { st with sys := { st.sys with k := apply st.sys.k (.mkdir d n) } } :=
    h.op (.mkdir d n) (fun _ => rfl) (fun _ => rfl)
  have hq : (apply st.sys.k (.mkdir d n)).queue = st.sys.k.queue ++ [recOf wd .create n true] := by rw [hap]
  have hlen : (apply st.sys.k (.mkdir d n)).queue.length = st.sys.k.queue.length + 1 := by rw [hq]; simp
  obtain ⟨st2, L2, h2, h3⟩ := hinv_exec h1 (.read (apply st.sys.k (.mkdir d n)).queue.length []) (fun _ => rfl) (fun _ => rfl)
  have h4' : exec { st with sys := { st.sys with k := apply st.sys.k (.mkdir d n) } }
      (.read (apply st.sys.k (.mkdir d n)).queue.length []) = _ := read_all h1 hfit
  rw [h2] at h4'
  injection h4' with h4'
  have hbit := bits_of wd .create n true
  have hw0 : wdOf (apply st.sys.k (.mkdir d n)) d = some wd := by rw [hap]; exact hw
  have hal : ∀ x ∈ st.sys.k.queue, Alone x [recOf wd .create n true] := by
    intro x _ r2 rest2 hx
    injection hx with hx _; subst hx
    simp [Rec.renamedTo, hbit.2.2.2.2.1]
  -- before the last record
  let w0 : World := { k := { apply st.sys.k (.mkdir d n) with queue := [] }, sched := [] }
  have hs1 := report_same _ st.sys.k.queue (Nat.le_refl _) st.dm w0 rfl
  have hsplit := report_split Model.Ker.sys [recOf wd .create n true] _ st.sys.k.queue (Nat.le_refl _) hal st.dm w0
  -- the invariant there
  obtain ⟨L1, _, hit⟩ := inv_take h1.inv (apply st.sys.k (.mkdir d n)).queue [] (by simp)
  have hwi : WInv l true (gone (apply st.sys.k (.mkdir d n)).queue) (L0 ++ L1) st.dm w0 :=
    ⟨hit, fun hm => ⟨(h1.still hm).watch, (h1.still hm).log⟩, h1.keys, fun _ => rfl, fun _ => rfl⟩
  have hwi1 := report_preserve Model.Ker.sys (WInv l true (gone (apply st.sys.k (.mkdir d n)).queue) (L0 ++ L1))
    (fun p t w h => winv_mark h p) _ st.sys.k.queue (Nat.le_refl _) st.dm w0 hwi
  generalize hR : report Model.Ker.sys st.sys.k.queue st.dm w0 = R at hs1 hsplit hwi1
  obtain ⟨o1, t1, w1⟩ := R
  simp only at hs1 hsplit hwi1
  -- the watch of `d` is still there
  have hlook : t1.lookup wd = some d := by
    have : st.dm.lookup wd = some d := by
      have := h1.name hw0
      exact this
    have hk := report_preserve Model.Ker.sys (fun t _ => t.lookup wd = some d)
      (fun p t w h => by
        unfold markSpec
        repeat' split
        all_goals first | exact h | skip
        all_goals
          rename_i wd2 _ _ _ _ hnone
          simp only
          rw [List.lookup_cons]
          split
          · rename_i hb
            simp only [beq_iff_eq] at hb; subst hb
            rw [hnone] at h; cases h
          · exact h) _ st.sys.k.queue (Nat.le_refl _) st.dm w0 this
    rw [hR] at hk; exact hk
  have hrep := report_single Model.Ker.sys (r := recOf wd .create n true) (rest := []) (t := t1) w1 hlook (recOf_reportable ..)
        (fun _ _ h => by cases h)
  have hmk : (markOf Model.Ker.sys (recOf wd .create n true) d t1 w1).2.2 =
      { w1 with k := (addWatchK w1.k (entryPath d n)).2 } := by
    have hc : (recOf wd .create n true).created && (recOf wd .create n true).onDir := by
      rw [hbit.2.1, hbit.2.2.2.2.2.2.2.2.2]; simp
    rw [markOf, if_pos hc]
    have hname : (recOf wd .create n true).name = n := rfl
    rw [hname, markSpec_calm _ _ _ hs1.1, if_pos]
    have : w1.k.dirs = st.sys.k.dirs ++ [entryPath d n] := by rw [hs1.2.dirs]; show (apply st.sys.k (.mkdir d n)).dirs = _; rw [hap]
    rw [this, canonicalB_of (canonical_entry hn)]
    simp
  have hsys : st2.sys = { w1 with k := (addWatchK w1.k (entryPath d n)).2 } := by
    rw [h4']
    simp only [hq]
    show (report Model.Ker.sys (st.sys.k.queue ++ [recOf wd .create n true]) st.dm w0).2.2 = _
    rw [hsplit, hrep]
    simp only [report_nil]
    exact hmk
  refine ⟨st2, L2, ?_, h3, ?_, ?_⟩
  · simp only [execs, exec, Outcome.bind_ok] at h2 ⊢
    rw [← hlen, h2]; rfl
  · rw [hsys]
    show (addWatchK w1.k (entryPath d n)).2.queue = []
    rw [(addWatchK_same _ _).queue, hs1.2.queue]
  · rw [hsys]
    show ∃ wd', wdOf (addWatchK w1.k (entryPath d n)).2 (entryPath d n) = some wd'
    have hdirs : w1.k.dirs.contains (entryPath d n) = true := by
      rw [hs1.2.dirs]
      show (apply st.sys.k (.mkdir d n)).dirs.contains _ = _
      rw [hap]; simp
    have hlt : w1.k.next < 2147483647 := by
      have h5 := hs1.2.next
      have h6 : w0.k.next = st.sys.k.next := by show (apply st.sys.k (.mkdir d n)).next = _; rw [hap]
      omega
    unfold addWatchK
    rw [hdirs]
    simp only [hlt, decide_true, Bool.and_self, if_true]
    cases hx : wdOf w1.k (entryPath d n) with
    | some x => exact ⟨x, hx⟩
    | none =>
      refine wdOf_some.2 ⟨(w1.k.next, entryPath d n), List.mem_cons_self .., rfl, ?_⟩
      intro hdead
      obtain ⟨e, he, h5⟩ := hwi1.inv.dead _ hdead
      obtain ⟨p, hp⟩ := hwi1.inv.live e he
      have := (hwi1.inv.hist _ _ (hwi1.inv.table _ _ hp)).2
      simp only at h5
      omega

end Verif.Lemmas.Ker
