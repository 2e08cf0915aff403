import Verif.Lemmas.FLost
/-! Reads with records about directories that have gone: what is told is in order. -/
namespace Verif.Lemmas.FKer
open Verif Verif.Model Verif.Model.Fa Verif.Model.FKer Verif.Spec Verif.Spec.FKer Verif.Lemmas.Fa

variable {rf : Bool}

/-- The state of a watch in the middle of a history in which nothing is merged: some of the changes looked at have been told, in order. -/
structure OInv (st : Fa.St World) (missed : Change → Prop) : Prop where
  k : KInv st.sys.k
  buf : st.buf.length = 4096
  all : ∃ seen told, Kept true seen st.sys.k ∧ told.Sublist seen ∧ Told st.sys.k.past told (fileEvents (st.out.map Prod.fst)) ∧
    ∀ c ∈ seen, c ∈ told ∨ missed c

theorem OInv.imp {st : Fa.St World} {p q : Change → Prop} (h : OInv st p) (hpq : ∀ c, p c → q c) : OInv st q := by
  obtain ⟨k, b, seen, told, h1, h2, h3, h4⟩ := h
  exact ⟨k, b, seen, told, h1, h2, h3, fun c hc => (h4 c hc).imp id (hpq c)⟩

theorem Corrs.mem {P : List Change} {q : List FRec} (h : Corrs P q) : ∀ c ∈ P, ∃ r ∈ q, Corr c r := by
  induction h with
  | nil => intro c hc; cases hc
  | cons h1 _ ih =>
    intro c hc
    rcases List.mem_cons.1 hc with rfl | hc
    · exact ⟨_, by simp, h1⟩
    · obtain ⟨r, h2, h3⟩ := ih c hc
      exact ⟨r, List.mem_cons_of_mem _ h2, h3⟩

theorem op_oinv {st : Fa.St World} {missed : Change → Prop} (h : OInv st missed) (x : Do) (hx : apart x = true) :
    OInv { st with sys := { st.sys with k := doIt st.sys.k x } } missed := by
  obtain ⟨k, b, seen, told, h1, h2, h3, h4⟩ := h
  have hk := doIt_kinv k x
  exact ⟨hk.1, b, seen, told, doIt_kept h1 x (fun _ => hx), h2, Told.mono hk.2.past h3, h4⟩

theorem read_oinv {st : Fa.St World} {missed : Change → Prop} (h : OInv st missed) (n : Nat) (sched : List (List Do × Bool))
    (hm : allSched apart sched = true) (hs : allSched keeps sched = true) (hn : NoSwap (st.sys.k.queue.take n)) (hr : Roomy (st.sys.k.queue.take n)) :
    ∃ st', exec rf st (.read n sched) = .ok st' ∧ OInv st' (fun c => missed c ∨ MissedNow st n c) := by
  simp only [exec]
  obtain ⟨k, b, seen, told0, h1, h2, h3, h4⟩ := h
  by_cases hfit : (fbatch (st.sys.k.queue.take n)).length ≤ bufLen
  · rw [if_pos hfit]
    have hcov : ∀ r ∈ st.sys.k.queue.take n, Cov st.sys.k.log st.sys.k.past r := fun r hr => k.queue r (List.mem_of_mem_take hr)
    let need : Handle → Prop := fun g => g ∈ st.sys.k.dirs.map (·.1) ∨ g ∉ st.sys.k.past.map (·.1)
    have hne : ∃ g, need g := by
      obtain ⟨g, hg⟩ := exists_longer (st.sys.k.past.map (·.1)); exact ⟨g, .inr hg⟩
    obtain ⟨P, hP, hc⟩ := h1
    have hw : WInvN need true (seen ++ P.take n) { st.sys with k := { st.sys.k with queue := st.sys.k.queue.drop n }, sched := sched } :=
      ⟨take_kinv k n, fun e he hneed => hneed.elim id (fun hx => absurd (List.mem_map.2 ⟨e, he, rfl⟩) hx),
        ⟨P.drop n, by simp only [hP, List.append_assoc, List.take_append_drop], (hc.split n).2⟩,
        allSched_congr (fun _ => mild_true) hm, .inl hs⟩
    obtain ⟨o, w', res, told, lost, e, hkr, iw, g, hsp, t, hst⟩ := run_lost (rf := rf) hne _ _ (Nat.le_refl _) hw hcov
    have hrun := recv_run (sys rf) (sound rf) _ ⟨fun r hr => (hcov r hr).wf, hfit⟩ hr hn
      { st with sys := { st.sys with k := { st.sys.k with queue := st.sys.k.queue.drop n }, sched := sched } } b
    simp only [e] at hrun
    simp only [hrun, Outcome.bind_ok]
    rw [if_pos hkr]
    have hc1 := (hc.split n).1
    rw [hsp] at hc1
    have hc2 := hc1.split told.length
    rw [List.take_left, List.drop_left] at hc2
    refine ⟨_, rfl, iw.k, ?_, seen ++ P.take n, told0 ++ (P.take n).take told.length, iw.kept, ?_, ?_, ?_⟩
    · have h2 : bufLen = 4096 := rfl
      simp only [List.length_append, List.length_drop]
      omega
    · exact h2.append (List.take_sublist _ _)
    · simp only
      rw [List.map_append, fileEvents_append]
      exact Told.append (Told.mono g.past h3) (rtold_told t hc2.1)
    · intro c hcs
      rcases List.mem_append.1 hcs with hcs | hcs
      · rcases h4 c hcs with h | h
        · exact .inl (List.mem_append_left _ h)
        · exact .inr (.inl h)
      · have hlog : c ∈ st.sys.k.log := by rw [hP]; exact List.mem_append_right _ (List.mem_of_mem_take hcs)
        rw [← List.take_append_drop told.length (P.take n)] at hcs
        rcases List.mem_append.1 hcs with hcs | hcs
        · exact .inl (List.mem_append_right _ hcs)
        · obtain ⟨r, hr, hcr⟩ := hc2.2.mem c hcs
          obtain ⟨who, hcr⟩ := hcr
          refine .inr (.inr ⟨hlog, hfit, r, ?_, by rw [hcr]; rfl, by rw [hcr]; rfl⟩)
          rw [hsp]
          rcases hst with hst | hst
          · rw [hst] at hr; cases hr
          · exact skipped_of_stale (fun g hg hd => hg (.inl hd)) hst r hr
  · rw [if_neg hfit]
    exact ⟨st, rfl, k, b, seen, told0, h1, h2, h3, fun c hc => (h4 c hc).imp id .inl⟩

theorem execs_oinv (ss : List Step) : ∀ {st : Fa.St World} {missed : Change → Prop}, OInv st missed → ss.all (allReads keeps) = true →
    ss.all (allOps apart) = true → Fine rf st ss →
    ∃ st', execs rf st ss = .ok st' ∧ OInv st' (fun c => missed c ∨ Missed rf st ss c) := by
  induction ss with
  | nil => intro st missed h _ _ _; exact ⟨st, rfl, h.imp fun c => .inl⟩
  | cons s ss ih =>
    intro st missed h ha hb hf
    rw [List.all_cons, Bool.and_eq_true] at ha hb
    cases s with
    | op x =>
      obtain ⟨st', h1, h2⟩ := ih (op_oinv h x hb.1) ha.2 hb.2 (hf _ rfl)
      exact ⟨st', by rw [execs]; exact h1, h2.imp fun c hc => hc.imp id fun hc => ⟨_, rfl, hc⟩⟩
    | read n sched =>
      obtain ⟨st1, h1, h2⟩ := read_oinv (rf := rf) h n sched hb.1 ha.1 hf.1 hf.2.1
      obtain ⟨st', h3, h4⟩ := ih h2 ha.2 hb.2 (hf.2.2 _ h1)
      refine ⟨st', by rw [execs, h1]; exact h3, h4.imp fun c hc => ?_⟩
      rcases hc with (hc | hc) | hc
      · exact .inl hc
      · exact .inr (.inl hc)
      · exact .inr (.inr ⟨st1, h1, hc⟩)

theorem opened_oinv {dirs : List (Handle × Str)} (hg : GoodTree dirs) (marks : List Str) (sched : List (List Do × Bool)) (hs : allSched apart sched = true) :
    OInv (opened rf dirs marks sched) (fun _ => False) := by
  have h0 := opened_tinv (rf := rf) (m := true) hg marks sched (allSched_congr (fun _ => mild_true) hs)
  exact ⟨h0.k, h0.buf, [], [], h0.kept, .slnil, h0.said, fun c hc => by cases hc⟩

end Verif.Lemmas.FKer
