import Verif.Lemmas.FLost2
import Verif.Lemmas.FLost3
/-! Reads during which directories are removed: what is told is in order. -/
namespace Verif.Lemmas.FKer
open Verif Verif.Model Verif.Model.Fa Verif.Model.FKer Verif.Spec Verif.Spec.FKer Verif.Lemmas.Fa

variable {rf : Bool}

theorem ToldNear.mono {past past' : List (Handle × Str)} (h : past <+: past') {cs : List Change} {es : List Ev} (ht : ToldNear past cs es) :
    ToldNear past' cs es := by
  induction ht with
  | nil => exact .nil
  | one a _ ih => exact .one (Near.mono h a) ih
  | both a b c d _ ih => exact .both a b (Near.mono h c) (Near.mono h d) ih

theorem ToldNear.append {past : List (Handle × Str)} {cs cs' : List Change} {es es' : List Ev} (h : ToldNear past cs es) (h' : ToldNear past cs' es') :
    ToldNear past (cs ++ cs') (es ++ es') := by
  induction h with
  | nil => exact h'
  | one a _ ih => exact .one a ih
  | both a b c d _ ih => exact .both a b c d ih

theorem ToldNear.of {past : List (Handle × Str)} {cs : List Change} {es : List Ev} (h : Told past cs es) : ToldNear past cs es := by
  induction h with
  | nil => exact .nil
  | one a _ ih => exact .one (.inl a) ih
  | both a b c d _ ih => exact .both a b (.inl c) (.inl d) ih

theorem rnear_told {past : List (Handle × Str)} {rs : List FRec} {es : List Ev} (h : RNear past rs es) :
    ∀ {cs : List Change}, Corrs cs rs → ToldNear past cs es := by
  induction h with
  | nil => intro cs hc; cases hc; exact .nil
  | one h1 _ ih =>
    intro cs hc
    cases hc with
    | @cons c _ cs _ hcr hcs =>
      obtain ⟨e1, e2, e3, e4⟩ := corr_effect hcr
      rw [e1, e2]
      exact .one (h1.near e3 e4) (ih hcs)
  | both h0 h1 h2 _ ih =>
    intro cs hc
    cases hc with
    | @cons c _ cs _ hcr hcs =>
      cases hcs with
      | @cons c' _ cs _ hcr' hcs =>
        obtain ⟨e1, e2, e3, e4⟩ := corr_effect hcr
        obtain ⟨f1, f2, f3, f4⟩ := corr_effect hcr'
        simp only [FRec.fromTo, Bool.and_eq_true] at h0
        rw [e2]
        exact .both (corr_from hcr h0.1.2) (corr_to hcr' h0.2) (h1.near e3 e4) (h2.near f3 f4) (ih hcs)

/-- The state of a watch in the middle of a history in which nothing is merged: some of the changes looked at have been told, in order. -/
structure UInv (st : Fa.St World) (missed : Change → Prop) : Prop where
  k : KInv st.sys.k
  buf : st.buf.length = 4096
  all : ∃ seen told, Kept true seen st.sys.k ∧ told.Sublist seen ∧ ToldNear st.sys.k.past told (fileEvents (st.out.map Prod.fst)) ∧
    ∀ c ∈ seen, c ∈ told ∨ missed c

theorem UInv.imp {st : Fa.St World} {p q : Change → Prop} (h : UInv st p) (hpq : ∀ c, p c → q c) : UInv st q := by
  obtain ⟨k, b, seen, told, h1, h2, h3, h4⟩ := h
  exact ⟨k, b, seen, told, h1, h2, h3, fun c hc => (h4 c hc).imp id (hpq c)⟩

theorem op_uinv {st : Fa.St World} {missed : Change → Prop} (h : UInv st missed) (x : Do) (hx : apart x = true) :
    UInv { st with sys := { st.sys with k := doIt st.sys.k x } } missed := by
  obtain ⟨k, b, seen, told, h1, h2, h3, h4⟩ := h
  have hk := doIt_kinv k x
  exact ⟨hk.1, b, seen, told, doIt_kept h1 x (fun _ => hx), h2, ToldNear.mono hk.2.past h3, h4⟩

theorem read_uinv {st : Fa.St World} {missed : Change → Prop} (h : UInv st missed) (n : Nat) (sched : List (List Do × Bool))
    (hm : allSched apart sched = true) (hn : NoSwap (st.sys.k.queue.take n)) (hr : Roomy (st.sys.k.queue.take n)) :
    ∃ st', exec rf st (.read n sched) = .ok st' ∧ UInv st' (fun c => missed c ∨
      (c ∈ st.sys.k.log ∧ (fbatch (st.sys.k.queue.take n)).length ≤ 4096 ∧
        ∃ r, Skipped st'.sys.k (st.sys.k.queue.take n) r ∧ r.handle = c.handle ∧ r.name = c.name)) := by
  simp only [exec]
  obtain ⟨k, b, seen, told0, h1, h2, h3, h4⟩ := h
  by_cases hfit : (fbatch (st.sys.k.queue.take n)).length ≤ bufLen
  · rw [if_pos hfit]
    have hcov : ∀ r ∈ st.sys.k.queue.take n, Cov st.sys.k.log st.sys.k.past r := fun r hr => k.queue r (List.mem_of_mem_take hr)
    obtain ⟨P, hP, hc⟩ := h1
    have hw : WFree true (seen ++ P.take n) { st.sys with k := { st.sys.k with queue := st.sys.k.queue.drop n }, sched := sched } :=
      WFree.mk' (take_kinv k n) ⟨P.drop n, by simp only [hP, List.append_assoc, List.take_append_drop], (hc.split n).2⟩
        (allSched_congr (fun _ => mild_true) hm)
    obtain ⟨o, w', res, told, lost, e, hkr, iw, g, hsp, t, hst⟩ := run_free (rf := rf) _ _ (Nat.le_refl _) hw hcov
    have hrun := recv_run (sys rf) (sound rf) _ ⟨fun r hr => (hcov r hr).wf, hfit⟩ hr hn
      { st with sys := { st.sys with k := { st.sys.k with queue := st.sys.k.queue.drop n }, sched := sched } } b
    simp only [e] at hrun
    simp only [hrun, Outcome.bind_ok]
    rw [if_pos hkr]
    have hc1 := (hc.split n).1
    rw [hsp] at hc1
    have hc2 := hc1.split told.length
    rw [List.take_left, List.drop_left] at hc2
    refine ⟨_, rfl, iw.k, ?_, seen ++ P.take n, told0 ++ (P.take n).take told.length, iw.kept, ?_, ?_, ?_⟩
    · have h2 : bufLen = 4096 := rfl
      simp only [List.length_append, List.length_drop]
      omega
    · exact h2.append (List.take_sublist _ _)
    · simp only
      rw [List.map_append, fileEvents_append]
      exact ToldNear.append (ToldNear.mono g.past h3) (rnear_told t hc2.1)
    · intro c hcs
      rcases List.mem_append.1 hcs with hcs | hcs
      · rcases h4 c hcs with h | h
        · exact .inl (List.mem_append_left _ h)
        · exact .inr (.inl h)
      · have hlog : c ∈ st.sys.k.log := by rw [hP]; exact List.mem_append_right _ (List.mem_of_mem_take hcs)
        rw [← List.take_append_drop told.length (P.take n)] at hcs
        rcases List.mem_append.1 hcs with hcs | hcs
        · exact .inl (List.mem_append_right _ hcs)
        · obtain ⟨r, hr, hcr⟩ := hc2.2.mem c hcs
          obtain ⟨who, hcr⟩ := hcr
          refine .inr (.inr ⟨hlog, hfit, r, ?_, by rw [hcr]; rfl, by rw [hcr]; rfl⟩)
          rw [hsp]
          rcases hst with hst | hst
          · rw [hst] at hr; cases hr
          · exact skipped_of_stale (fun g hg => hg) hst r hr
  · rw [if_neg hfit]
    exact ⟨st, rfl, k, b, seen, told0, h1, h2, h3, fun c hc => (h4 c hc).imp id .inl⟩

theorem execs_uinv (ss : List Step) : ∀ {st : Fa.St World} {missed : Change → Prop}, UInv st missed →
    ss.all (allOps apart) = true → Fine rf st ss →
    ∃ st', execs rf st ss = .ok st' ∧ UInv st' (fun c => missed c ∨ MissedLate rf st ss c) := by
  induction ss with
  | nil => intro st missed h _ _; exact ⟨st, rfl, h.imp fun c => .inl⟩
  | cons s ss ih =>
    intro st missed h hb hf
    rw [List.all_cons, Bool.and_eq_true] at hb
    cases s with
    | op x =>
      obtain ⟨st', h1, h2⟩ := ih (op_uinv h x hb.1) hb.2 (hf _ rfl)
      exact ⟨st', by rw [execs]; exact h1, h2.imp fun c hc => hc.imp id fun hc => ⟨_, rfl, hc⟩⟩
    | read n sched =>
      obtain ⟨st1, h1, h2⟩ := read_uinv (rf := rf) h n sched hb.1 hf.1 hf.2.1
      obtain ⟨st', h3, h4⟩ := ih h2 hb.2 (hf.2.2 _ h1)
      refine ⟨st', by rw [execs, h1]; exact h3, h4.imp fun c hc => ?_⟩
      rcases hc with (hc | hc) | hc
      · exact .inl hc
      · exact .inr ⟨st1, h1, .inl hc⟩
      · exact .inr ⟨st1, h1, .inr hc⟩

theorem opened_uinv {dirs : List (Handle × Str)} (hg : GoodTree dirs) (marks : List Str) (sched : List (List Do × Bool)) (hs : allSched apart sched = true) :
    UInv (opened rf dirs marks sched) (fun _ => False) := by
  obtain ⟨h1, h2, seen, told, h3, h4, h5, h6⟩ := opened_oinv (rf := rf) hg marks sched hs
  exact ⟨h1, h2, seen, told, h3, h4, ToldNear.of h5, h6⟩

end Verif.Lemmas.FKer
