import Verif.Lemmas.FLost4
/-! Histories in which nothing is moved, but directories may be removed. -/
namespace Verif.Lemmas.FKer
open Verif Verif.Model Verif.Model.Fa Verif.Model.FKer Verif.Spec Verif.Spec.FKer Verif.Lemmas.Fa

variable {rf : Bool}

theorem doIt_unmoving {k : K} (h : Unmoved k) (x : Do) (hp : unmoving x = true) : Unmoved (doIt k x) := by
  unfold doIt
  split
  · obtain ⟨op, who⟩ := x
    cases op with
    | create d n => simp only [apply]; split; exact notify_unmoved h _ _ _ _ _ (by simp); exact h
    | modify d n => simp only [apply]; split; exact notify_unmoved h _ _ _ _ _ (by simp); exact h
    | unlink d n => simp only [apply]; split; exact notify_unmoved h _ _ _ _ _ (by simp); exact h
    | mkdir d n g =>
      simp only [apply]
      split
      · exact notify_unmoved (k := { k with dirs := k.dirs ++ [(g, child d n)], past := k.past ++ [(g, child d n)] }) h _ _ _ _ _ (by simp)
      · exact h
    | move => cases hp
    | rmdir d n =>
      simp only [apply]
      split
      · exact notify_unmoved h _ _ _ _ _ (by simp)
      · exact h
    | moveDir => cases hp
    | moveOver => cases hp
    | swapDirs => cases hp
  · exact h

theorem doIts_unmoving (xs : List Do) : ∀ {k : K}, Unmoved k → xs.all unmoving = true → Unmoved (xs.foldl doIt k) := by
  induction xs with
  | nil => intro k h _; exact h
  | cons x xs ih =>
    intro k h hp
    rw [List.all_cons, Bool.and_eq_true] at hp
    exact ih (doIt_unmoving h x hp.1) hp.2

/-- Worlds in which nothing is moved. -/
structure VInv (w : World) : Prop where
  k : Unmoved w.k
  sched : allSched unmoving w.sched = true

theorem tick_unmoving {w : World} (h : VInv w) : VInv (tick w).2 := by
  unfold tick
  split
  · exact h
  · rename_i ops fail rest hs
    have hsc := h.sched
    rw [hs] at hsc
    unfold allSched at hsc
    rw [List.all_cons, Bool.and_eq_true] at hsc
    exact ⟨doIts_unmoving ops h.k hsc.1, hsc.2⟩

theorem later_unmoving {w0 w : World} (hk : VInv w0) (hw : Fa.Later (sys rf) w0 w) : VInv w := by
  induction hw with
  | now => exact hk
  | realpath p _ ih => exact tick_unmoving ih
  | isDir p _ ih => exact tick_unmoving ih
  | readlink fd _ ih => exact tick_unmoving ih
  | @openByHandle w h _ ih =>
    have := tick_unmoving ih
    simp only [sys]
    split
    · exact ⟨this.k, this.sched⟩
    · exact this
  | @mark w p _ ih =>
    have := tick_unmoving ih
    simp only [sys]
    split
    · exact this
    · split
      · exact this
      · exact ⟨this.k, this.sched⟩

theorem exec_unmoving {st st' : Fa.St World} (h : QInv st) (s : Step) (hp : allOps unmoving s = true) (he : exec rf st s = .ok st') : QInv st' := by
  refine ⟨exec_hinv h.h s he, ?_⟩
  cases s with
  | op x =>
    simp only [exec, Outcome.ok.injEq] at he
    subst he
    exact doIt_unmoving h.u x hp
  | read n sched =>
    simp only [exec] at he
    split at he
    · rename_i hfit
      obtain ⟨⟨st1, res⟩, h1, h2⟩ := bind_inv he
      simp only at h2
      split at h2
      · simp only [Outcome.pure_eq, Outcome.ok.injEq] at h2
        subst h2
        obtain ⟨new, o1, o2, o3⟩ := recv_drawn (sys rf) (sound rf) _
          ⟨fun r hr => (h.h.k.queue r (List.mem_of_mem_take hr)).wf, hfit⟩ _ _ _ h1
        exact (later_unmoving (w0 := { st.sys with k := { st.sys.k with queue := st.sys.k.queue.drop n }, sched := sched }) ⟨h.u, hp⟩ o3).k
      · cases h2
    · injection he with he; subst he; exact h.u

theorem execs_unmoving (ss : List Step) : ∀ {st st' : Fa.St World}, QInv st → ss.all (allOps unmoving) = true → execs rf st ss = .ok st' → QInv st' := by
  induction ss with
  | nil => intro st st' h _ he; cases he; exact h
  | cons s ss ih =>
    intro st st' h ha he
    rw [List.all_cons, Bool.and_eq_true] at ha
    rw [execs] at he
    obtain ⟨st1, h1, h2⟩ := bind_inv he
    exact ih (exec_unmoving h s ha.1 h1) ha.2 h2

theorem fine_unmoving (ss : List Step) : ∀ {st : Fa.St World}, QInv st → ss.all (allOps unmoving) = true → Fine rf st ss := by
  induction ss with
  | nil => intro st _ _; trivial
  | cons s ss ih =>
    intro st h ha
    rw [List.all_cons, Bool.and_eq_true] at ha
    cases s with
    | op x => exact fun st' he => ih (exec_unmoving h _ ha.1 he) ha.2
    | read n sched =>
      have hr : ∀ r ∈ st.sys.k.queue.take n, r.movedFrom = false ∧ r.movedTo = false :=
        fun r hr => unmoved_rec h.u (h.h.k.queue r (List.mem_of_mem_take hr))
      exact ⟨noswap_plain _ hr, roomy_plain hr, fun st' he => ih (exec_unmoving h _ ha.1 he) ha.2⟩

theorem opened_unmoving {dirs : List (Handle × Str)} (hg : GoodTree dirs) (marks : List Str) (sched : List (List Do × Bool))
    (hs : allSched unmoving sched = true) : QInv (opened rf dirs marks sched) := by
  refine ⟨opened_hinv hg marks sched, ?_⟩
  have key : ∀ (ms : List Str) (st : Fa.St World), VInv st.sys → VInv (ms.foldl (fun st d => (doMark (sys rf) d st).1) st).sys := by
    intro ms
    induction ms with
    | nil => intro st a; exact a
    | cons p ms ih => intro st a; exact ih _ (later_unmoving a (mark_later (sys rf) p st .now))
  unfold opened
  refine (key marks _ ⟨?_, hs⟩).k
  intro c hc
  cases hc

/-- If no directory is ever removed, nothing is missed. -/
theorem not_missed_of_keeps (ss : List Step) : ∀ {st : Fa.St World}, KInv st.sys.k → AllHere st.sys.k → ss.all (allOps keeps) = true → ∀ c, ¬ MissedLate rf st ss c := by
  induction ss with
  | nil => intro st _ _ _ c h; exact h
  | cons s ss ih =>
    intro st hk hh ha c h
    rw [List.all_cons, Bool.and_eq_true] at ha
    cases s with
    | op x =>
      obtain ⟨st', he, h⟩ := h
      have := exec_here hk hh _ ha.1 he
      exact ih this.1 this.2 ha.2 c h
    | read n sched =>
      obtain ⟨st', he, h⟩ := h
      have this := exec_here hk hh _ ha.1 he
      rcases h with ⟨_, hf, r, ⟨a, b, x, hrs, hx, hxm⟩, _, _⟩ | h
      · have hmem : x ∈ st.sys.k.queue.take n := by
          rw [hrs]
          rcases hxm with h | h | ⟨h, _⟩
          · exact List.mem_append_left _ h
          · exact h ▸ List.mem_append_right _ (List.mem_cons_self ..)
          · exact List.mem_append_right _ (List.mem_cons_of_mem _ (List.mem_of_mem_head? (by rw [h]; rfl)))
        obtain ⟨e, h1, h2⟩ := List.mem_map.1 (hk.queue x (List.mem_of_mem_take hmem)).known
        have hp : st.sys.k.past <+: st'.sys.k.past := by
          simp only [exec] at he
          rw [if_pos (show _ ≤ Model.Fa.bufLen from hf)] at he
          obtain ⟨⟨st1, res⟩, g1, g2⟩ := bind_inv he
          simp only at g2
          split at g2
          · simp only [Outcome.pure_eq, Outcome.ok.injEq] at g2
            subst g2
            obtain ⟨new, o1, o2, o3⟩ := recv_drawn (sys rf) (sound rf) _ ⟨fun r hr => (hk.queue r (List.mem_of_mem_take hr)).wf, hf⟩ _ _ _ g1
            exact (later_kinv (rf := rf) (w0 := { st.sys with k := { st.sys.k with queue := st.sys.k.queue.drop n }, sched := sched }) (take_kinv hk n) o3).2.past
          · cases g2
        exact hx (h2 ▸ this.2 e (hp.subset h1) trivial)
      · exact ih this.1 this.2 ha.2 c h

theorem exec_grows {st st' : Fa.St World} (hk : KInv st.sys.k) (s : Step) (he : exec rf st s = .ok st') :
    KInv st'.sys.k ∧ Grows st.sys.k st'.sys.k ∧ Fewer st.sys.k st'.sys.k := by
  cases s with
  | op x =>
    simp only [exec, Outcome.ok.injEq] at he
    subst he
    exact ⟨(doIt_kinv hk x).1, (doIt_kinv hk x).2, doIts_fewer [x] hk⟩
  | read n sched =>
    simp only [exec] at he
    split at he
    · rename_i hf
      obtain ⟨⟨st1, res⟩, g1, g2⟩ := bind_inv he
      simp only at g2
      split at g2
      · simp only [Outcome.pure_eq, Outcome.ok.injEq] at g2
        subst g2
        obtain ⟨new, o1, o2, o3⟩ := recv_drawn (sys rf) (sound rf) _ ⟨fun r hr => (hk.queue r (List.mem_of_mem_take hr)).wf, hf⟩ _ _ _ g1
        have h1 := later_kinv (rf := rf) (w0 := { st.sys with k := { st.sys.k with queue := st.sys.k.queue.drop n }, sched := sched }) (take_kinv hk n) o3
        have h2 := later_fewer (rf := rf) (w0 := { st.sys with k := { st.sys.k with queue := st.sys.k.queue.drop n }, sched := sched }) (take_kinv hk n) o3
        exact ⟨h1.1, ⟨h1.2.log, h1.2.past⟩, h2⟩
      · cases g2
    · injection he with he; subst he; exact ⟨hk, .refl _, .refl _⟩

theorem execs_grows (ss : List Step) : ∀ {st st' : Fa.St World}, KInv st.sys.k → execs rf st ss = .ok st' →
    KInv st'.sys.k ∧ Grows st.sys.k st'.sys.k ∧ Fewer st.sys.k st'.sys.k := by
  induction ss with
  | nil => intro st st' hk he; cases he; exact ⟨hk, .refl _, .refl _⟩
  | cons s ss ih =>
    intro st st' hk he
    rw [execs] at he
    obtain ⟨st1, h1, h2⟩ := bind_inv he
    have a := exec_grows hk s h1
    have b := ih a.1 h2
    exact ⟨b.1, a.2.1.trans b.2.1, a.2.2.trans a.2.1 b.2.2⟩

theorem lone_noswap {rs : List FRec} (h : rs.length ≤ 1) : NoSwap rs := by
  match rs, h with
  | [], _ => trivial
  | [_], _ => trivial
  | _ :: _ :: _, h => simp at h

theorem lone_roomy {rs : List FRec} (h : rs.length ≤ 1) : Roomy rs := by
  refine .inr ?_
  rintro ⟨l, a, b, rfl, _⟩
  simp at h

theorem fine_of_lone (ss : List Step) : ∀ {st : Fa.St World}, Lone rf st ss → Fine rf st ss := by
  induction ss with
  | nil => intro st _; trivial
  | cons s ss ih =>
    intro st h
    cases s with
    | op x => exact fun st' he => ih (h st' he)
    | read n sched => exact ⟨lone_noswap h.1, lone_roomy h.1, fun st' he => ih (h.2 st' he)⟩

/-- What is missed by reads of one record is about a directory that has gone. -/
theorem lone_missed (ss : List Step) : ∀ {st st1 : Fa.St World}, KInv st.sys.k → Lone rf st ss → execs rf st ss = .ok st1 →
    ∀ c, MissedLate rf st ss c → c.handle ∉ st1.sys.k.dirs.map (·.1) := by
  induction ss with
  | nil => intro st st1 _ _ _ c h; cases h
  | cons s ss ih =>
    intro st st1 hk hl he c h
    rw [execs] at he
    obtain ⟨st2, e1, e2⟩ := bind_inv he
    have a := exec_grows hk s e1
    cases s with
    | op x =>
      obtain ⟨st', he, h⟩ := h
      rw [e1] at he; cases he
      exact ih a.1 (hl _ e1) e2 c h
    | read n sched =>
      obtain ⟨st', he, h⟩ := h
      rw [e1] at he; cases he
      rcases h with ⟨hc, _, r, ⟨x, y, z, hrs, hz, hm⟩, hh, _⟩ | h
      · have hlen := hl.1
        rw [hrs] at hlen
        simp only [List.length_append, List.length_cons] at hlen
        have hx : x = [] := List.length_eq_zero_iff.1 (by omega)
        have hy : y = [] := List.length_eq_zero_iff.1 (by omega)
        subst hx hy
        have : z = r := by
          rcases hm with hm | hm | ⟨hm, _⟩
          · cases hm
          · exact hm
          · cases hm
        subst this
        rw [hh] at hz
        have b := execs_grows ss a.1 e2
        intro hd
        refine hz (b.2.2 _ (known_grows a.2.1 ?_) hd)
        exact List.mem_map.2 ⟨_, (hk.logged c hc).1, rfl⟩
      · exact ih a.1 (hl.2 _ e1) e2 c h

end Verif.Lemmas.FKer
