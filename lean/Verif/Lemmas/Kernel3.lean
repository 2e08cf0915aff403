import Verif.Lemmas.Kernel2
/-! Marking, batches and whole histories keep the invariant. -/
namespace Verif.Lemmas.Ker
open Verif Verif.Model Verif.Model.In Verif.Model.Ker Verif.Spec Verif.Lemmas.In

variable {l : Bool} {g : List Int} {L0 : List Change} {t : Table} {k : K}

theorem sys_sound : SoundSys Model.Ker.sys := by
  intro w p real h
  simp only [Model.Ker.sys] at h
  split at h
  · rename_i hc
    injection h with h; subst h
    simp only [Bool.and_eq_true, canonicalB, bne_iff_ne, ne_eq, Bool.or_eq_true, beq_iff_eq] at hc
    refine ⟨hc.2.1, ?_⟩
    intro hl
    rcases hc.2.2 with h | h
    · exact absurd hl h
    · exact h
  · cases h

/-! ### No directory moved -/

/-- Every watch's directory is where it was when the watch was set, and so were those of all changes. -/
structure Still (k : K) : Prop where
  watch : ∀ e ∈ k.watches, k.hist.lookup e.1 = some e.2
  log : ∀ c ∈ k.log, c.dir = c.known

theorem still_notify (hs : Still k) (d n : Str) (kd : Kind) (od : Bool) : Still (notify k d n kd od) := by
  unfold notify
  cases hw : wdOf k d with
  | none => exact hs
  | some wd =>
    simp only
    by_cases hf : full k = true
    · rw [if_pos hf]; exact ⟨hs.watch, hs.log⟩
    rw [if_neg hf]
    refine ⟨hs.watch, ?_⟩
    intro c hc
    rcases List.mem_append.1 hc with hc | hc
    · exact hs.log c hc
    · rw [List.mem_singleton] at hc; subst hc
      obtain ⟨e, he, h1, h2, _⟩ := wdOf_mem hw
      have := hs.watch e he
      rw [h1, h2] at this
      simp [this]

theorem still_bury (hs : Still k) (p : Str) : Still (bury k p) := by
  unfold bury
  cases wdOf k p with
  | none => exact ⟨hs.watch, hs.log⟩
  | some wd => exact ⟨hs.watch, hs.log⟩

theorem still_push (hs : Still k) (r : Rec) : Still (push k r) := by
  unfold push lose
  split <;> exact ⟨hs.watch, hs.log⟩

theorem still_evict (hs : Still k) (wd : Int) : Still (evictWd k wd) := by
  unfold evictWd
  split
  · refine still_push (still_push ?_ _) _
    exact ⟨fun e he => hs.watch e (List.mem_filter.1 he).1, hs.log⟩
  · exact hs

theorem still_apply (hs : Still k) (o : Op) (ho : Ker.keepsDirs o = true) : Still (apply k o) := by
  have hd : ∀ ds, Still { k with dirs := ds } := fun _ => ⟨hs.watch, hs.log⟩
  cases o with
  | moveDir | moveOver | swapDirs => cases ho
  | moveInOver d n ck =>
    simp only [apply]; split
    · have hb := still_bury hs (entryPath d n)
      refine still_notify ?_ _ _ _ _
      exact ⟨hb.watch, hb.log⟩
    · exact hs
  | create | modify | unlink | moveOut | moveIn =>
    simp only [apply]; split
    · exact still_notify hs _ _ _ _
    · exact hs
  | rename | cross =>
    simp only [apply]; split
    · exact still_notify (still_notify hs _ _ _ _) _ _ _ _
    · exact hs
  | mkdir | moveInDir =>
    simp only [apply]; split
    · exact still_notify (hd _) _ _ _ _
    · exact hs
  | rmdir d n sf =>
    simp only [apply]; split
    · split
      · refine still_notify ?_ _ _ _ _
        split
        · exact still_bury hs _
        · exact still_evict (still_bury hs _) _
      · exact still_notify (still_bury hs _) _ _ _ _
    · exact hs
  | evict wd => exact still_evict hs wd

/-! ### Marking -/

/-- The invariant with the watcher's side: `m` says whether to keep track of `Still`. -/
structure WInv (l m : Bool) (g : List Int) (L0 : List Change) (t : Table) (w : World) : Prop where
  inv : Inv l g L0 t w.k
  still : m = true → Still w.k
  keys : (t.map Prod.fst).Nodup
  loc : l = true → Ker.allSched Ker.local w.sched = true
  dirs : m = true → Ker.allSched Ker.keepsDirs w.sched = true

theorem inv_ops (ops : List Op) : ∀ {k : K}, Inv l g L0 t k → (l = true → ops.all Ker.local = true) → Inv l g L0 t (ops.foldl apply k) := by
  induction ops with
  | nil => intro k h _; exact h
  | cons o ops ih =>
    intro k h ho
    simp only [List.all_cons, Bool.and_eq_true] at ho
    exact ih (inv_apply h o (fun hl => (ho hl).1)) (fun hl => (ho hl).2)

theorem still_ops (ops : List Op) : ∀ {k : K}, Still k → ops.all Ker.keepsDirs = true → Still (ops.foldl apply k) := by
  induction ops with
  | nil => intro k h _; exact h
  | cons o ops ih =>
    intro k h ho
    simp only [List.all_cons, Bool.and_eq_true] at ho
    exact ih (still_apply h o ho.1) ho.2

variable {m : Bool} {w : World}

theorem winv_tick (h : WInv l m g L0 t w) : WInv l m g L0 t (tick w).2 := by
  unfold tick
  cases hs : w.sched with
  | nil => exact h
  | cons x rest =>
    obtain ⟨ops, f⟩ := x
    have h1 := h.loc
    rw [hs] at h1
    simp only [Ker.allSched, List.all_cons, Bool.and_eq_true] at h1
    refine ⟨inv_ops ops h.inv (fun hl => (h1 hl).1), ?_, h.keys, fun hl => (h1 hl).2, ?_⟩
    · intro hm
      have h2 := h.dirs hm
      rw [hs] at h2
      simp only [Ker.allSched, List.all_cons, Bool.and_eq_true] at h2
      exact still_ops ops (h.still hm) h2.1
    · intro hm
      have h2 := h.dirs hm
      rw [hs] at h2
      simp only [Ker.allSched, List.all_cons, Bool.and_eq_true] at h2
      exact h2.2

theorem inv_newwatch (hi : Inv l g L0 t k) (p : Str) (hn : k.next < 2147483647) :
    t.lookup k.next = none ∧
    Inv l g L0 ((k.next, p) :: t)
      { k with watches := (k.next, p) :: k.watches, hist := (k.next, p) :: k.hist, next := k.next + 1 } := by
  have hnone : k.hist.lookup k.next = none := by
    cases h : k.hist.lookup k.next with
    | none => rfl
    | some q => have := hi.hist _ _ h; omega
  have htn : t.lookup k.next = none := by
    cases h : t.lookup k.next with
    | none => rfl
    | some q => rw [hi.table _ _ h] at hnone; cases hnone
  have look : ∀ (x : Table) wd q, x.lookup wd = some q → x.lookup k.next = none →
      List.lookup wd ((k.next, p) :: x) = some q := by
    intro x wd q h hx
    rw [List.lookup_cons]
    split
    · rename_i hb; simp at hb; subst hb; rw [hx] at h; cases h
    · exact h
  have look' : ∀ (x : Table) wd q, List.lookup wd ((k.next, p) :: x) = some q →
      (wd = k.next ∧ q = p) ∨ (wd ≠ k.next ∧ x.lookup wd = some q) := by
    intro x wd q h
    rw [List.lookup_cons] at h
    split at h
    · rename_i hb; simp at hb; injection h with h; exact .inl ⟨hb, h.symm⟩
    · rename_i hb; simp at hb; exact .inr ⟨hb, h⟩
  have hnx := hi.next
  refine ⟨htn, ?_⟩
  refine ⟨⟨by simp only; omega, by simp only; omega⟩, ?_, ?_, ?_, ?_, ?_, ?_, ?_, ?_, hi.wf, hi.linked, hi.tidy, ?_, ?_, ?_, ?_, hi.lim⟩
  · intro wd q h
    rcases look' _ _ _ h with ⟨rfl, _⟩ | ⟨_, h⟩
    · simp only; omega
    · have := hi.hist _ _ h; simp only; omega
  · intro wd q h
    rcases look' _ _ _ h with ⟨rfl, rfl⟩ | ⟨hne, h⟩
    · simp
    · exact look _ _ _ (hi.table _ _ h) hnone
  · intro e he
    rcases List.mem_cons.1 he with rfl | he
    · exact ⟨p, by simp⟩
    · obtain ⟨q, hq⟩ := hi.live e he
      exact ⟨q, look _ _ _ hq htn⟩
  · intro x hx
    obtain ⟨e, he, h1⟩ := hi.dead x hx
    exact ⟨e, List.mem_cons_of_mem _ he, h1⟩
  · intro e he hg
    rcases List.mem_cons.1 he with rfl | he
    · have := hi.glt _ hg; simp only at this; omega
    · exact hi.goneLive e he hg
  · exact hi.goneQ
  · intro r hr hrep
    obtain ⟨q, hq⟩ := hi.known r hr hrep
    exact ⟨q, look _ _ _ hq htn⟩
  · intro wd q h
    rcases look' _ _ _ h with ⟨rfl, rfl⟩ | ⟨hne, h⟩
    · exact .inl ⟨_, List.mem_cons_self .., rfl⟩
    · rcases hi.left _ _ h with ⟨e, he, h1⟩ | h1 | h1
      · exact .inl ⟨e, List.mem_cons_of_mem _ he, h1⟩
      · exact .inr (.inl h1)
      · exact .inr (.inr h1)
  · intro r hr hd e he
    rcases List.mem_cons.1 he with rfl | he
    · have := hi.qlt r hr; simp only; omega
    · exact hi.selfGone r hr hd e he
  · obtain ⟨L, hL, hP⟩ := hi.pend
    exact ⟨L, hL, pend_mono (fun wd q h => look _ _ _ h hnone) hP⟩
  · intro r hr; have := hi.qlt r hr; simp only; omega
  · intro wd hwd; have := hi.glt wd hwd; simp only; omega

theorem keys_none {t : Table} {wd : Int} (h : t.lookup wd = none) : wd ∉ t.map Prod.fst := by
  induction t with
  | nil => simp
  | cons e t ih =>
    rw [List.lookup_cons] at h
    split at h
    · cases h
    · rename_i hb
      simp only [List.map_cons, List.mem_cons, not_or]
      exact ⟨fun hx => by simp [hx] at hb, ih h⟩

theorem winv_mark (h : WInv l m g L0 t w) (p : Str) :
    WInv l m g L0 (markSpec Model.Ker.sys p t w).2.1 (markSpec Model.Ker.sys p t w).2.2 := by
  have h1 := winv_tick h
  unfold markSpec
  simp only [Model.Ker.sys]
  generalize (tick w).2 = w1 at h1
  split
  · rename_i hh; injection hh with _ hh; subst hh; exact h1
  · rename_i real w1' hh
    injection hh with _ hh; subst hh
    have h2 := winv_tick h1
    generalize (tick w1).2 = w2 at h2
    split
    · rename_i hh; injection hh with _ hh; subst hh; exact h2
    · rename_i w2' hh
      injection hh with _ hh; subst hh
      have h3 := winv_tick h2
      generalize (tick w2) = x3 at h3
      obtain ⟨fl, w3⟩ := x3
      simp only
      cases fl with
      | true => simpa using h3
      | false =>
        simp only [Bool.false_eq_true, if_false, addWatchK]
        by_cases hc : (w3.k.dirs.contains real && decide (w3.k.next < 2147483647)) = true
        · rw [if_pos hc]
          simp only [Bool.and_eq_true, decide_eq_true_eq] at hc
          cases hwd : wdOf w3.k real with
          | some wd =>
            simp only
            split
            · obtain ⟨e, he, h4, _⟩ := wdOf_mem hwd
              obtain ⟨q, hq⟩ := h3.inv.live e he
              rw [h4] at hq
              simp only [hq]
              exact h3
            · exact h3
          | none =>
            have hn := inv_newwatch h3.inv real hc.2
            have hpos := h3.inv.next.1
            simp only
            rw [if_pos hpos]
            simp only [hn.1]
            refine ⟨hn.2, ?_, ?_, h3.loc, h3.dirs⟩
            · intro hm
              have hst := h3.still hm
              refine ⟨?_, hst.log⟩
              intro e he
              rcases List.mem_cons.1 he with rfl | he
              · simp
              · rw [List.lookup_cons]
                split
                · rename_i hb
                  simp only [beq_iff_eq] at hb
                  obtain ⟨q, hq⟩ := h3.inv.live e he
                  have := h3.inv.hist _ _ (h3.inv.table _ _ hq)
                  simp only at this; omega
                · exact hst.watch e he
            · rw [List.map_cons, List.nodup_cons]
              exact ⟨keys_none hn.1, h3.keys⟩
        · rw [if_neg hc]
          simpa using h3

/-- Anything marking keeps, a batch keeps. -/
theorem report_preserve {σ} (S : Sys σ) (P : Table → σ → Prop)
    (hm : ∀ p t w, P t w → P (markSpec S p t w).2.1 (markSpec S p t w).2.2) :
    ∀ (n : Nat) (rs : List Rec), rs.length ≤ n → ∀ (t : Table) (w : σ), P t w →
      P (report S rs t w).2.1 (report S rs t w).2.2 := by
  intro n
  induction n with
  | zero => intro rs h t w hk; rw [List.length_eq_zero_iff.1 (by omega : rs.length = 0)]; simpa [report_nil]
  | succ n ih =>
    intro rs hn t w hk
    cases rs with
    | nil => simpa [report_nil]
    | cons r rest =>
      simp only [List.length_cons] at hn
      cases hd : t.lookup r.wd with
      | none => rw [report_unknown S _ w hd]; exact ih rest (by omega) t w hk
      | some d' =>
        by_cases hr : r.reportable = true
        · rcases alone_or r rest with h | ⟨r2, rest2, rfl, h⟩
          · rw [report_single S w hd hr h]
            refine ih rest (by omega) _ _ ?_
            unfold markOf
            split
            · exact hm _ _ _ hk
            · exact hk
          · simp only [List.length_cons] at hn
            rw [report_pair S _ w hd hr h]; exact ih rest2 (by omega) t w hk
        · rw [report_silent S _ w hd (by simpa using hr)]; exact ih rest (by omega) t w hk

/-- What is due, when all watches with something to report are known. -/
theorem report_due' {σ} (S : Sys σ) : ∀ (n : Nat) (rs : List Rec), rs.length ≤ n → ∀ (t : Table) (w : σ),
    (∀ r ∈ rs, r.reportable = true → ∃ d, t.lookup r.wd = some d) → fileEvents (report S rs t w).1 = due t rs := by
  intro n
  induction n with
  | zero => intro rs h t w _; rw [List.length_eq_zero_iff.1 (by omega : rs.length = 0)]; simp [report_nil, fileEvents, due]
  | succ n ih =>
    intro rs hn t w hk
    cases rs with
    | nil => simp [report_nil, fileEvents, due]
    | cons r rest =>
      simp only [List.length_cons] at hn
      have hk' : ∀ x ∈ rest, x.reportable = true → ∃ d, t.lookup x.wd = some d := fun x hx => hk x (by simp [hx])
      by_cases hr : r.reportable = true
      · obtain ⟨d, hd⟩ := hk r (by simp) hr
        unfold due
        rcases alone_or r rest with h | ⟨r2, rest2, rfl, h⟩
        · rw [report_single S w hd hr h]
          rw [file_append, markOf_file, List.nil_append, file_cons_event]
          have hk2 : ∀ x ∈ rest, x.reportable = true → ∃ d', (markOf S r d t w).2.1.lookup x.wd = some d' := fun x hx hxr => by
            obtain ⟨d', hd'⟩ := hk' x hx hxr
            exact ⟨d', markOf_keeps S r d t w _ _ hd'⟩
          rw [ih rest (by omega) _ _ hk2]
          have hcongr : ∀ (n : Nat) (rs : List Rec), rs.length ≤ n →
              (∀ x ∈ rs, x.reportable = true → (markOf S r d t w).2.1.lookup x.wd = t.lookup x.wd) →
              due (markOf S r d t w).2.1 rs = due t rs := by
            intro n
            induction n with
            | zero => intro rs h _; rw [List.length_eq_zero_iff.1 (by omega : rs.length = 0)]; rfl
            | succ n ih2 =>
              intro rs hn hh
              cases rs with
              | nil => rfl
              | cons a rest =>
                simp only [List.length_cons] at hn
                have ih1 := ih2 rest (by omega) (fun x hx => hh x (by simp [hx]))
                rw [due.eq_def (markOf S r d t w).2.1 (a :: rest), due.eq_def t (a :: rest)]
                simp only [ih1]
                by_cases ha : a.reportable = true
                · rw [hh a (by simp) ha]
                  cases rest with
                  | nil => rfl
                  | cons b rest2 =>
                    simp only [List.length_cons] at hn
                    simp only [ih2 rest2 (by omega) (fun x hx => hh x (by simp [hx]))]
                    rw [ih1]
                · simp [ha]
          rw [hcongr n rest (by omega) (fun x hx hxr => by
            obtain ⟨d', hd'⟩ := hk' x hx hxr
            rw [hd', markOf_keeps S r d t w _ _ hd'])]
          cases rest with
          | nil => simp [hr, hd, due]
          | cons r2 rest2 => simp [hr, hd, h r2 rest2 rfl]
        · rw [report_pair S rest2 w hd hr h, file_cons_pair]
          simp only [List.length_cons] at hn
          rw [ih rest2 (by omega) t w (fun x hx => hk' x (by simp [hx]))]
          simp [hr, hd, h]
      · have hr' : r.reportable = false := by simpa using hr
        have hdue : due t (r :: rest) = due t rest := by rw [due.eq_def]; simp [hr']
        rw [hdue]
        cases hd : t.lookup r.wd with
        | none => rw [report_unknown S rest w hd, file_cons_phantom, ih rest (by omega) t w hk']
        | some d => rw [report_silent S rest w hd hr', ih rest (by omega) t w hk']

/-! ### Batches -/

theorem lookup_without (t : Table) (g : List Int) (wd : Int) :
    (without t g).lookup wd = if wd ∈ g then none else t.lookup wd := by
  induction t with
  | nil => simp [without]
  | cons e t ih =>
    unfold without at ih ⊢
    rw [List.filter_cons, List.lookup_cons]
    by_cases hc : (!g.contains e.1) = true
    · rw [if_pos hc, List.lookup_cons]
      split
      · rename_i hb
        simp only [beq_iff_eq] at hb; subst hb
        simp at hc
        simp [hc]
      · exact ih
    · rw [if_neg hc, ih]
      simp at hc
      split
      · rfl
      · rename_i hn
        split
        · rename_i hb
          simp only [beq_iff_eq] at hb; subst hb
          exact absurd hc hn
        · rfl

theorem mem_gone {rs : List Rec} {wd : Int} : wd ∈ gone rs ↔ ∃ r ∈ rs, (r.deleteSelf && !r.moveSelf) = true ∧ r.wd = wd := by
  unfold gone
  rw [List.mem_map]
  constructor
  · rintro ⟨r, hr, h⟩
    have := List.mem_filter.1 hr
    exact ⟨r, this.1, this.2, h⟩
  · rintro ⟨r, hr, h1, h2⟩
    exact ⟨r, List.mem_filter.2 ⟨hr, h1⟩, h2⟩

/-- Taking a batch off the queue. -/
theorem inv_take (hi : Inv l [] L0 t k) (rs q : List Rec) (hq : k.queue = rs ++ q) :
    ∃ L1, TellsL l (·.known) L1 (due t rs) ∧ Inv l (gone rs) (L0 ++ L1) t { k with queue := q } := by
  obtain ⟨L, hL, hP⟩ := hi.pend
  obtain ⟨L1, L2, h1, h2, h3⟩ := pend_split hP rs q hq
  have hl := hi.linked
  rw [hq] at hl
  have htd := hi.tidy
  rw [hq] at htd
  have hmem : ∀ r ∈ rs, r ∈ k.queue := fun r hr => by rw [hq]; exact List.mem_append_left _ hr
  have hmem' : ∀ r ∈ q, r ∈ k.queue := fun r hr => by rw [hq]; exact List.mem_append_right _ hr
  refine ⟨L1, ?_, ?_⟩
  · refine pend_tells h2 (List.pairwise_append.1 hl).1 ?_
    intro r hr hrep
    obtain ⟨p, hp⟩ := hi.known r (hmem r hr) hrep
    rw [hp, hi.table _ _ hp]
  · refine ⟨hi.next, hi.hist, hi.table, hi.live, hi.dead, ?_, ?_, ?_, ?_, ?_, (List.pairwise_append.1 hl).2.1,
      (List.pairwise_append.1 htd).2.1, ?_, ?_, ?_, ?_, hi.lim⟩
    · intro e he hg
      obtain ⟨r, hr, hd, hw⟩ := mem_gone.1 hg
      simp only [Bool.and_eq_true] at hd
      exact hi.selfGone r (hmem r hr) hd.1 e he hw.symm
    · intro r hr hrep hg
      obtain ⟨r0, hr0, hd, hw⟩ := mem_gone.1 hg
      simp only [Bool.and_eq_true] at hd
      exact (List.pairwise_append.1 htd).2.2 r0 hr0 r hr hd.1 hrep hw.symm
    · intro r hr hrep; exact hi.known r (hmem' r hr) hrep
    · intro wd p hl
      rcases hi.left wd p hl with h | h | ⟨r, hr, h⟩ | h
      · exact .inl h
      · cases h
      · rw [hq] at hr
        rcases List.mem_append.1 hr with hr | hr
        · exact .inr (.inl (mem_gone.2 ⟨r, hr, h⟩))
        · exact .inr (.inr (.inl ⟨r, hr, h⟩))
      · exact .inr (.inr (.inr h))
    · intro r hr; exact hi.wf r (hmem' r hr)
    · intro r hr; exact hi.selfGone r (hmem' r hr)
    · exact ⟨L2, by simp [hL, h1], h3⟩
    · intro r hr; exact hi.qlt r (hmem' r hr)
    · intro wd hg
      obtain ⟨r, hr, _, hw⟩ := mem_gone.1 hg
      rw [← hw]; exact hi.qlt r (hmem r hr)

/-- Dropping the descriptors that are gone, at the end of a batch. -/
theorem inv_flush (hi : Inv l g L0 t k) : Inv l [] L0 (without t g) k := by
  refine ⟨hi.next, hi.hist, ?_, ?_, hi.dead, ?_, ?_, ?_, ?_, hi.wf, hi.linked, hi.tidy, hi.selfGone, hi.pend, hi.qlt, ?_, hi.lim⟩
  · intro wd p h
    rw [lookup_without] at h
    split at h
    · cases h
    · exact hi.table _ _ h
  · intro e he
    rw [lookup_without, if_neg (hi.goneLive e he)]
    exact hi.live e he
  · intro e _ h; cases h
  · intro r _ _ h; cases h
  · intro r hr hrep
    rw [lookup_without, if_neg (hi.goneQ r hr hrep)]
    exact hi.known r hr hrep
  · intro wd p h
    rw [lookup_without] at h
    split at h
    · cases h
    · rename_i hng
      rcases hi.left _ _ h with h | h | h
      · exact .inl h
      · exact absurd h hng
      · exact .inr (.inr h)
  · intro wd h; cases h

theorem tells_append {path : Change → Str} {L L' es es'} (h : TellsL l path L es) (h' : TellsL l path L' es') :
    TellsL l path (L ++ L') (es ++ es') := by
  induction h with
  | nil => exact h'
  | one c _ ih => exact .one c ih
  | both a b id h1 h2 h3 _ ih => exact .both a b id h1 h2 h3 ih
  | again c c' h1 h2 h3 h4 h5 _ ih => exact .again c c' h1 h2 h3 h4 h5 ih

theorem tells_congr {path path' : Change → Str} {L es} (h : TellsL l path L es) (hp : ∀ c ∈ L, path c = path' c) :
    TellsL l path' L es := by
  induction h with
  | nil => exact .nil
  | one c _ ih =>
    rw [hp c (by simp)]
    exact .one c (ih (fun x hx => hp x (by simp [hx])))
  | both a b id h1 h2 h3 _ ih =>
    rw [hp a (by simp)]
    refine .both a b id h1 h2 ?_ (ih (fun x hx => hp x (by simp [hx])))
    intro hl
    rw [← hp a (by simp), ← hp b (by simp)]; exact h3 hl
  | again c c' h1 h2 h3 h4 h5 _ ih =>
    refine .again c c' h1 h2 h3 h4 ?_ (ih (fun x hx => hp x (by simp at hx ⊢; exact .inr hx)))
    rw [← hp c (by simp), ← hp c' (by simp)]; exact h5

/-! ### What is lost is noted -/

/-- From `k` to `k'` nothing pending went away, and if anything was lost a record says so. -/
structure Grow (k k' : K) : Prop where
  limit : k'.limit = k.limit
  queue : ∀ r ∈ k.queue, r ∈ k'.queue
  lost : k.lost ≤ k'.lost
  noted : k.lost < k'.lost → overflowRec ∈ k'.queue

theorem Grow.rfl {k : K} : Grow k k := ⟨_root_.rfl, fun _ h => h, Nat.le_refl _, fun h => absurd h (Nat.lt_irrefl _)⟩

theorem Grow.trans {k k' k'' : K} (h : Grow k k') (h' : Grow k' k'') : Grow k k'' := by
  refine ⟨h'.limit.trans h.limit, fun r hr => h'.queue r (h.queue r hr), Nat.le_trans h.lost h'.lost, ?_⟩
  intro hx
  by_cases hy : k'.lost < k''.lost
  · exact h'.noted hy
  · exact h'.queue _ (h.noted (by omega))

/-- Steps that leave queue, limit and losses as they are. -/
theorem Grow.same {k k' : K} (h1 : k'.limit = k.limit) (h2 : k'.queue = k.queue) (h3 : k'.lost = k.lost) : Grow k k' :=
  ⟨h1, fun r hr => by rw [h2]; exact hr, by omega, fun h => by omega⟩

theorem grow_lose (k : K) : Grow k (lose k) := by
  unfold lose
  refine ⟨rfl, ?_, by simp, ?_⟩
  · intro r hr
    simp only
    split
    · exact hr
    · exact List.mem_append_left _ hr
  · intro _
    simp only
    split
    · rename_i h; simpa using h
    · simp

theorem grow_push (k : K) (x : Rec) : Grow k (push k x) := by
  unfold push
  split
  · exact grow_lose k
  · exact ⟨rfl, fun r hr => List.mem_append_left _ hr, Nat.le_refl _, fun h => absurd h (Nat.lt_irrefl _)⟩

theorem grow_notify (k : K) (d n : Str) (kd : Kind) (od : Bool) : Grow k (notify k d n kd od) := by
  unfold notify
  split
  · exact .rfl
  · split
    · exact grow_lose k
    · refine ⟨rfl, fun r hr => ?_, Nat.le_refl _, fun h => absurd h (Nat.lt_irrefl _)⟩
      simp only [enqueue]
      split
      · exact hr
      · exact List.mem_append_left _ hr

theorem grow_evict (k : K) (wd : Int) : Grow k (evictWd k wd) := by
  unfold evictWd
  split
  · refine Grow.trans ?_ (grow_push _ _)
    refine Grow.trans ?_ (grow_push _ _)
    exact Grow.same rfl rfl rfl
  · exact .rfl

theorem grow_bury (k : K) (p : Str) : Grow k (bury k p) := by
  unfold bury
  split <;> exact .same rfl rfl rfl

theorem grow_relocate (k : K) (f : Str → Str) : Grow k (relocate k f) := Grow.same rfl rfl rfl

theorem grow_pushMoved (k0 k : K) (p : Str) : Grow k (pushMoved k0 k p) := by
  unfold pushMoved
  split
  · exact .rfl
  · exact grow_push ..

theorem grow_moveDirK (k : K) (d1 n1 d2 n2 : Str) (ck : BitVec 32) : Grow k (moveDirK k d1 n1 d2 n2 ck) := by
  refine Grow.trans ?_ (grow_pushMoved ..)
  refine Grow.trans ?_ (grow_relocate ..)
  exact (grow_notify ..).trans (grow_notify ..)

theorem grow_apply (k : K) (o : Op) : Grow k (apply k o) := by
  cases o with
  | create | modify | unlink | moveOut | moveIn =>
    simp only [apply]; split
    · exact grow_notify ..
    · exact .rfl
  | rename | cross =>
    simp only [apply]; split
    · exact (grow_notify ..).trans (grow_notify ..)
    · exact .rfl
  | mkdir | moveInDir =>
    simp only [apply]; split
    · refine Grow.trans ?_ (grow_notify ..)
      exact Grow.same rfl rfl rfl
    · exact .rfl
  | rmdir d n sf =>
    simp only [apply]; split
    · split
      · refine Grow.trans ?_ (grow_notify ..)
        split
        · exact grow_bury ..
        · exact (grow_bury ..).trans (grow_evict ..)
      · exact (grow_bury ..).trans (grow_notify ..)
    · exact .rfl
  | evict wd => exact grow_evict ..
  | moveDir d1 n1 d2 n2 ck =>
    simp only [apply]; split
    · exact grow_moveDirK ..
    · exact .rfl
  | moveOver d1 n1 d2 n2 ck =>
    simp only [apply]; split
    · exact (grow_bury ..).trans (grow_moveDirK ..)
    · exact .rfl
  | moveInOver d n ck =>
    simp only [apply]; split
    · refine ((grow_bury k (entryPath d n)).trans ?_).trans (grow_notify ..)
      exact Grow.same rfl rfl rfl
    · exact .rfl
  | swapDirs d1 n1 d2 n2 ck1 ck2 =>
    simp only [apply]; split
    · refine Grow.trans ?_ (grow_relocate ..)
      refine Grow.trans ?_ (grow_pushMoved ..)
      refine Grow.trans ?_ ((grow_notify ..).trans (grow_notify ..))
      refine Grow.trans ?_ (grow_pushMoved ..)
      exact (grow_notify ..).trans (grow_notify ..)
    · exact .rfl

theorem grow_tick (w : World) : Grow w.k (tick w).2.k := by
  unfold tick
  split
  · exact .rfl
  · rename_i ops _ _ _
    have : ∀ (ops : List Op) (k : K), Grow k (ops.foldl apply k) := by
      intro ops
      induction ops with
      | nil => intro k; exact .rfl
      | cons o ops ih => intro k; exact (grow_apply k o).trans (ih _)
    exact this ops w.k

theorem grow_addWatch (k : K) (p : Str) : Grow k (addWatchK k p).2 := by
  unfold addWatchK
  repeat' split
  all_goals exact .same rfl rfl rfl

theorem grow_mark (p : Str) (t : Table) (w : World) : Grow w.k (markSpec Model.Ker.sys p t w).2.2.k := by
  have h1 : ∀ w p, Grow w.k (Model.Ker.sys.realpath w p).2.k := fun w p => grow_tick w
  have h2 : ∀ w p, Grow w.k (Model.Ker.sys.isDir w p).2.k := fun w p => grow_tick w
  have h3 : ∀ w p, Grow w.k (Model.Ker.sys.addWatch w p).2.k := by
    intro w p
    show Grow w.k (if (tick w).1 then ((-1 : Int), (tick w).2) else
        ((addWatchK (tick w).2.k p).1, { (tick w).2 with k := (addWatchK (tick w).2.k p).2 })).2.k
    split
    · exact grow_tick w
    · exact (grow_tick w).trans (grow_addWatch _ _)
  unfold markSpec
  have g1 := h1 w p
  cases hr : Model.Ker.sys.realpath w p with
  | mk o w1 =>
    rw [hr] at g1
    cases o with
    | none => exact g1
    | some real =>
      have g2 := h2 w1 real
      simp only
      cases hd : Model.Ker.sys.isDir w1 real with
      | mk b w2 =>
        rw [hd] at g2
        cases b with
        | false => exact g1.trans g2
        | true =>
          have g3 := h3 w2 real
          simp only
          split
          · exact g1.trans (g2.trans g3)
          · exact g1.trans (g2.trans g3)

theorem grow_report (rs : List Rec) (t : Table) (w : World) : Grow w.k (report Model.Ker.sys rs t w).2.2.k :=
  report_preserve Model.Ker.sys (fun _ w' => Grow w.k w'.k) (fun p t w' h => h.trans (grow_mark p t w')) _ rs (Nat.le_refl _) t w .rfl

/-- A record of loss leads to a warning. -/
theorem report_overflow {σ} (S : Sys σ) (hS : SoundSys S) : ∀ (n : Nat) (rs : List Rec), rs.length ≤ n → ∀ (t : Table) (w : σ),
    SoundTable t → overflowRec ∈ rs → phantomMsg ∈ (report S rs t w).1 := by
  intro n
  induction n with
  | zero => intro rs h t w _ hm; rw [List.length_eq_zero_iff.1 (by omega : rs.length = 0)] at hm; cases hm
  | succ n ih =>
    intro rs hn t w ht hm
    have hno : t.lookup overflowRec.wd = none := by
      cases h : t.lookup overflowRec.wd with
      | none => rfl
      | some p => have := (ht _ (lookup_mem h)).1; simp [overflowRec] at this
    cases rs with
    | nil => cases hm
    | cons r rest =>
      simp only [List.length_cons] at hn
      rcases List.mem_cons.1 hm with rfl | hm
      · rw [report_unknown S _ w hno]; simp
      · cases hd : t.lookup r.wd with
        | none => rw [report_unknown S _ w hd]; exact List.mem_cons_of_mem _ (ih rest (by omega) t w ht hm)
        | some d' =>
          by_cases hr : r.reportable = true
          · rcases alone_or r rest with h | ⟨r2, rest2, rfl, h⟩
            · rw [report_single S w hd hr h]
              refine List.mem_append_right _ (List.mem_cons_of_mem _ (ih rest (by omega) _ _ ?_ hm))
              unfold markOf
              split
              · exact markSpec_sound _ hS _ _ _ ht
              · exact ht
            · simp only [List.length_cons] at hn
              rw [report_pair S _ w hd hr h]
              refine List.mem_cons_of_mem _ (ih rest2 (by omega) t w ht ?_)
              rcases List.mem_cons.1 hm with rfl | hm
              · simp only [Rec.renamedTo, Bool.and_eq_true] at h
                exact absurd h.2 (by decide)
              · exact hm
          · rw [report_silent S _ w hd (by simpa using hr)]; exact ih rest (by omega) t w ht hm

/-- The state of a history. -/
structure HInv (l m : Bool) (L0 : List Change) (st : St World) : Prop where
  inv : Inv l [] L0 st.dm st.sys.k
  still : m = true → Still st.sys.k
  keys : (st.dm.map Prod.fst).Nodup
  sound : SoundTable st.dm
  told : TellsL l (·.known) L0 (fileEvents st.out)
  noted : 0 < st.sys.k.lost → overflowRec ∈ st.sys.k.queue ∨ phantomMsg ∈ st.out

theorem HInv.op {m} {st : St World} {L0 : List Change} (h : HInv l m L0 st) (o : Op) (hl : l = true → Ker.local o = true)
    (hd : m = true → Ker.keepsDirs o = true) :
    HInv l m L0 { st with sys := { st.sys with k := apply st.sys.k o } } := by
  refine ⟨inv_apply h.inv o hl, fun hm => still_apply (h.still hm) o (hd hm), h.keys, h.sound, h.told, ?_⟩
  intro hx
  have hg := grow_apply st.sys.k o
  by_cases hy : st.sys.k.lost < (apply st.sys.k o).lost
  · exact .inl (hg.noted hy)
  · rcases h.noted (by simp only at hx; omega) with hz | hz
    · exact .inl (hg.queue _ hz)
    · exact .inr hz

theorem hinv_exec {st : St World} {L0 : List Change} (h : HInv l m L0 st) (s : Step) (hl : l = true → Ker.allOps Ker.local s = true)
    (hd : m = true → Ker.allOps Ker.keepsDirs s = true) :
    ∃ st' L0', exec st s = .ok st' ∧ HInv l m L0' st' := by
  cases s with
  | op o =>
    exact ⟨_, L0, rfl, h.op o hl hd⟩
  | read n sched =>
    simp only [exec]
    by_cases hf : (batch (st.sys.k.queue.take n)).length ≤ bufLen
    · rw [if_pos hf]
      obtain ⟨L1, ht, hi⟩ := inv_take h.inv (st.sys.k.queue.take n) (st.sys.k.queue.drop n) (List.take_append_drop n _).symm
      have hb : Batch (st.sys.k.queue.take n) :=
        ⟨fun r hr => h.inv.wf r (List.mem_of_mem_take hr), hf, linked_ordered (h.inv.linked.sublist (List.take_sublist _ _))⟩
      have hr := recv_eq Model.Ker.sys sys_sound (st.sys.k.queue.take n) hb
        { st with sys := { k := { st.sys.k with queue := st.sys.k.queue.drop n }, sched := sched } } h.sound
      rw [hr]
      simp only [Outcome.bind_ok]
      rw [if_pos (by decide)]
      have hw0 : WInv l m (gone (st.sys.k.queue.take n)) (L0 ++ L1) st.dm
          { k := { st.sys.k with queue := st.sys.k.queue.drop n }, sched := sched } :=
        ⟨hi, fun hm => ⟨(h.still hm).watch, (h.still hm).log⟩, h.keys, hl, hd⟩
      have hw := report_preserve Model.Ker.sys (fun t w => WInv l m (gone (st.sys.k.queue.take n)) (L0 ++ L1) t w)
        (fun p t w hh => winv_mark hh p) _ (st.sys.k.queue.take n) (Nat.le_refl _) _ _ hw0
      have hs := report_sound Model.Ker.sys sys_sound _ (st.sys.k.queue.take n) (Nat.le_refl _) st.dm
        { k := { st.sys.k with queue := st.sys.k.queue.drop n }, sched := sched } h.sound
      refine ⟨_, L0 ++ L1, rfl, inv_flush hw.inv, hw.still, ?_, ?_, ?_, ?_⟩
      · exact List.Nodup.sublist (List.Sublist.map _ List.filter_sublist) hw.keys
      · intro e he; exact hs e (List.mem_filter.1 he).1
      · simp only
        rw [file_append, report_due' Model.Ker.sys _ _ (Nat.le_refl _)]
        · exact tells_append h.told ht
        · intro r hr hrep; exact h.inv.known r (List.mem_of_mem_take hr) hrep
      · intro hx
        have hg := grow_report (st.sys.k.queue.take n) st.dm
          { k := { st.sys.k with queue := st.sys.k.queue.drop n }, sched := sched }
        simp only at hx ⊢
        by_cases hy : st.sys.k.lost < (report Model.Ker.sys (st.sys.k.queue.take n) st.dm
            { k := { st.sys.k with queue := st.sys.k.queue.drop n }, sched := sched }).2.2.k.lost
        · exact .inl (hg.noted hy)
        · rcases h.noted (Nat.lt_of_lt_of_le hx (Nat.not_lt.1 hy)) with hz | hz
          · rw [← List.take_append_drop n st.sys.k.queue] at hz
            rcases List.mem_append.1 hz with hz | hz
            · exact .inr (List.mem_append_right _ (report_overflow _ sys_sound _ _ (Nat.le_refl _) _ _ h.sound hz))
            · exact .inl (hg.queue _ hz)
          · exact .inr (List.mem_append_left _ hz)
    · rw [if_neg hf]
      exact ⟨st, L0, rfl, h⟩

theorem hinv_execs : ∀ (ss : List Step) {st : St World} {L0 : List Change}, HInv l m L0 st →
    (l = true → ss.all (Ker.allOps Ker.local) = true) → (m = true → ss.all (Ker.allOps Ker.keepsDirs) = true) →
    ∃ st' L0', execs st ss = .ok st' ∧ HInv l m L0' st' := by
  intro ss
  induction ss with
  | nil => intro st L0 h _ _; exact ⟨st, L0, rfl, h⟩
  | cons s ss ih =>
    intro st L0 h hl hd
    simp only [List.all_cons, Bool.and_eq_true] at hl hd
    obtain ⟨st1, L1, h1, h2⟩ := hinv_exec h s (fun hx => (hl hx).1) (fun hm => (hd hm).1)
    obtain ⟨st2, L2, h3, h4⟩ := ih h2 (fun hx => (hl hx).2) (fun hm => (hd hm).2)
    exact ⟨st2, L2, by simp only [execs, h1, Outcome.bind_ok, h3], h4⟩

theorem hinv_openLim (limit : Option Nat) (dirs marks : List Str) (sched : List (List Op × Bool)) (hl : l = true → Ker.allSched Ker.local sched = true)
    (hd : m = true → Ker.allSched Ker.keepsDirs sched = true) :
    HInv l m [] (openedLim limit dirs marks sched) ∧ (openedLim limit dirs marks sched).sys.k.limit = limit := by
  have key : ∀ (ds : List Str) (st : St World), WInv l m [] [] st.dm st.sys → SoundTable st.dm → fileEvents st.out = [] →
      WInv l m [] [] (ds.foldl (fun st d => (doMark Model.Ker.sys d st).1) st).dm (ds.foldl (fun st d => (doMark Model.Ker.sys d st).1) st).sys ∧
      SoundTable (ds.foldl (fun st d => (doMark Model.Ker.sys d st).1) st).dm ∧
      fileEvents (ds.foldl (fun st d => (doMark Model.Ker.sys d st).1) st).out = [] ∧
      Grow st.sys.k (ds.foldl (fun st d => (doMark Model.Ker.sys d st).1) st).sys.k := by
    intro ds
    induction ds with
    | nil => intro st h1 h2 h3; exact ⟨h1, h2, h3, .rfl⟩
    | cons d ds ih =>
      intro st h1 h2 h3
      rw [List.foldl_cons]
      have hg : Grow st.sys.k (doMark Model.Ker.sys d st).1.sys.k := by
        rw [doMark_eq]; exact grow_mark d st.dm st.sys
      have := ih (doMark Model.Ker.sys d st).1 ?_ ?_ ?_
      · exact ⟨this.1, this.2.1, this.2.2.1, hg.trans this.2.2.2⟩
      · rw [doMark_eq]; exact winv_mark h1 d
      · rw [doMark_eq]; exact markSpec_sound _ sys_sound d _ _ h2
      · rw [doMark_eq]
        simp only
        rw [file_append, h3]
        rcases mark_warn Model.Ker.sys d st.dm st.sys with h | h <;> rw [h] <;> rfl
  have h0 : WInv l m [] [] ([] : Table) ({ k := { dirs := dirs, limit := limit }, sched := sched } : World) := by
    refine ⟨?_, ?_, by simp, hl, hd⟩
    · refine ⟨by simp, ?_, ?_, ?_, ?_, ?_, ?_, ?_, ?_, ?_, by simp, by simp, ?_, ⟨[], rfl, .nil⟩, ?_, ?_, fun _ => rfl⟩ <;>
        simp
    · intro _; exact ⟨by simp, by simp⟩
  obtain ⟨h1, h2, h3, h4⟩ := key marks { dm := [], sys := { k := { dirs := dirs, limit := limit }, sched := sched } } h0 (fun e he => by cases he) rfl
  refine ⟨⟨h1.inv, h1.still, h1.keys, h2, ?_, ?_⟩, h4.limit⟩
  · show TellsL l (·.known) [] (fileEvents (makeDm Model.Ker.sys marks _).1.out)
    have : fileEvents (makeDm Model.Ker.sys marks { dm := [], sys := { k := { dirs := dirs, limit := limit }, sched := sched } }).1.out = [] := h3
    rw [this]; exact .nil
  · intro hx; exact .inl (h4.noted hx)

theorem hinv_open (dirs marks : List Str) (sched : List (List Op × Bool)) (hl : l = true → Ker.allSched Ker.local sched = true)
    (hd : m = true → Ker.allSched Ker.keepsDirs sched = true) :
    HInv l m [] (opened dirs marks sched) := (hinv_openLim none dirs marks sched hl hd).1

/-- The limit does not change. -/
theorem limit_exec {st st' : St World} (s : Step) (L0) (h : HInv l m L0 st) (hs : exec st s = .ok st') :
    st'.sys.k.limit = st.sys.k.limit := by
  cases s with
  | op o => cases hs; exact (grow_apply st.sys.k o).limit
  | read n sched =>
    simp only [exec] at hs
    by_cases hf : (batch (st.sys.k.queue.take n)).length ≤ bufLen
    · rw [if_pos hf] at hs
      have hb : Batch (st.sys.k.queue.take n) :=
        ⟨fun r hr => h.inv.wf r (List.mem_of_mem_take hr), hf, linked_ordered (h.inv.linked.sublist (List.take_sublist _ _))⟩
      rw [recv_eq Model.Ker.sys sys_sound (st.sys.k.queue.take n) hb
        { st with sys := { k := { st.sys.k with queue := st.sys.k.queue.drop n }, sched := sched } } h.sound] at hs
      simp only [Outcome.bind_ok] at hs
      rw [if_pos (by decide)] at hs
      cases hs
      exact (grow_report (st.sys.k.queue.take n) st.dm
          { k := { st.sys.k with queue := st.sys.k.queue.drop n }, sched := sched }).limit
    · rw [if_neg hf] at hs; cases hs; rfl

/-- Forget that no directory moved. -/
theorem HInv.forget {st : St World} {L0 : List Change} (h : HInv l m L0 st) : HInv l false L0 st :=
  ⟨h.inv, fun h => (by cases h), h.keys, h.sound, h.told, h.noted⟩

theorem Tells.congr {path path' : Change → Str} {L es} (h : Tells path L es) (hp : ∀ c ∈ L, path c = path' c) :
    Tells path' L es := by
  induction h with
  | nil => exact .nil
  | one c _ ih =>
    rw [hp c (by simp)]; exact .one c (ih (fun x hx => hp x (by simp [hx])))
  | both a b id ha hb _ ih =>
    rw [hp a (by simp), hp b (by simp)]; exact .both a b id ha hb (ih (fun x hx => hp x (by simp [hx])))
  | again c c' h1 h2 h3 h4 h5 _ ih =>
    exact .again c c' h1 h2 h3 h4 (by rw [← hp c (by simp), ← hp c' (by simp), h5]) (ih (fun x hx => hp x (by simp at hx ⊢; exact .inr hx)))

theorem limit_execs : ∀ (ss : List Step) {st st' : St World} {L0 : List Change}, HInv false false L0 st →
    execs st ss = .ok st' → st'.sys.k.limit = st.sys.k.limit := by
  intro ss
  induction ss with
  | nil => intro st st' L0 _ h; cases h; rfl
  | cons s ss ih =>
    intro st st' L0 h he
    obtain ⟨st1, L1, h1, h2⟩ := hinv_exec h s (fun h => by cases h) (fun h => by cases h)
    simp only [execs, h1, Outcome.bind_ok] at he
    rw [ih h2 he, limit_exec s L0 h h1]

/-- Without a limit nothing is lost. -/
theorem lost_zero (dirs marks : List Str) (sched : List (List Op × Bool)) (ss : List Step) {st : St World}
    (hst : execs (opened dirs marks sched) ss = .ok st) : st.sys.k.limit = none := by
  have h := hinv_openLim (l := false) (m := false) none dirs marks sched (fun h => by cases h) (fun h => by cases h)
  rw [limit_execs ss h.1 hst]; exact h.2

end Verif.Lemmas.Ker
