import Verif.Props.StarveFWhole
/-!
# No change waits for ever with fanotify, whenever directories are removed: C163, C166
-/

namespace Verif.Props
open Verif Verif.Model Verif.Model.Ad Verif.Model.FKer Verif.Spec Verif.Spec.FKer Verif.Spec.WholeF Verif.Spec.Starve Verif.Lemmas.FKer Verif.Lemmas.AdF
open Verif.Lemmas.Ad (bind_ok_inv)

variable {rf : Bool}

/-- The changes `S` are mentioned, or missed, or shown by the first `o` pending records. -/
def FFrontN (S : List Change) (missed : Change → Prop) (o : Nat) (st : Fa.St World) : Prop :=
  ∃ old, old <+: keysOf st.sys.k.queue ∧ old.length ≤ o ∧
    ∀ c ∈ S, c ∈ st.sys.k.log ∧
      ((∃ e ∈ fileEvents (st.out.map Prod.fst), NearMentions st.sys.k.past c e) ∨ missed c ∨ (c.handle, c.name) ∈ old)

private theorem ffrontN_read {S : List Change} {any missed : Change → Prop} {o : Nat} {st st1 : Fa.St World} (hi : NInv st any) (h : FFrontN S missed o st)
    (n : Nat) (sched : List (List Do × Bool)) (hn : NoSwap (st.sys.k.queue.take n)) (hr : Roomy (st.sys.k.queue.take n))
    (he : exec rf st (.read n sched) = .ok st1) :
    FFrontN S (fun c => missed c ∨ (c ∈ st.sys.k.log ∧ (fbatch (st.sys.k.queue.take n)).length ≤ 4096 ∧
      ∃ r, Skipped st1.sys.k (st.sys.k.queue.take n) r ∧ r.handle = c.handle ∧ r.name = c.name)) (o - if fReturns st (.read n sched) then 1 else 0) st1 := by
  obtain ⟨old, h1, h2, h3⟩ := h
  simp only [exec] at he
  by_cases hfit : (fbatch (st.sys.k.queue.take n)).length ≤ Model.Fa.bufLen
  · rw [if_pos hfit] at he
    have hcov : ∀ r ∈ st.sys.k.queue.take n, Cov st.sys.k.log st.sys.k.past r := fun r hr => hi.k.queue r (List.mem_of_mem_take hr)
    have hkept : Kept false st.sys.k.log { st.sys.k with queue := st.sys.k.queue.drop n } := fun c hc => .inl hc
    have hw : WFree false st.sys.k.log { st.sys with k := { st.sys.k with queue := st.sys.k.queue.drop n }, sched := sched } :=
      WFree.mk' (take_kinv hi.k n) hkept (mild_false sched)
    obtain ⟨out, w', res, told, lost, e, hkr, iw, g, hsp, t, hst⟩ := run_free (rf := rf) _ _ (Nat.le_refl _) hw hcov
    have hb : FBatch (st.sys.k.queue.take n) := ⟨fun r hr => (hcov r hr).wf, hfit⟩
    have hrun := Verif.Lemmas.Fa.recv_run (sys rf) (sound rf) _ hb hr hn
      { st with sys := { st.sys with k := { st.sys.k with queue := st.sys.k.queue.drop n }, sched := sched } } hi.buf
    obtain ⟨_, _, _, hl⟩ := Verif.Lemmas.Fa.recv_drawn (sys rf) (sound rf) _ hb _ _ _ hrun
    simp only [e] at hrun hl
    simp only [hrun, Outcome.bind_ok] at he
    rw [if_pos hkr] at he
    cases he
    have ha := added_later hl
    refine ⟨old.drop n, ?_, ?_, ?_⟩
    · refine List.IsPrefix.trans ?_ ha
      unfold keysOf at h1 ⊢
      simp only [List.map_drop]
      obtain ⟨rest, hrest⟩ := h1
      rw [← hrest, List.drop_append]
      exact List.prefix_append _ _
    · rw [List.length_drop]
      by_cases hx : fReturns st (.read n sched) = true
      · rw [if_pos hx]
        simp only [fReturns, Bool.and_eq_true, decide_eq_true_eq] at hx; omega
      · rw [if_neg hx]; omega
    · intro c hc
      refine ⟨g.log.subset (h3 c hc).1, ?_⟩
      simp only [List.map_append, fileEvents_append]
      rcases (h3 c hc).2 with ⟨ev, hev, hm⟩ | hm | h4
      · exact .inl ⟨ev, List.mem_append_left _ hev, NearMentions.mono g.past hm⟩
      · exact .inr (.inl (.inl hm))
      · rw [← List.take_append_drop n old] at h4
        rcases List.mem_append.1 h4 with h4 | h4
        · have : (c.handle, c.name) ∈ keysOf (st.sys.k.queue.take n) := by
            unfold keysOf at h1 ⊢
            rw [List.map_take]
            obtain ⟨rest, hrest⟩ := h1
            rw [← hrest, List.take_append]
            exact List.mem_append_left _ h4
          obtain ⟨r, hr, hk⟩ := List.mem_map.1 this
          injection hk with hk1 hk2
          rw [hsp] at hr
          rcases List.mem_append.1 hr with hr | hr
          · obtain ⟨ev, hev, hm⟩ := rnear_mentions t hr hk1 hk2
            exact .inl ⟨ev, List.mem_append_right _ hev, hm⟩
          · refine .inr (.inl (.inr ⟨(h3 c hc).1, hfit, r, ?_, hk1, hk2⟩))
            rw [hsp]
            rcases hst with hst | hst
            · rw [hst] at hr; cases hr
            · exact skipped_of_stale (fun g hg => hg) hst r hr
        · exact .inr (.inr h4)
  · rw [if_neg hfit] at he; cases he
    have : fReturns st (.read n sched) = false := by
      have hf' : ¬ (fbatch (st.sys.k.queue.take n)).length ≤ 4096 := hfit
      simp [fReturns, hf']
    rw [this]
    exact ⟨old, h1, h2, fun c hc => ⟨(h3 c hc).1, (h3 c hc).2.imp id (Or.imp .inl id)⟩⟩

theorem ffrontN_execs {S : List Change} : ∀ (ss : List Step) {any missed : Change → Prop} {o : Nat} {st st1 : Fa.St World}, NInv st any →
    FFrontN S missed o st → Fine rf st ss → execs rf st ss = .ok st1 →
    FFrontN S (fun c => missed c ∨ MissedLate rf st ss c) (o - fReads rf st ss) st1 := by
  intro ss
  induction ss with
  | nil =>
    intro any missed o st st1 _ h _ he; cases he
    obtain ⟨old, h1, h2, h3⟩ := h
    exact ⟨old, h1, h2, fun c hc => ⟨(h3 c hc).1, (h3 c hc).2.imp id (Or.imp .inl id)⟩⟩
  | cons s ss ih =>
    intro any missed o st st1 hi h hf he
    cases s with
    | op x =>
      rw [execs] at he
      have g : FFrontN S missed o { st with sys := { st.sys with k := doIt st.sys.k x } } := by
        obtain ⟨old, h1, h2, h3⟩ := h
        refine ⟨old, List.IsPrefix.trans h1 (added_doIt _ x), h2, fun c hc => ⟨(doIt_kinv hi.k x).2.log.subset (h3 c hc).1, ?_⟩⟩
        rcases (h3 c hc).2 with ⟨e, he, hm⟩ | h3
        · exact .inl ⟨e, he, NearMentions.mono (doIt_kinv hi.k x).2.past hm⟩
        · exact .inr h3
      obtain ⟨old, h1, h2, h3⟩ := ih (op_ninv hi x) g (hf _ rfl) he
      refine ⟨old, h1, ?_, fun c hc => ⟨(h3 c hc).1, (h3 c hc).2.imp id (Or.imp (Or.imp id fun hx => ⟨_, rfl, hx⟩) id)⟩⟩
      simp only [fReads, exec]
      simpa [fReturns] using h2
    | read n sched =>
      obtain ⟨st2, h1, h2⟩ := read_ninv (rf := rf) hi n sched hf.1 hf.2.1
      rw [execs, h1] at he
      have g := ffrontN_read (rf := rf) hi h n sched hf.1 hf.2.1 h1
      obtain ⟨old, g1, g2, g3⟩ := ih h2 g (hf.2.2 _ h1) he
      refine ⟨old, g1, ?_, fun c hc => ⟨(g3 c hc).1, (g3 c hc).2.imp id (Or.imp ?_ id)⟩⟩
      · simp only [fReads, h1]
        rw [← Nat.sub_sub]; exact g2
      · rintro ((hx | hx) | hx)
        · exact .inl hx
        · exact .inr ⟨_, h1, .inl hx⟩
        · exact .inr ⟨_, h1, .inr hx⟩

/-- Without any hypothesis on when directories are removed: once `read()` has returned as often as there were records pending, a
change that is not mentioned was missed, in the way of `C85_always_partial`. -/
theorem C163_always_partial (rf : Bool) (dirs : List (Handle × Str)) (marks : List Str) (sched : List (List Do × Bool)) (ss more : List Step) (hg : GoodTree dirs)
    (hf : Fine rf (opened rf dirs marks sched) ss) (st st1 : Fa.St World)
    (hst : execs rf (opened rf dirs marks sched) ss = .ok st) (hf1 : Fine rf st more)
    (hst1 : execs rf st more = .ok st1) (hr : st.sys.k.queue.length ≤ fReads rf st more) :
    ∀ c ∈ st.sys.k.log, (∃ e ∈ fileEvents (st1.out.map Prod.fst), NearMentions st1.sys.k.past c e) ∨
      MissedLate rf (opened rf dirs marks sched) ss c ∨ MissedLate rf st more c := by
  obtain ⟨st', h1, h2⟩ := execs_ninv ss (opened_ninv hg marks sched) hf
  rw [hst] at h1; injection h1 with h1; subst h1
  have g : FFrontN st.sys.k.log (fun c => False ∨ MissedLate rf (opened rf dirs marks sched) ss c) st.sys.k.queue.length st := by
    refine ⟨keysOf st.sys.k.queue, List.prefix_rfl, by simp [keysOf], fun c hc => ⟨hc, ?_⟩⟩
    rcases h2.all c hc with ⟨r, hr, g1, g2⟩ | h | h
    · exact .inr (.inr (List.mem_map.2 ⟨r, hr, by rw [g1, g2]⟩))
    · exact .inl h
    · exact .inr (.inl h)
  obtain ⟨old, g1, g2, g3⟩ := ffrontN_execs more h2 g hf1 hst1
  have : old = [] := List.length_eq_zero_iff.1 (by omega)
  subst this
  intro c hc
  rcases (g3 c hc).2 with h | ((h | h) | h) | h
  · exact .inl h
  · cases h
  · exact .inr (.inl h)
  · exact .inr (.inr h)
  · cases h


private def moreY : List Step :=
  [.read 1 [([], false), ([⟨.rmdir b!"/r" b!"d", {}⟩], false)], .op ⟨.create b!"/r" b!"k", {}⟩, .read 1 [], .read 1 []]

/-- The directory goes during the first read, whose event is told with the mark of a removed directory; the other change in it is missed. -/
example :
    let dirs : List (Handle × Str) := [([1], b!"/r"), ([2], b!"/r/d")]
    let ss : List Step := [.op ⟨.unlink b!"/r/d" b!"f", {}⟩, .op ⟨.unlink b!"/r/d" b!"h", {}⟩, .op ⟨.create b!"/r" b!"g", {}⟩]
    let more : List Step := [.read 1 [([], false), ([⟨.rmdir b!"/r" b!"d", {}⟩], false)], .op ⟨.create b!"/r" b!"k", {}⟩, .read 1 [], .read 1 []]
    GoodTree dirs ∧ ∃ st, execs true (opened true dirs [b!"/r", b!"/r/d"] []) ss = .ok st ∧ Fine true st more ∧ st.sys.k.queue.length = fReads true st more ∧
      MissedLate true st more ⟨[2], b!"/r/d", b!"h", .delete, false⟩ ∧
      (¬ MissedLate true st more ⟨[1], b!"/r", b!"g", .create, false⟩) ∧ ∃ st1, execs true st more = .ok st1 ∧
      (fileEvents (st1.out.map Prod.fst)).map (·.path) = [b!"/r/d (deleted)/f", b!"/r/g"] := by
  refine ⟨⟨by decide, by decide, by decide, by decide⟩, ?_⟩
  obtain ⟨st, h1, h2, h3, h4, h6, h7⟩ : ∃ st, execs true (opened true [([1], b!"/r"), ([2], b!"/r/d")] [b!"/r", b!"/r/d"] [])
      [.op ⟨.unlink b!"/r/d" b!"f", {}⟩, .op ⟨.unlink b!"/r/d" b!"h", {}⟩, .op ⟨.create b!"/r" b!"g", {}⟩] = .ok st ∧
      fineB true st moreY = true ∧ st.sys.k.queue.length = fReads true st moreY ∧
      missedLateB true st moreY ⟨[2], b!"/r/d", b!"h", .delete, false⟩ = true ∧
      missedLateB true st moreY ⟨[1], b!"/r", b!"g", .create, false⟩ = false ∧
      (match execs true st moreY with | .ok st1 => decide ((fileEvents (st1.out.map Prod.fst)).map (·.path) = [b!"/r/d (deleted)/f", b!"/r/g"]) | .ub _ => false) = true :=
    exists_ok (by decide +kernel)
  refine ⟨st, h1, fineB_ok _ h2, h3, (missedLateB_iff _).1 h4, fun h => Bool.false_ne_true (h6.symm.trans ((missedLateB_iff _).2 h)), ?_⟩
  split at h7
  case h_2 => cases h7
  rename_i st1 hx
  exact ⟨st1, hx, of_decide_eq_true h7⟩

private theorem allDo_mild (a : HStep) : allDo (mild false) a = true := by
  cases a <;> first | rfl | exact mild_false _

private theorem all_mild (hs : List HStep) : hs.all (allDo (mild false)) = true := List.all_eq_true.2 fun a _ => allDo_mild a
private theorem fhrun_append {cfg : Life.Cfg} {E : Env World} : ∀ (hs more : List HStep) {c c1 c2 : CS World},
    hrun cfg E c hs = .ok (some c1) → hrun cfg E c1 more = .ok (some c2) → hrun cfg E c (hs ++ more) = .ok (some c2) := by
  intro hs
  induction hs with
  | nil => intro more c c1 c2 h1 h2; cases h1; exact h2
  | cons a as ih =>
    intro more c c1 c2 h1 h2
    rw [hrun] at h1
    obtain ⟨o, h3, h4⟩ := bind_ok_inv h1
    cases o with
    | none => cases h4
    | some c3 =>
      rw [List.cons_append, hrun, h3]
      exact ih more h4 h2

private def Read1 : K → List FRec → List (List Do × Bool) → Prop := fun _ rs _ => NoSwap rs ∧ Roomy rs

private theorem read_recv_any {missed : Change → Prop} {st : Fa.St World} (h : NInv st missed) (n : Nat) (sched : List (List Do × Bool))
    (hf : (bytesOf st.sys n).length ≤ 4096) (hR : Read1 st.sys.k (st.sys.k.queue.take n) sched) :
    ∃ st' r missed', Model.Fa.doEvRecv (Model.FKer.sys rf) (.data (bytesOf st.sys n)) { st with sys := taken st.sys n sched } = .ok (st', r) ∧
      exec rf st (.read n sched) = .ok st' ∧ NInv st' missed' := by
  obtain ⟨st', h1, h2⟩ := read_ninv (rf := rf) h n sched hR.1 hR.2
  have h1' := h1
  simp only [exec] at h1
  rw [if_pos (show (fbatch (st.sys.k.queue.take n)).length ≤ Model.Fa.bufLen from hf)] at h1
  obtain ⟨⟨st1, r⟩, h3, h4⟩ := bind_ok_inv h1
  simp only at h4
  split at h4
  · simp only [Outcome.pure_eq, Outcome.ok.injEq] at h4
    subst h4
    exact ⟨st1, r, _, h3, h1', h2⟩
  · cases h4

private theorem ninv_of_tinv {st : Fa.St World} {seen : List Change} (h : TInv false st seen) : ∃ missed, NInv st missed :=
  ⟨fun _ => True, h.k, h.buf, fun _ _ => .inr (.inr trivial)⟩

private theorem keeps_ninv (rf : Bool) : Keeps rf (mild false) Read1 true
    (fun w => KInv w.k ∧ Kept false [] w.k) (fun st => ∃ missed, NInv st missed) where
  opW := (keeps_tinv rf false).opW
  opP := fun st x ⟨_, h⟩ _ => ⟨_, op_ninv h x⟩
  openP := fun w marks sched h hs => by
    obtain ⟨seen, h1⟩ := (keeps_tinv rf false).openP w marks sched h hs
    exact ninv_of_tinv h1
  recvP := by
    intro st n sched st' r ⟨missed, h⟩ hs hf hR h1
    obtain ⟨st1, r1, m1, h2, _, h3⟩ := read_recv_any (rf := rf) h n sched hf hR
    rw [h1] at h2
    cases h2
    exact ⟨m1, h3⟩
  safe := by
    intro _ st n sched ⟨missed, h⟩ hs hf hR
    obtain ⟨st1, r1, m1, h2, _, h3⟩ := read_recv_any (rf := rf) h n sched hf hR
    exact ⟨_, h2⟩

private theorem read1_of {cfg : Life.Cfg} {E : Env World} : ∀ {hs : List HStep} {c : CS World}, FineReads cfg E c hs →
    ReadsOk Read1 cfg E c hs := by
  intro hs
  induction hs with
  | nil => intro c _; trivial
  | cons a as ih =>
    intro c hf
    refine ⟨?_, fun c' hc => ih (hf.2 c' hc)⟩
    have := hf.1
    cases a with
    | wakeRead n sched => exact this
    | wakeBoth f n sched => exact this
    | _ => trivial

private theorem wake_exec {cfg : Life.Cfg} {E : Env World} (hE : E.fa = FKer.sys rf) {missed : Change → Prop} {c c' : CS World} {st : Fa.St World}
    (hi : NInv st missed) (hb : c.back = .fa st) (stop : Option Bool) (n : Nat) (sched : List (List Do × Bool))
    (hR : Read1 st.sys.k (st.sys.k.queue.take n) sched) (hs : wakeWith cfg E c stop n sched = .ok (some c')) :
    ∃ st' missed', c'.back = .fa st' ∧ exec rf st (.read n sched) = .ok st' ∧ NInv st' missed' ∧ fReturns st (.read n sched) = decide (0 < n) := by
  unfold wakeWith at hs
  split at hs
  · rename_i hf
    simp only [hb, Back.world] at hf
    obtain ⟨st', r, m', h1, h2, h3⟩ := read_recv_any (rf := rf) hi n sched hf hR
    have hr : recv E (.fa { st with sys := taken st.sys n sched }) (.data (bytesOf st.sys n)) =
        .ok (.fa st', (st'.out.drop st.out.length).map (·.1), r) := by
      simp only [recv, hE, h1]; rfl
    have hall : ∃ items, recvAll E (.fa { st with sys := taken st.sys n sched }) (Whole.entries stop (bytesOf st.sys n)) = .ok (.fa st', items) := by
      cases stop with
      | none => exact ⟨_, by simp only [Whole.entries, recvAll, hr]; rfl⟩
      | some b => cases b <;> exact ⟨_, by simp only [Whole.entries, recvAll, hr]; rfl⟩
    obtain ⟨items, hall⟩ := hall
    refine ⟨st', m', ?_, h2, h3, ?_⟩
    · simp only [cstep, hb, Back.setWorld, Back.world, hall] at hs
      split at hs
      · simp only [Outcome.bind_ok, Outcome.pure_eq, Outcome.ok.injEq, Option.map_eq_some_iff] at hs
        obtain ⟨l, _, rfl⟩ := hs
        rfl
      · cases hs
    · have : decide ((fbatch (st.sys.k.queue.take n)).length ≤ 4096) = true := decide_eq_true hf
      simp only [fReturns, this, Bool.and_true]
  · cases hs

/-- What the back end does in a history is what it does with the operations and the reads alone. -/
private theorem hrun_execs {cfg : Life.Cfg} {E : Env World} (hE : E.fa = FKer.sys rf) : ∀ (hs : List HStep) {c c' : CS World} {missed : Change → Prop}
    {st : Fa.St World}, NInv st missed → c.back = .fa st → LateF c.life.w → ReadsOk Read1 cfg E c hs → hrun cfg E c hs = .ok (some c') →
    ∃ st', c'.back = .fa st' ∧ execs rf st (fSteps hs) = .ok st' ∧ Fine rf st (fSteps hs) ∧
      fReads rf st (fSteps hs) = fWakes hs := by
  intro hs
  induction hs with
  | nil => intro c c' missed st _ hb _ _ he; cases he; exact ⟨st, hb, rfl, trivial, rfl⟩
  | cons a as ih =>
    intro c c' missed st hi hb hl hf he
    rw [hrun] at he
    obtain ⟨x, h1, h2⟩ := bind_ok_inv he
    cases x with
    | none => cases h2
    | some c1 =>
      have hf1 := hf.2 c1 h1
      have hl1 : (∃ st1, c1.back = .fa st1) → LateF c1.life.w := by
        rintro ⟨st1, g1⟩
        have := (hstep_fst hE (keeps_ninv rf) a (c := c) (by simp only [FSt, hb]; exact ⟨⟨_, hi⟩, hl⟩) (allDo_mild a) hf.1).2 c1 h1
        simp only [FSt, g1] at this; exact this.2
      have quiet : c1.back = .fa st → fSteps (a :: as) = fSteps as → fWakes (a :: as) = fWakes as →
          ∃ st', c'.back = .fa st' ∧ execs rf st (fSteps (a :: as)) = .ok st' ∧
            Fine rf st (fSteps (a :: as)) ∧ fReads rf st (fSteps (a :: as)) = fWakes (a :: as) := by
        intro hb1 e1 e2
        rw [e1, e2]
        exact ih hi hb1 (hl1 ⟨st, hb1⟩) hf1 h2
      have woken : ∀ stop n sched, fSteps (a :: as) = .read n sched :: fSteps as → fWakes (a :: as) = (if decide (0 < n) then 1 else 0) + fWakes as →
          Read1 st.sys.k (st.sys.k.queue.take n) sched → wakeWith cfg E c stop n sched = .ok (some c1) →
          ∃ st', c'.back = .fa st' ∧ execs rf st (fSteps (a :: as)) = .ok st' ∧
            Fine rf st (fSteps (a :: as)) ∧ fReads rf st (fSteps (a :: as)) = fWakes (a :: as) := by
        intro stop n sched e1 e2 hR hs
        obtain ⟨st1, m1, g1, g2, g3, g4⟩ := wake_exec hE hi hb stop n sched hR hs
        obtain ⟨st', k1, k2, k4, k5⟩ := ih g3 g1 (hl1 ⟨st1, g1⟩) hf1 h2
        rw [e1, e2]
        refine ⟨st', k1, by rw [execs, g2]; exact k2, ⟨hR.1, hR.2, ?_⟩, ?_⟩
        · intro st2 hst2; rw [g2] at hst2; injection hst2 with hst2; subst hst2; exact k4
        · rw [fReads, g4, g2]; simp only [k5]
      cases a with
      | thread a =>
        refine quiet ?_ rfl (by simp [fWakes, fWakesUp])
        simp only [hstep, cstep] at h1
        split at h1
        · injection h1 with hs
          rw [Option.map_eq_some_iff] at hs
          obtain ⟨l, _, rfl⟩ := hs
          exact hb
        · cases h1
      | openFanotify a sched =>
        simp only [hstep] at h1
        split at h1
        · simp only [cstep] at h1
          split at h1
          · cases h1
          · split at h1
            · rename_i hw; simp only [hw] at hl; cases hl
            · rename_i hw; simp only [hw] at hl; cases hl
            · cases h1
        · cases h1
      | op x =>
        simp only [hstep, cstep, Outcome.ok.injEq, Option.some.injEq] at h1
        subst h1
        have hb1 : (Back.fa { st with sys := { st.sys with k := doIt st.sys.k x } } : Back World) =
            c.back.setWorld { c.back.world with k := doIt c.back.world.k x } := by simp only [hb, Back.setWorld, Back.world]
        obtain ⟨st', k1, k2, k4, k5⟩ := ih (op_ninv hi x) hb1.symm (hl1 ⟨_, hb1.symm⟩) hf1 h2
        refine ⟨st', k1, by rw [fSteps, execs]; exact k2, ?_, ?_⟩
        · rw [fSteps]; intro st2 hst2; cases hst2; exact k4
        · rw [fSteps, fReads]; simp [exec, k5, fReturns, fWakes, fWakesUp]
      | wakeStop =>
        refine quiet ?_ rfl (by simp [fWakes, fWakesUp])
        simp only [hstep, cstep] at h1
        split at h1
        · simp only [recvAll, Outcome.bind_ok, Outcome.pure_eq, Outcome.ok.injEq, Option.map_eq_some_iff] at h1
          obtain ⟨l, _, rfl⟩ := h1
          exact hb
        · cases h1
      | wakeRead n sched => exact woken none n sched rfl rfl (by simpa only [readOk, hb, Back.world] using hf.1) h1
      | wakeBoth f n sched => exact woken (some f) n sched rfl rfl (by simpa only [readOk, hb, Back.world] using hf.1) h1

/-- C166 (partial: without any hypothesis on when directories are removed, no read being like those excluded by `FineReads`). Once the watch
has been woken up to read as often as there were records pending, and waits again or has finished, the callback has been told an event
about each change that was pending, or the change was missed: at one of the reads its record was about a directory that had gone at the end of it, or behind such
a record, or the old name of a rename into such a directory. -/
theorem C166_always_partial (rf : Bool) (cfg : Life.Cfg) (E : Env World) (hE : E.fa = FKer.sys rf) (dirs : List (Handle × Str))
    (hs more : List HStep) (c c1 : CS World) (st : Fa.St World) (hg : GoodTree dirs)
    (hf : FineReads cfg E (start cfg dirs) hs) (hf1 : FineReads cfg E c more) (h : hrun cfg E (start cfg dirs) hs = .ok (some c)) (hb : c.back = .fa st)
    (h1 : hrun cfg E c more = .ok (some c1)) (hr : st.sys.k.queue.length ≤ fWakes more)
    (hw : (∃ second, c1.life.w = .aWait second) ∨ c1.life.w = .finished) :
    ∀ x ∈ st.sys.k.log, (∃ r ∈ st.sys.k.queue, r.handle = x.handle ∧ r.name = x.name) →
      (∃ e ∈ fileEvents (callbacks c1.life.log), NearMentions c1.back.world.k.past x e) ∨ MissedLate rf st (fSteps more) x := by
  have hst := (hrun_fst (cfg := cfg) hE (keeps_ninv rf) hs (start cfg dirs)
    ⟨⟨kinv_open hg, fun c hc => by cases hc⟩, trivial⟩ (all_mild hs) (read1_of hf)).2 c h
  simp only [FSt, hb] at hst
  obtain ⟨⟨any, hi⟩, hl⟩ := hst
  obtain ⟨st1, e1, e2, e4, e5⟩ := hrun_execs hE more hi hb hl (read1_of hf1) h1
  intro x hx hq
  have g : FFrontN [x] (fun _ => False) st.sys.k.queue.length st := by
    refine ⟨st.sys.k.queue.map (fun r => (r.handle, r.name)), List.prefix_rfl, by simp, fun c hc => ?_⟩
    rw [List.mem_singleton] at hc; subst hc
    obtain ⟨r, hr, g1, g2⟩ := hq
    exact ⟨hx, .inr (.inr (List.mem_map.2 ⟨r, hr, by rw [g1, g2]⟩))⟩
  obtain ⟨old, g1, g2, g3⟩ := ffrontN_execs (fSteps more) hi g e4 e2
  have : old = [] := List.length_eq_zero_iff.1 (by omega)
  subst this
  rw [fsettled (freach (fhrun_append hs more h h1)) hw]
  simp only [e1, handed, Back.out, Back.world]
  rcases (g3 x (by simp)).2 with h | (h | h) | h
  · exact .inl h
  · cases h
  · exact .inr h
  · cases h

/-- C166 (partial: no read is like those excluded by `FineReads`): such a wake-up is always possible: whenever the watch waits, as many records can be read as fit into the buffer,
whatever other processes do during the read. (With the stop signal in it, exactly if that is readable.) -/
theorem C166_wakes_up_partial (rf : Bool) (cfg : Life.Cfg) (E : Env World) (hE : E.fa = FKer.sys rf) (dirs : List (Handle × Str))
    (hs : List HStep) (c : CS World) (hg : GoodTree dirs)
    (hf : FineReads cfg E (start cfg dirs) hs) (h : hrun cfg E (start cfg dirs) hs = .ok (some c)) (hw : ∃ second, c.life.w = .aWait second)
    (n : Nat) (hn : (fbatch (c.back.world.k.queue.take n)).length ≤ 4096)
    (hR : NoSwap (c.back.world.k.queue.take n) ∧ Roomy (c.back.world.k.queue.take n))
    (during : List (List Do × Bool)) :
    ∃ a c1, (a = .wakeRead n during ∨ a = .wakeBoth true n during) ∧ hstep cfg E c a = .ok (some c1) := by
  have hst := (hrun_fst (cfg := cfg) hE (keeps_ninv rf) hs (start cfg dirs)
    ⟨⟨kinv_open hg, fun c hc => by cases hc⟩, trivial⟩ (all_mild hs) (read1_of hf)).2 c h
  obtain ⟨sec, hw⟩ := hw
  cases hb : c.back with
  | none w => simp only [FSt, hb, hw] at hst; cases hst.2
  | inn st => simp only [FSt, hb] at hst
  | fa st =>
    simp only [FSt, hb] at hst
    obtain ⟨⟨seen, hi⟩, hl⟩ := hst
    simp only [hb, Back.world] at hn hR
    obtain ⟨st', r, seen', h1, h2, h3⟩ := read_recv_any (rf := rf) hi n during hn hR
    have hr : recv E (.fa { st with sys := taken st.sys n during }) (.data (bytesOf st.sys n)) =
        .ok (.fa st', (st'.out.drop st.out.length).map (·.1), r) := by
      simp only [recv, hE, h1]; rfl
    obtain ⟨_, hm, hres, _⟩ := Lemmas.Ad.recv_ok E _ _ _ _ _ (fun w h => by cases h) hr
    by_cases hc : c.life.sb.count > 0
    · refine ⟨.wakeBoth true n during, ⟨{ c.life with w := .aItems sec .pending [.il, .ke ((st'.out.drop st.out.length).map (·.1)) r] }, .fa st'⟩,
        .inr rfl, ?_⟩
      simp only [hstep, wakeWith, hb, Back.world]
      rw [if_pos (show (bytesOf st.sys n).length ≤ 4096 from hn)]
      simp only [cstep, hw, Back.setWorld, Whole.entries, recvAll, hr, Outcome.bind_ok, Outcome.pure_eq, Life.step]
      rw [if_pos (by simp only [Life.itemsOk, hm, hres]; simp [Life.hasIl, hc])]
      rfl
    · refine ⟨.wakeRead n during, ⟨{ c.life with w := .aItems sec .pending [.ke ((st'.out.drop st.out.length).map (·.1)) r] }, .fa st'⟩,
        .inl rfl, ?_⟩
      simp only [hstep, wakeWith, hb, Back.world]
      rw [if_pos (show (bytesOf st.sys n).length ≤ 4096 from hn)]
      simp only [cstep, hw, Back.setWorld, Whole.entries, recvAll, hr, Outcome.bind_ok, Outcome.pure_eq, Life.step]
      rw [if_pos (by simp only [Life.itemsOk, hm, hres]; simp [Life.hasIl, hc])]
      rfl

/-! ## A watch to which these things happen -/

private def cfgY : Life.Cfg := { path := b!"/r", dirOk := true, fdOk := true }
private def envY : Env World where
  fa := FKer.sys true
  inn := { realpath := fun n _ => (none, n), isDir := fun n _ => (false, n), addWatch := fun n _ => (-1, n) }

private theorem ranY {o : Outcome (Option (CS World))} {p : CS World → Prop} [DecidablePred p]
    (h : (match o with | .ok (some a) => decide (p a) | _ => false) = true) : ∃ a, o = .ok (some a) ∧ p a := by
  cases o with
  | ok a =>
    cases a with
    | none => cases h
    | some a => exact ⟨a, rfl, by simpa using h⟩
  | ub => cases h

private def dirsY : List (Handle × Str) := [([1], b!"/r"), ([2], b!"/r/d")]
private theorem dirsY_good : GoodTree dirsY := ⟨by decide, by decide, by decide, by decide⟩

/-- Start, live message, fanotify on both directories, waiting. -/
private def beginY : List HStep :=
  [.thread .w, .thread .w, .thread .w, .thread .cbReturn, .openFanotify ⟨true, 5, [b!"/r", b!"/r/d"], ⟨6, true, true⟩⟩ [], .thread .w, .thread .w]
/-- A read of one record, whose event is delivered. -/
private def readY : List HStep := [.wakeRead 1 [], .thread .w, .thread .w, .thread .cbReturn, .thread .w, .thread .w]

private theorem fineY (hs : List HStep) (c : CS World)
    (h : readsB (fun _ rs _ => noSwapB rs && decide ((fbatch rs).length ≤ 4092)) cfgY envY c hs = true) : FineReads cfgY envY c hs :=
  readsB_ok (R := fun _ rs _ => noSwapB rs && decide ((fbatch rs).length ≤ 4092)) (fun _ rs _ h => by
    rw [Bool.and_eq_true] at h
    exact ⟨noSwapB_ok rs h.1, .inl (of_decide_eq_true h.2)⟩) hs c h

/-- Changes in a directory that is removed while the watch reads. -/
private def beforeY : List HStep :=
  beginY ++ [.op ⟨.unlink b!"/r/d" b!"f", {}⟩, .op ⟨.unlink b!"/r/d" b!"h", {}⟩, .op ⟨.create b!"/r" b!"g", {}⟩]
private def afterY : List HStep :=
  [.wakeRead 1 [([], false), ([⟨.rmdir b!"/r" b!"d", {}⟩], false)], .thread .w, .thread .w, .thread .cbReturn, .thread .w, .thread .w] ++
    [.wakeRead 1 [], .thread .w, .thread .w, .thread .w] ++ readY

private theorem late_ran : ∃ c, hrun cfgY envY (start cfgY dirsY) beforeY = .ok (some c) ∧
    (match c.back with
      | .fa st => decide (st.sys.k.queue.length = 3 ∧ missedLateB true st (fSteps afterY) ⟨[2], b!"/r/d", b!"h", .delete, false⟩ = true ∧
          missedLateB true st (fSteps afterY) ⟨[1], b!"/r", b!"g", .create, false⟩ = false)
      | _ => false) = true ∧
    readsB (fun _ rs _ => noSwapB rs && decide ((fbatch rs).length ≤ 4092)) cfgY envY c afterY = true ∧
    (match hrun cfgY envY c afterY with
      | .ok (some c1) => decide (c1.life.w = .aWait false ∧ (fileEvents (callbacks c1.life.log)).map (·.path) = [b!"/r/d (deleted)/f", b!"/r/g"])
      | _ => false) = true := ranY (by decide +kernel)

example : GoodTree dirsY ∧ (beforeY ++ afterY).all (allDo unmoving) = true ∧ FineReads cfgY envY (start cfgY dirsY) beforeY ∧ fWakes afterY = 3 ∧ afterY.all (allWakes keeps) = false ∧
    ∃ c st, hrun cfgY envY (start cfgY dirsY) beforeY = .ok (some c) ∧ c.back = .fa st ∧ st.sys.k.queue.length = 3 ∧ FineReads cfgY envY c afterY ∧
      MissedLate true st (fSteps afterY) ⟨[2], b!"/r/d", b!"h", .delete, false⟩ ∧
      (¬ MissedLate true st (fSteps afterY) ⟨[1], b!"/r", b!"g", .create, false⟩) ∧
      ∃ c1, hrun cfgY envY c afterY = .ok (some c1) ∧ c1.life.w = .aWait false ∧
        (fileEvents (callbacks c1.life.log)).map (·.path) = [b!"/r/d (deleted)/f", b!"/r/g"] := by
  refine ⟨dirsY_good, by decide, fineY _ _ (by decide +kernel), by decide, by decide, ?_⟩
  obtain ⟨c, h1, h2, h5, h6⟩ := late_ran
  split at h2
  case h_2 => cases h2
  rename_i st hb
  obtain ⟨g1, g2, g4⟩ := of_decide_eq_true h2
  split at h6
  case h_2 => cases h6
  rename_i c1 hc
  have := of_decide_eq_true h6
  refine ⟨c, st, h1, hb, g1, fineY _ _ h5, (missedLateB_iff _).1 g2, fun h => ?_, c1, hc, this.1, this.2⟩
  · rw [(missedLateB_iff _).2 h] at g4; cases g4

end Verif.Props
