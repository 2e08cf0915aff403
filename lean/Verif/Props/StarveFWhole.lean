import Verif.Props.StarveF
import Verif.Props.FWhole
/-!
# No change waits for ever with fanotify, end to end: C166

Owner, worker, stop signal, callback, fanotify back end and the kernel of `Model/FKernel.lean` together.
-/

namespace Verif.Props
open Verif Verif.Model Verif.Model.Ad Verif.Model.FKer Verif.Spec Verif.Spec.FKer Verif.Spec.WholeF Verif.Spec.Starve Verif.Lemmas.FKer Verif.Lemmas.AdF
open Verif.Lemmas.Ad (bind_ok_inv)

variable {rf : Bool}

private theorem ffront_wake {cfg : Life.Cfg} {E : Env World} (hE : E.fa = FKer.sys rf) {S : List Change} {o : Nat} {c c' : CS World} {st : Fa.St World}
    {seen : List Change} (hi : TInv false st seen) (h : FFront S o st) (hb : c.back = .fa st) (stop : Option Bool) (n : Nat) (sched : List (List Do × Bool))
    (hR : Told1 st.sys.k (st.sys.k.queue.take n) sched)
    (hs : wakeWith cfg E c stop n sched = .ok (some c')) :
    ∃ st' seen', c'.back = .fa st' ∧ TInv false st' seen' ∧ FFront S (o - if decide (0 < n) then 1 else 0) st' := by
  unfold wakeWith at hs
  split at hs
  · rename_i hf
    simp only [hb, Back.world] at hf
    obtain ⟨st', r, seen', h1, h2, h3⟩ := read_recv (rf := rf) hi n sched (mild_false sched) hf hR
    have hr : recv E (.fa { st with sys := taken st.sys n sched }) (.data (bytesOf st.sys n)) =
        .ok (.fa st', (st'.out.drop st.out.length).map (·.1), r) := by
      simp only [recv, hE, h1]; rfl
    have hall : ∃ items, recvAll E (.fa { st with sys := taken st.sys n sched }) (Whole.entries stop (bytesOf st.sys n)) = .ok (.fa st', items) := by
      cases stop with
      | none => exact ⟨_, by simp only [Whole.entries, recvAll, hr]; rfl⟩
      | some b => cases b <;> exact ⟨_, by simp only [Whole.entries, recvAll, hr]; rfl⟩
    obtain ⟨items, hall⟩ := hall
    refine ⟨st', seen', ?_, h3, ?_⟩
    · simp only [cstep, hb, Back.setWorld, Back.world, hall] at hs
      split at hs
      · simp only [Outcome.bind_ok, Outcome.pure_eq, Outcome.ok.injEq, Option.map_eq_some_iff] at hs
        obtain ⟨l, _, rfl⟩ := hs
        rfl
      · cases hs
    · have := ffront_exec (rf := rf) hi h (.read n sched) hR.2 (by intro m sch hx; cases hx; exact hR.1) h2
      have hr : fReturns st (.read n sched) = decide (0 < n) := by
        have : decide ((fbatch (st.sys.k.queue.take n)).length ≤ 4096) = true := decide_eq_true hf
        simp only [fReturns, this, Bool.and_true]
      rwa [hr] at this
  · cases hs

private theorem ffront_hstep {cfg : Life.Cfg} {E : Env World} (hE : E.fa = FKer.sys rf) {S : List Change} {o : Nat} {c c' : CS World} {st : Fa.St World}
    {seen : List Change} (hi : TInv false st seen) (h : FFront S o st) (hb : c.back = .fa st) (hl : LateF c.life.w) (a : HStep)
    (hR : readOk Told1 c a) (hs : hstep cfg E c a = .ok (some c')) :
    ∃ st' seen', c'.back = .fa st' ∧ TInv false st' seen' ∧ FFront S (o - if fWakesUp a then 1 else 0) st' := by
  cases a with
  | thread a =>
    simp only [hstep, cstep] at hs
    split at hs
    · injection hs with hs
      rw [Option.map_eq_some_iff] at hs
      obtain ⟨l, _, rfl⟩ := hs
      exact ⟨st, seen, hb, hi, h⟩
    · cases hs
  | openFanotify a sched =>
    simp only [hstep] at hs
    split at hs
    · simp only [cstep] at hs
      split at hs
      · cases hs
      · split at hs
        · rename_i hw; simp only [hw] at hl; cases hl
        · rename_i hw; simp only [hw] at hl; cases hl
        · cases hs
    · cases hs
  | op x =>
    simp only [hstep, cstep, Outcome.ok.injEq, Option.some.injEq] at hs
    subst hs
    exact ⟨{ st with sys := { st.sys with k := doIt st.sys.k x } }, seen, by simp only [hb, Back.setWorld, Back.world], op_tinv hi x rfl,
      ffront_exec (rf := rf) hi h (.op x) rfl (by intro n sched hx; cases hx) rfl⟩
  | wakeStop =>
    simp only [hstep, cstep] at hs
    split at hs
    · simp only [recvAll, Outcome.bind_ok, Outcome.pure_eq, Outcome.ok.injEq, Option.map_eq_some_iff] at hs
      obtain ⟨l, _, rfl⟩ := hs
      exact ⟨st, seen, hb, hi, h⟩
    · cases hs
  | wakeRead n sched => exact ffront_wake hE hi h hb none n sched (by simpa only [readOk, hb, Back.world] using hR) hs
  | wakeBoth f n sched => exact ffront_wake hE hi h hb (some f) n sched (by simpa only [readOk, hb, Back.world] using hR) hs

private theorem allDo_mild (a : HStep) : allDo (mild false) a = true := by
  cases a <;> first | rfl | exact mild_false _

private theorem all_mild (hs : List HStep) : hs.all (allDo (mild false)) = true := List.all_eq_true.2 fun a _ => allDo_mild a

private theorem ffront_hrun {cfg : Life.Cfg} {E : Env World} (hE : E.fa = FKer.sys rf) {S : List Change} : ∀ (hs : List HStep) {o : Nat} {c c' : CS World}
    {st : Fa.St World} {seen : List Change}, TInv false st seen → FFront S o st → c.back = .fa st → LateF c.life.w →
    ReadsOk Told1 cfg E c hs → hrun cfg E c hs = .ok (some c') → ∃ st', c'.back = .fa st' ∧ FFront S (o - fWakes hs) st' := by
  intro hs
  induction hs with
  | nil => intro o c c' st seen _ h hb _ _ he; cases he; exact ⟨st, hb, h⟩
  | cons a as ih =>
    intro o c c' st seen hi h hb hl hf he
    rw [hrun] at he
    obtain ⟨x, h1, h2⟩ := bind_ok_inv he
    cases x with
    | none => cases h2
    | some c1 =>
      obtain ⟨st1, seen1, g1, g2, g3⟩ := ffront_hstep hE hi h hb hl a hf.1 h1
      have hl1 : LateF c1.life.w := by
        have := (hstep_fst hE (keeps_tinv rf false) a (c := c) (by simp only [FSt, hb]; exact ⟨⟨seen, hi⟩, hl⟩) (allDo_mild a) hf.1).2 c1 h1
        simp only [FSt, g1] at this; exact this.2
      obtain ⟨st2, k1, k2⟩ := ih g2 g3 g1 hl1 (hf.2 c1 h1) h2
      rw [Nat.sub_sub] at k2
      exact ⟨st2, k1, k2⟩

/-- C166 in full. At any moment of any history (`hs`), once fanotify is open, some records are pending and some changes have been made. Whatever
happens afterwards (`more`): once the watch has been woken up to read as often as there were records pending, then, when it waits again or has
finished, the callback has been told an event that mentions each of these changes. -/
def C166_full : Prop :=
  ∀ (rf : Bool) (cfg : Life.Cfg) (E : Env World), E.fa = FKer.sys rf → ∀ (dirs : List (Handle × Str)) (hs more : List HStep) (c c1 : CS World), GoodTree dirs →
    hrun cfg E (start cfg dirs) hs = .ok (some c) → (∃ st, c.back = .fa st) → hrun cfg E c more = .ok (some c1) → c.back.world.k.queue.length ≤ fWakes more →
    (∃ second, c1.life.w = .aWait second) ∨ c1.life.w = .finished →
    ∀ x ∈ c.back.world.k.log, ∃ e ∈ fileEvents (callbacks c1.life.log), Mentions c1.back.world.k.past x e

private theorem fhrun_append {cfg : Life.Cfg} {E : Env World} : ∀ (hs more : List HStep) {c c1 c2 : CS World},
    hrun cfg E c hs = .ok (some c1) → hrun cfg E c1 more = .ok (some c2) → hrun cfg E c (hs ++ more) = .ok (some c2) := by
  intro hs
  induction hs with
  | nil => intro more c c1 c2 h1 h2; cases h1; exact h2
  | cons a as ih =>
    intro more c c1 c2 h1 h2
    rw [hrun] at h1
    obtain ⟨o, h3, h4⟩ := bind_ok_inv h1
    cases o with
    | none => cases h4
    | some c3 =>
      rw [List.cons_append, hrun, h3]
      exact ih more h4 h2

/-- C166 (partial: no directory is removed during a read or while a record about it is pending, and no read is like those excluded by
`FineReads`, as in C163). -/
theorem C166_no_starving_end_to_end_partial (rf : Bool) (cfg : Life.Cfg) (E : Env World) (hE : E.fa = FKer.sys rf) (dirs : List (Handle × Str))
    (hs more : List HStep) (c c1 : CS World) (hg : GoodTree dirs) (hk : hs.all (allWakes keeps) = true) (hk1 : more.all (allWakes keeps) = true)
    (hp : PresentReads cfg E (start cfg dirs) hs) (hp1 : PresentReads cfg E c more)
    (hf : FineReads cfg E (start cfg dirs) hs) (hf1 : FineReads cfg E c more) (h : hrun cfg E (start cfg dirs) hs = .ok (some c)) (hb : ∃ st, c.back = .fa st)
    (h1 : hrun cfg E c more = .ok (some c1)) (hr : c.back.world.k.queue.length ≤ fWakes more)
    (hw : (∃ second, c1.life.w = .aWait second) ∨ c1.life.w = .finished) :
    ∀ x ∈ c.back.world.k.log, ∃ e ∈ fileEvents (callbacks c1.life.log), Mentions c1.back.world.k.past x e := by
  obtain ⟨st, hb⟩ := hb
  have hst := (hrun_fst (cfg := cfg) hE (keeps_tinv rf false) hs (start cfg dirs)
    ⟨⟨kinv_open hg, fun c hc => by cases hc⟩, trivial⟩ (all_mild hs) (told1_of hf hp hk)).2 c h
  simp only [FSt, hb] at hst
  obtain ⟨⟨seen, h2⟩, hl⟩ := hst
  obtain ⟨st1, e1, old, g1, g2, g3⟩ := ffront_hrun hE more h2 (ffront_now h2) hb hl (told1_of hf1 hp1 hk1) h1
  simp only [hb, Back.world] at hr
  have : old = [] := List.length_eq_zero_iff.1 (by omega)
  subst this
  rw [fsettled (freach (fhrun_append hs more h h1)) hw]
  simp only [hb, e1, handed, Back.out, Back.world]
  intro x hx
  rcases g3 x hx with h | h
  · exact h
  · cases h

/-- C166 (partial: histories in which no directory is removed at all, and no read is like those excluded by `FineReads`). -/
theorem C166_no_removal_partial (rf : Bool) (cfg : Life.Cfg) (E : Env World) (hE : E.fa = FKer.sys rf) (dirs : List (Handle × Str))
    (hs more : List HStep) (c c1 : CS World) (hg : GoodTree dirs) (hk : hs.all (allDo keeps) = true) (hk1 : more.all (allDo keeps) = true)
    (hf : FineReads cfg E (start cfg dirs) hs) (hf1 : FineReads cfg E c more) (h : hrun cfg E (start cfg dirs) hs = .ok (some c)) (hb : ∃ st, c.back = .fa st)
    (h1 : hrun cfg E c more = .ok (some c1)) (hr : c.back.world.k.queue.length ≤ fWakes more)
    (hw : (∃ second, c1.life.w = .aWait second) ∨ c1.life.w = .finished) :
    ∀ x ∈ c.back.world.k.log, ∃ e ∈ fileEvents (callbacks c1.life.log), Mentions c1.back.world.k.past x e :=
  have h0 : FSt (fun w => KInv w.k ∧ AllHere w.k) (fun st => KInv st.sys.k ∧ AllHere st.sys.k) (start cfg dirs) :=
    ⟨⟨kinv_open hg, allHere_start dirs⟩, trivial⟩
  C166_no_starving_end_to_end_partial rf cfg E hE dirs hs more c c1 hg (allWakes_of hk) (allWakes_of hk1)
    (presentReads_of_keeps hE hs _ h0 hk)
    (presentReads_of_keeps hE more c ((hrun_fst (cfg := cfg) hE (keeps_here rf) hs _ h0 hk (readsOk_true hs _)).2 c h) hk1)
    hf hf1 h hb h1 hr hw

/-! ## What is missed -/

private def Read1 : K → List FRec → List (List Do × Bool) → Prop := fun _ rs sched => (NoSwap rs ∧ Roomy rs) ∧ allSched keeps sched = true

private theorem read_recv_any {missed : Change → Prop} {st : Fa.St World} (h : LInv st missed) (n : Nat) (sched : List (List Do × Bool))
    (hf : (bytesOf st.sys n).length ≤ 4096) (hR : Read1 st.sys.k (st.sys.k.queue.take n) sched) :
    ∃ st' r missed', Model.Fa.doEvRecv (Model.FKer.sys rf) (.data (bytesOf st.sys n)) { st with sys := taken st.sys n sched } = .ok (st', r) ∧
      exec rf st (.read n sched) = .ok st' ∧ LInv st' missed' := by
  obtain ⟨st', h1, h2⟩ := read_linv (rf := rf) h n sched hR.2 hR.1.1 hR.1.2
  have h1' := h1
  simp only [exec] at h1
  rw [if_pos (show (fbatch (st.sys.k.queue.take n)).length ≤ Model.Fa.bufLen from hf)] at h1
  obtain ⟨⟨st1, r⟩, h3, h4⟩ := bind_ok_inv h1
  simp only at h4
  split at h4
  · simp only [Outcome.pure_eq, Outcome.ok.injEq] at h4
    subst h4
    exact ⟨st1, r, _, h3, h1', h2⟩
  · cases h4

private theorem linv_of_tinv {st : Fa.St World} {seen : List Change} (h : TInv false st seen) : ∃ missed, LInv st missed :=
  ⟨fun _ => True, h.k, h.buf, fun _ _ => .inr (.inr trivial)⟩

private theorem keeps_linv (rf : Bool) : Keeps rf (mild false) Read1 true
    (fun w => KInv w.k ∧ Kept false [] w.k) (fun st => ∃ missed, LInv st missed) where
  opW := (keeps_tinv rf false).opW
  opP := fun st x ⟨_, h⟩ _ => ⟨_, op_linv h x⟩
  openP := fun w marks sched h hs => by
    obtain ⟨seen, h1⟩ := (keeps_tinv rf false).openP w marks sched h hs
    exact linv_of_tinv h1
  recvP := by
    intro st n sched st' r ⟨missed, h⟩ hs hf hR h1
    obtain ⟨st1, r1, m1, h2, _, h3⟩ := read_recv_any (rf := rf) h n sched hf hR
    rw [h1] at h2
    cases h2
    exact ⟨m1, h3⟩
  safe := by
    intro _ st n sched ⟨missed, h⟩ hs hf hR
    obtain ⟨st1, r1, m1, h2, _, h3⟩ := read_recv_any (rf := rf) h n sched hf hR
    exact ⟨_, h2⟩

private theorem read1_of {cfg : Life.Cfg} {E : Env World} : ∀ {hs : List HStep} {c : CS World}, FineReads cfg E c hs → hs.all (allWakes keeps) = true →
    ReadsOk Read1 cfg E c hs := by
  intro hs
  induction hs with
  | nil => intro c _ _; trivial
  | cons a as ih =>
    intro c hf hk
    rw [List.all_cons, Bool.and_eq_true] at hk
    refine ⟨?_, fun c' hc => ih (hf.2 c' hc) hk.2⟩
    have := hf.1
    cases a with
    | wakeRead n sched => exact ⟨this, hk.1⟩
    | wakeBoth f n sched => exact ⟨this, hk.1⟩
    | _ => trivial

private theorem wake_exec {cfg : Life.Cfg} {E : Env World} (hE : E.fa = FKer.sys rf) {missed : Change → Prop} {c c' : CS World} {st : Fa.St World}
    (hi : LInv st missed) (hb : c.back = .fa st) (stop : Option Bool) (n : Nat) (sched : List (List Do × Bool))
    (hR : Read1 st.sys.k (st.sys.k.queue.take n) sched) (hs : wakeWith cfg E c stop n sched = .ok (some c')) :
    ∃ st' missed', c'.back = .fa st' ∧ exec rf st (.read n sched) = .ok st' ∧ LInv st' missed' ∧ fReturns st (.read n sched) = decide (0 < n) := by
  unfold wakeWith at hs
  split at hs
  · rename_i hf
    simp only [hb, Back.world] at hf
    obtain ⟨st', r, m', h1, h2, h3⟩ := read_recv_any (rf := rf) hi n sched hf hR
    have hr : recv E (.fa { st with sys := taken st.sys n sched }) (.data (bytesOf st.sys n)) =
        .ok (.fa st', (st'.out.drop st.out.length).map (·.1), r) := by
      simp only [recv, hE, h1]; rfl
    have hall : ∃ items, recvAll E (.fa { st with sys := taken st.sys n sched }) (Whole.entries stop (bytesOf st.sys n)) = .ok (.fa st', items) := by
      cases stop with
      | none => exact ⟨_, by simp only [Whole.entries, recvAll, hr]; rfl⟩
      | some b => cases b <;> exact ⟨_, by simp only [Whole.entries, recvAll, hr]; rfl⟩
    obtain ⟨items, hall⟩ := hall
    refine ⟨st', m', ?_, h2, h3, ?_⟩
    · simp only [cstep, hb, Back.setWorld, Back.world, hall] at hs
      split at hs
      · simp only [Outcome.bind_ok, Outcome.pure_eq, Outcome.ok.injEq, Option.map_eq_some_iff] at hs
        obtain ⟨l, _, rfl⟩ := hs
        rfl
      · cases hs
    · have : decide ((fbatch (st.sys.k.queue.take n)).length ≤ 4096) = true := decide_eq_true hf
      simp only [fReturns, this, Bool.and_true]
  · cases hs

/-- What the back end does in a history is what it does with the operations and the reads alone. -/
private theorem hrun_execs {cfg : Life.Cfg} {E : Env World} (hE : E.fa = FKer.sys rf) : ∀ (hs : List HStep) {c c' : CS World} {missed : Change → Prop}
    {st : Fa.St World}, LInv st missed → c.back = .fa st → LateF c.life.w → ReadsOk Read1 cfg E c hs → hrun cfg E c hs = .ok (some c') →
    ∃ st', c'.back = .fa st' ∧ execs rf st (fSteps hs) = .ok st' ∧ (fSteps hs).all (allReads keeps) = true ∧ Fine rf st (fSteps hs) ∧
      fReads rf st (fSteps hs) = fWakes hs := by
  intro hs
  induction hs with
  | nil => intro c c' missed st _ hb _ _ he; cases he; exact ⟨st, hb, rfl, rfl, trivial, rfl⟩
  | cons a as ih =>
    intro c c' missed st hi hb hl hf he
    rw [hrun] at he
    obtain ⟨x, h1, h2⟩ := bind_ok_inv he
    cases x with
    | none => cases h2
    | some c1 =>
      have hf1 := hf.2 c1 h1
      have hl1 : (∃ st1, c1.back = .fa st1) → LateF c1.life.w := by
        rintro ⟨st1, g1⟩
        have := (hstep_fst hE (keeps_linv rf) a (c := c) (by simp only [FSt, hb]; exact ⟨⟨_, hi⟩, hl⟩) (allDo_mild a) hf.1).2 c1 h1
        simp only [FSt, g1] at this; exact this.2
      have quiet : c1.back = .fa st → fSteps (a :: as) = fSteps as → fWakes (a :: as) = fWakes as →
          ∃ st', c'.back = .fa st' ∧ execs rf st (fSteps (a :: as)) = .ok st' ∧ (fSteps (a :: as)).all (allReads keeps) = true ∧
            Fine rf st (fSteps (a :: as)) ∧ fReads rf st (fSteps (a :: as)) = fWakes (a :: as) := by
        intro hb1 e1 e2
        rw [e1, e2]
        exact ih hi hb1 (hl1 ⟨st, hb1⟩) hf1 h2
      have woken : ∀ stop n sched, fSteps (a :: as) = .read n sched :: fSteps as → fWakes (a :: as) = (if decide (0 < n) then 1 else 0) + fWakes as →
          Read1 st.sys.k (st.sys.k.queue.take n) sched → wakeWith cfg E c stop n sched = .ok (some c1) →
          ∃ st', c'.back = .fa st' ∧ execs rf st (fSteps (a :: as)) = .ok st' ∧ (fSteps (a :: as)).all (allReads keeps) = true ∧
            Fine rf st (fSteps (a :: as)) ∧ fReads rf st (fSteps (a :: as)) = fWakes (a :: as) := by
        intro stop n sched e1 e2 hR hs
        obtain ⟨st1, m1, g1, g2, g3, g4⟩ := wake_exec hE hi hb stop n sched hR hs
        obtain ⟨st', k1, k2, k3, k4, k5⟩ := ih g3 g1 (hl1 ⟨st1, g1⟩) hf1 h2
        rw [e1, e2]
        refine ⟨st', k1, by rw [execs, g2]; exact k2, by rw [List.all_cons, Bool.and_eq_true]; exact ⟨hR.2, k3⟩, ⟨hR.1.1, hR.1.2, ?_⟩, ?_⟩
        · intro st2 hst2; rw [g2] at hst2; injection hst2 with hst2; subst hst2; exact k4
        · rw [fReads, g4, g2]; simp only [k5]
      cases a with
      | thread a =>
        refine quiet ?_ rfl (by simp [fWakes, fWakesUp])
        simp only [hstep, cstep] at h1
        split at h1
        · injection h1 with hs
          rw [Option.map_eq_some_iff] at hs
          obtain ⟨l, _, rfl⟩ := hs
          exact hb
        · cases h1
      | openFanotify a sched =>
        simp only [hstep] at h1
        split at h1
        · simp only [cstep] at h1
          split at h1
          · cases h1
          · split at h1
            · rename_i hw; simp only [hw] at hl; cases hl
            · rename_i hw; simp only [hw] at hl; cases hl
            · cases h1
        · cases h1
      | op x =>
        simp only [hstep, cstep, Outcome.ok.injEq, Option.some.injEq] at h1
        subst h1
        have hb1 : (Back.fa { st with sys := { st.sys with k := doIt st.sys.k x } } : Back World) =
            c.back.setWorld { c.back.world with k := doIt c.back.world.k x } := by simp only [hb, Back.setWorld, Back.world]
        obtain ⟨st', k1, k2, k3, k4, k5⟩ := ih (op_linv hi x) hb1.symm (hl1 ⟨_, hb1.symm⟩) hf1 h2
        refine ⟨st', k1, by rw [fSteps, execs]; exact k2, by rw [fSteps, List.all_cons, Bool.and_eq_true]; exact ⟨rfl, k3⟩, ?_, ?_⟩
        · rw [fSteps]; intro st2 hst2; cases hst2; exact k4
        · rw [fSteps, fReads]; simp [exec, k5, fReturns, fWakes, fWakesUp]
      | wakeStop =>
        refine quiet ?_ rfl (by simp [fWakes, fWakesUp])
        simp only [hstep, cstep] at h1
        split at h1
        · simp only [recvAll, Outcome.bind_ok, Outcome.pure_eq, Outcome.ok.injEq, Option.map_eq_some_iff] at h1
          obtain ⟨l, _, rfl⟩ := h1
          exact hb
        · cases h1
      | wakeRead n sched => exact woken none n sched rfl rfl (by simpa only [readOk, hb, Back.world] using hf.1) h1
      | wakeBoth f n sched => exact woken (some f) n sched rfl rfl (by simpa only [readOk, hb, Back.world] using hf.1) h1

/-- C166 (partial: without any hypothesis on the directories the records are about, no read being like those excluded by `FineReads`). Once the watch
has been woken up to read as often as there were records pending, and waits again or has finished, the callback has been told an event
about each change that was pending, or the change was missed: at one of the reads its record was about a directory that had gone, or behind such
a record, or the old name of a rename into such a directory. -/
theorem C166_missed_partial (rf : Bool) (cfg : Life.Cfg) (E : Env World) (hE : E.fa = FKer.sys rf) (dirs : List (Handle × Str))
    (hs more : List HStep) (c c1 : CS World) (st : Fa.St World) (hg : GoodTree dirs) (hk : hs.all (allWakes keeps) = true) (hk1 : more.all (allWakes keeps) = true)
    (hf : FineReads cfg E (start cfg dirs) hs) (hf1 : FineReads cfg E c more) (h : hrun cfg E (start cfg dirs) hs = .ok (some c)) (hb : c.back = .fa st)
    (h1 : hrun cfg E c more = .ok (some c1)) (hr : st.sys.k.queue.length ≤ fWakes more)
    (hw : (∃ second, c1.life.w = .aWait second) ∨ c1.life.w = .finished) :
    ∀ x ∈ st.sys.k.log, (∃ r ∈ st.sys.k.queue, r.handle = x.handle ∧ r.name = x.name) →
      (∃ e ∈ fileEvents (callbacks c1.life.log), Mentions c1.back.world.k.past x e) ∨ Missed rf st (fSteps more) x := by
  have hst := (hrun_fst (cfg := cfg) hE (keeps_linv rf) hs (start cfg dirs)
    ⟨⟨kinv_open hg, fun c hc => by cases hc⟩, trivial⟩ (all_mild hs) (read1_of hf hk)).2 c h
  simp only [FSt, hb] at hst
  obtain ⟨⟨any, hi⟩, hl⟩ := hst
  obtain ⟨st1, e1, e2, e3, e4, e5⟩ := hrun_execs hE more hi hb hl (read1_of hf1 hk1) h1
  intro x hx hq
  have g : FFrontM [x] (fun _ => False) st.sys.k.queue.length st := by
    refine ⟨st.sys.k.queue.map (fun r => (r.handle, r.name)), List.prefix_rfl, by simp, fun c hc => ?_⟩
    rw [List.mem_singleton] at hc; subst hc
    obtain ⟨r, hr, g1, g2⟩ := hq
    exact ⟨hx, .inr (.inr (List.mem_map.2 ⟨r, hr, by rw [g1, g2]⟩))⟩
  obtain ⟨old, g1, g2, g3⟩ := ffrontM_execs (fSteps more) hi g e3 e4 e2
  have : old = [] := List.length_eq_zero_iff.1 (by omega)
  subst this
  rw [fsettled (freach (fhrun_append hs more h h1)) hw]
  simp only [e1, handed, Back.out, Back.world]
  rcases (g3 x (by simp)).2 with h | (h | h) | h
  · exact .inl h
  · cases h
  · exact .inr h
  · cases h

/-! ## Watches to which these things happen -/

private def cfgX : Life.Cfg := { path := b!"/r", dirOk := true, fdOk := true }
private def envX : Env World where
  fa := FKer.sys true
  inn := { realpath := fun n _ => (none, n), isDir := fun n _ => (false, n), addWatch := fun n _ => (-1, n) }

private theorem ranX {o : Outcome (Option (CS World))} {p : CS World → Prop} [DecidablePred p]
    (h : (match o with | .ok (some a) => decide (p a) | _ => false) = true) : ∃ a, o = .ok (some a) ∧ p a := by
  cases o with
  | ok a =>
    cases a with
    | none => cases h
    | some a => exact ⟨a, rfl, by simpa using h⟩
  | ub => cases h

private def dirsX : List (Handle × Str) := [([1], b!"/r"), ([2], b!"/r/d")]
private theorem dirsX_good : GoodTree dirsX := ⟨by decide, by decide, by decide, by decide⟩

/-- Start, live message, fanotify on both directories, waiting. -/
private def beginX : List HStep :=
  [.thread .w, .thread .w, .thread .w, .thread .cbReturn, .openFanotify ⟨true, 5, [b!"/r", b!"/r/d"], ⟨6, true, true⟩⟩ [], .thread .w, .thread .w]
/-- A read of one record, whose event is delivered. -/
private def readX : List HStep := [.wakeRead 1 [], .thread .w, .thread .w, .thread .cbReturn, .thread .w, .thread .w]

/-- A busy tree: the two records pending have been read after two wake-ups, whatever was merged and added meanwhile. -/
private def busyX : List HStep := beginX ++ [.op ⟨.create b!"/r" b!"f", {}⟩, .op ⟨.create b!"/r/d" b!"g", {}⟩, .op ⟨.modify b!"/r" b!"f", {}⟩]
private def afterX : List HStep := [.op ⟨.modify b!"/r" b!"f", {}⟩] ++ readX ++ [.op ⟨.modify b!"/r" b!"f", {}⟩] ++ readX

private theorem fineX (hs : List HStep) (c : CS World)
    (h : readsB (fun _ rs _ => noSwapB rs && decide ((fbatch rs).length ≤ 4092)) cfgX envX c hs = true) : FineReads cfgX envX c hs :=
  readsB_ok (R := fun _ rs _ => noSwapB rs && decide ((fbatch rs).length ≤ 4092)) (fun _ rs _ h => by
    rw [Bool.and_eq_true] at h
    exact ⟨noSwapB_ok rs h.1, .inl (of_decide_eq_true h.2)⟩) hs c h

private theorem busy_ran : ∃ c, hrun cfgX envX (start cfgX dirsX) busyX = .ok (some c) ∧
    (match c.back with | .fa _ => true | _ => false) = true ∧ c.back.world.k.queue.length = 2 ∧ c.back.world.k.log.length = 3 ∧
    readsB (fun _ rs _ => noSwapB rs && decide ((fbatch rs).length ≤ 4092)) cfgX envX c afterX = true ∧
    (match hrun cfgX envX c afterX with
      | .ok (some c1) => decide (c1.life.w = .aWait false ∧ c1.back.world.k.queue.length = 1 ∧
          (fileEvents (callbacks c1.life.log)).map (·.path) = [b!"/r/f", b!"/r/d/g"])
      | _ => false) = true := ranX (by decide +kernel)

example : (busyX ++ afterX).all (allDo keeps) = true ∧ fWakes afterX = 2 ∧ FineReads cfgX envX (start cfgX dirsX) busyX ∧
    ∃ c, hrun cfgX envX (start cfgX dirsX) busyX = .ok (some c) ∧ (∃ st, c.back = .fa st) ∧ FineReads cfgX envX c afterX ∧
      ∃ c1, hrun cfgX envX c afterX = .ok (some c1) ∧ c1.life.w = .aWait false ∧
        (fileEvents (callbacks c1.life.log)).map (·.path) = [b!"/r/f", b!"/r/d/g"] := by
  refine ⟨by decide, by decide, fineX _ _ (by decide +kernel), ?_⟩
  obtain ⟨c, h1, h2, _, _, h5, h6⟩ := busy_ran
  refine ⟨c, h1, ?_, fineX _ _ h5, ?_⟩
  · split at h2
    · rename_i st hb; exact ⟨st, hb⟩
    · cases h2
  · split at h6
    · rename_i c1 hc
      have := of_decide_eq_true h6
      exact ⟨c1, hc, this.1, this.2.2⟩
    · cases h6

/-- The directory that had the second file goes while the watch keeps running. -/
private def leaveX : List HStep :=
  readX ++ readX ++ [.op ⟨.unlink b!"/r/d" b!"g", {}⟩] ++ readX ++ [.op ⟨.rmdir b!"/r" b!"d", {}⟩] ++ readX

private theorem leave_ran : ∃ c, hrun cfgX envX (start cfgX dirsX) busyX = .ok (some c) ∧
    (match c.back with | .fa _ => true | _ => false) = true ∧ c.back.world.k.queue.length = 2 ∧
    readsB (fun _ rs _ => noSwapB rs && decide ((fbatch rs).length ≤ 4092)) cfgX envX c leaveX = true ∧
    readsB herePresentB cfgX envX c leaveX = true ∧
    (match hrun cfgX envX c leaveX with
      | .ok (some c1) => decide (c1.life.w = .aWait false ∧ c1.back.world.k.dirs = [([1], b!"/r")] ∧
          (fileEvents (callbacks c1.life.log)).map (·.path) = [b!"/r/f", b!"/r/d/g", b!"/r/d/g", b!"/r/d"])
      | _ => false) = true := ranX (by decide +kernel)

example : busyX.all (allWakes keeps) = true ∧ leaveX.all (allWakes keeps) = true ∧ leaveX.all (allDo keeps) = false ∧ fWakes leaveX = 4 ∧
    FineReads cfgX envX (start cfgX dirsX) busyX ∧ PresentReads cfgX envX (start cfgX dirsX) busyX ∧
    ∃ c, hrun cfgX envX (start cfgX dirsX) busyX = .ok (some c) ∧ (∃ st, c.back = .fa st) ∧ c.back.world.k.queue.length = 2 ∧
      FineReads cfgX envX c leaveX ∧ PresentReads cfgX envX c leaveX ∧
      ∃ c1, hrun cfgX envX c leaveX = .ok (some c1) ∧ c1.life.w = .aWait false ∧
        (fileEvents (callbacks c1.life.log)).map (·.path) = [b!"/r/f", b!"/r/d/g", b!"/r/d/g", b!"/r/d"] := by
  refine ⟨by decide, by decide, by decide, by decide, fineX _ _ (by decide +kernel), readsB_ok herePresentB_ok _ _ (by decide +kernel), ?_⟩
  obtain ⟨c, h1, h2, h3, h5, h5', h6⟩ := leave_ran
  refine ⟨c, h1, ?_, h3, fineX _ _ h5, readsB_ok herePresentB_ok _ _ h5', ?_⟩
  · split at h2
    · rename_i st hb; exact ⟨st, hb⟩
    · cases h2
  · split at h6
    · rename_i c1 hc
      have := of_decide_eq_true h6
      exact ⟨c1, hc, this.1, this.2.2⟩
    · cases h6

/-- A directory is removed before the record of its file is read; the file made in between is never mentioned, however often
the watch wakes up. -/
private def goneX : List HStep :=
  beginX ++ [.op ⟨.unlink b!"/r/d" b!"f", {}⟩, .op ⟨.rmdir b!"/r" b!"d", {}⟩, .op ⟨.create b!"/r" b!"g", {}⟩]
private def goneAfterX : List HStep :=
  [.wakeRead 3 [], .thread .w, .thread .w, .thread .w] ++ [.op ⟨.create b!"/r" b!"h", {}⟩] ++ readX ++
    [.op ⟨.create b!"/r" b!"i", {}⟩] ++ readX

private theorem gone_ran : ∃ c, hrun cfgX envX (start cfgX dirsX) goneX = .ok (some c) ∧
    (match c.back with | .fa _ => true | _ => false) = true ∧ c.back.world.k.queue.length ≤ fWakes goneAfterX ∧
    (⟨[1], b!"/r", b!"g", .create, false⟩ : Change) ∈ c.back.world.k.log ∧
    (match hrun cfgX envX c goneAfterX with
      | .ok (some c1) => decide (c1.life.w = .aWait false ∧ ∀ e ∈ fileEvents (callbacks c1.life.log), e.path.getLast? ≠ some 103 ∧ e.assoc = none)
      | _ => false) = true := ranX (by decide +kernel)

/-- C166 as stated is false of the code, for the reason C163 is. -/
theorem C166_refuted : ¬ C166_full := by
  intro h
  obtain ⟨c, h1, h2, h3, h4, h5⟩ := gone_ran
  split at h5
  case h_2 => cases h5
  rename_i c1 hc
  obtain ⟨h6, h7⟩ := of_decide_eq_true h5
  obtain ⟨e, he, hm⟩ := h true cfgX envX rfl dirsX _ _ c c1 dirsX_good h1 (by split at h2; rename_i st hb; exact ⟨st, hb⟩; cases h2) hc h3
    (.inl ⟨_, h6⟩) _ h4
  obtain ⟨g1, g2⟩ := h7 e he
  rcases hm with ⟨d, _, hp⟩ | ⟨a, ha, _⟩
  · rw [hp] at g1; exact g1 (by simp)
  · rw [g2] at ha; cases ha


/-- The same tree, its records read one at a time: what happened in the removed directory is missed, the rest is told. -/
private def oneByOneX : List HStep := [.wakeRead 1 [], .thread .w, .thread .w, .thread .w] ++ readX ++ [.op ⟨.create b!"/r" b!"h", {}⟩] ++ readX

private theorem one_ran : ∃ c, hrun cfgX envX (start cfgX dirsX) goneX = .ok (some c) ∧
    (match c.back with
      | .fa st => decide (st.sys.k.queue.length = 3 ∧ missedB true st (fSteps oneByOneX) ⟨[2], b!"/r/d", b!"f", .delete, false⟩ = true ∧
          missedB true st (fSteps oneByOneX) ⟨[1], b!"/r", b!"d", .delete, true⟩ = false ∧
          missedB true st (fSteps oneByOneX) ⟨[1], b!"/r", b!"g", .create, false⟩ = false)
      | _ => false) = true ∧
    readsB (fun _ rs _ => noSwapB rs && decide ((fbatch rs).length ≤ 4092)) cfgX envX c oneByOneX = true ∧
    (match hrun cfgX envX c oneByOneX with
      | .ok (some c1) => decide (c1.life.w = .aWait false ∧ (fileEvents (callbacks c1.life.log)).map (·.path) = [b!"/r/d", b!"/r/g"])
      | _ => false) = true := ranX (by decide +kernel)

example : (goneX ++ oneByOneX).all (allWakes keeps) = true ∧ FineReads cfgX envX (start cfgX dirsX) goneX ∧ fWakes oneByOneX = 3 ∧
    ∃ c st, hrun cfgX envX (start cfgX dirsX) goneX = .ok (some c) ∧ c.back = .fa st ∧ st.sys.k.queue.length = 3 ∧ FineReads cfgX envX c oneByOneX ∧
      Missed true st (fSteps oneByOneX) ⟨[2], b!"/r/d", b!"f", .delete, false⟩ ∧ ¬ Missed true st (fSteps oneByOneX) ⟨[1], b!"/r", b!"d", .delete, true⟩ ∧
      ¬ Missed true st (fSteps oneByOneX) ⟨[1], b!"/r", b!"g", .create, false⟩ ∧
      ∃ c1, hrun cfgX envX c oneByOneX = .ok (some c1) ∧ c1.life.w = .aWait false ∧
        (fileEvents (callbacks c1.life.log)).map (·.path) = [b!"/r/d", b!"/r/g"] := by
  refine ⟨by decide, fineX _ _ (by decide +kernel), by decide, ?_⟩
  obtain ⟨c, h1, h2, h5, h6⟩ := one_ran
  split at h2
  case h_2 => cases h2
  rename_i st hb
  obtain ⟨g1, g2, g3, g4⟩ := of_decide_eq_true h2
  split at h6
  case h_2 => cases h6
  rename_i c1 hc
  have := of_decide_eq_true h6
  refine ⟨c, st, h1, hb, g1, fineX _ _ h5, (missedB_iff _).1 g2, fun h => ?_, fun h => ?_, c1, hc, this.1, this.2⟩
  · rw [(missedB_iff _).2 h] at g3; cases g3
  · rw [(missedB_iff _).2 h] at g4; cases g4

end Verif.Props
