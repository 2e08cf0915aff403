import Verif.Lemmas.DarwinLifeTell
/-! What is seen (`log`) and what becomes of the batches, along all schedules of `Model/DarwinLife.lean`. -/
namespace Verif.Lemmas.DLife
open Verif Verif.Model Verif.Model.DLife Verif.Spec.DLife
open Verif.Model.Darwin (Note Ctx recvOne recvAll)

variable {d : Bool}

/-- Is a callback running at the end? -/
def busyAfter : Bool → List Obs → Bool
  | b, [] => b
  | _, .cb _ :: l => busyAfter true l
  | _, .cbRet :: l => busyAfter false l
  | b, _ :: l => busyAfter b l

theorem busy_append (b : Bool) (l m : List Obs) : busyAfter b (l ++ m) = busyAfter (busyAfter b l) m := by
  induction l generalizing b with
  | nil => rfl
  | cons x l ih => cases x <;> simp [busyAfter, ih]

theorem one_append (b : Bool) (l m : List Obs) : OneAtATime b (l ++ m) ↔ OneAtATime b l ∧ OneAtATime (busyAfter b l) m := by
  induction l generalizing b with
  | nil => simp [OneAtATime, busyAfter]
  | cons x l ih => cases x <;> simp [busyAfter, OneAtATime, ih, and_assoc]

theorem answered_append (a b : List Obs) : answered (a ++ b) = answered a ++ answered b := by
  induction a with
  | nil => rfl
  | cons x a ih => cases x <;> simp [answered, ih]

theorem notified_append (a b : List Act) : notified (a ++ b) = notified a ++ notified b := by
  induction a with
  | nil => rfl
  | cons x a ih => cases x <;> simp [notified, ih]

@[grind =] theorem ba_cb (a : List Obs) (m : Msg) : busyAfter false (a ++ [.cb m]) = true := by simp [busy_append, busyAfter]
@[grind =] theorem ba_ret (a : List Obs) : busyAfter false (a ++ [.cbRet]) = false := by simp [busy_append, busyAfter]
@[grind =] theorem ba_cc (a : List Obs) : busyAfter false (a ++ [.closeCall]) = busyAfter false a := by simp [busy_append, busyAfter]
@[grind =] theorem ba_cr (a : List Obs) (b : Bool) : busyAfter false (a ++ [.closeRet b]) = busyAfter false a := by simp [busy_append, busyAfter]
@[grind =] theorem ba_dc (a : List Obs) : busyAfter false (a ++ [.dtorCall]) = busyAfter false a := by simp [busy_append, busyAfter]
@[grind =] theorem ba_dr (a : List Obs) : busyAfter false (a ++ [.dtorRet]) = busyAfter false a := by simp [busy_append, busyAfter]
@[grind =] theorem oa_cb (a : List Obs) (m : Msg) : OneAtATime false (a ++ [.cb m]) ↔ OneAtATime false a ∧ busyAfter false a = false := by simp [one_append, OneAtATime]
@[grind =] theorem oa_ret (a : List Obs) : OneAtATime false (a ++ [.cbRet]) ↔ OneAtATime false a ∧ busyAfter false a = true := by simp [one_append, OneAtATime]
@[grind =] theorem oa_cc (a : List Obs) : OneAtATime false (a ++ [.closeCall]) ↔ OneAtATime false a := by simp [one_append, OneAtATime]
@[grind =] theorem oa_cr (a : List Obs) (b : Bool) : OneAtATime false (a ++ [.closeRet b]) ↔ OneAtATime false a := by simp [one_append, OneAtATime]
@[grind =] theorem oa_dc (a : List Obs) : OneAtATime false (a ++ [.dtorCall]) ↔ OneAtATime false a := by simp [one_append, OneAtATime]
@[grind =] theorem oa_dr (a : List Obs) : OneAtATime false (a ++ [.dtorRet]) ↔ OneAtATime false a := by simp [one_append, OneAtATime]
@[grind =] theorem an_cb (a : List Obs) (m : Msg) : answered (a ++ [.cb m]) = answered a := by simp [answered_append, answered]
@[grind =] theorem an_ret (a : List Obs) : answered (a ++ [.cbRet]) = answered a := by simp [answered_append, answered]
@[grind =] theorem an_cc (a : List Obs) : answered (a ++ [.closeCall]) = answered a := by simp [answered_append, answered]
@[grind =] theorem an_cr (a : List Obs) (b : Bool) : answered (a ++ [.closeRet b]) = answered a ++ [b] := by simp [answered_append, answered]
@[grind =] theorem an_dc (a : List Obs) : answered (a ++ [.dtorCall]) = answered a := by simp [answered_append, answered]
@[grind =] theorem an_dr (a : List Obs) : answered (a ++ [.dtorRet]) = answered a := by simp [answered_append, answered]

def wInCb : WPc → Bool
  | .inLive _ | .liveClose _ _ | .inDie _ _ | .dieClose _ _ _ => true
  | _ => false

def kInCb : KPc → Bool
  | .inCb _ _ | .selfClose _ _ _ => true
  | _ => false

structure Seen (s : St) : Prop where
  one : OneAtATime false s.log
  busy : busyAfter false s.log = (wInCb s.w || kInCb s.k)
  dret : Obs.dtorRet ∈ s.log ↔ s.o = .gone
  fresh : s.valid = true → answered s.log = []
  rets : answered s.log = [] ∨ ∃ r n, s.fut = some r ∧ answered s.log = r :: List.replicate n false
  fetched : s.valid = false → answered s.log = [] → s.o = .dtorFuture ∨ s.o = .gone

theorem seen_init : Seen {} := by
  constructor <;> simp [OneAtATime, busyAfter, wInCb, kInCb, answered]

theorem wInCb_not {s : St} (hc : Ctl s) (h : wInCb s.w = true) : s.k = .free := by
  cases hst : s.stream with
  | false => exact (hc.quiet hst).1
  | true => have := hc.inw hst; cases hw : s.w <;> simp_all [wInCb, inWatch]

theorem not_free {s : St} (hc : Ctl s) (h : s.k ≠ .free) : wInCb s.w = false := by
  cases hw : wInCb s.w with
  | false => rfl
  | true => exact absurd (wInCb_not hc hw) h

theorem seen_w {s s' : St} (hc : Ctl s) (h : Seen s) (hs : wStep true d s = some s') : Seen s' := by
  have hf := fun x => wInCb_not hc x
  have hk : s.stream = false → s.k = .free := fun x => (hc.quiet x).1
  have hiw := hc.inw
  have hfin := hc.fin
  have hval := hc.valid
  have hgone := hc.gone
  obtain ⟨h1,h2,h3,h4,h5,h6⟩ := h
  unfold wStep at hs
  split at hs <;> (try unfold closeStep at hs) <;> (repeat' split at hs) <;> simp at hs <;> (try subst hs) <;>
   constructor <;> grind [wInCb, kInCb, inWatch]

theorem seen_k {s s' : St} (hc : Ctl s) (h : Seen s) (hs : kStep s = some s') : Seen s' := by
  have hf := fun x => not_free hc x
  have hk : s.stream = false → s.k = .free := fun x => (hc.quiet x).1
  have hiw := hc.inw
  have hfin := hc.fin
  have hval := hc.valid
  have hgone := hc.gone
  obtain ⟨h1,h2,h3,h4,h5,h6⟩ := h
  unfold kStep at hs
  split at hs <;> (try unfold closeStep at hs) <;> (repeat' split at hs) <;> simp at hs <;> (try subst hs) <;>
   constructor <;> grind [wInCb, kInCb, inWatch]

theorem seen_o {s s' : St} (hc : Ctl s) (h : Seen s) (hs : oStep s = some s') : Seen s' := by
  have hfin := hc.fin
  have hval := hc.valid
  have hget := hc.get
  obtain ⟨h1,h2,h3,h4,h5,h6⟩ := h
  unfold oStep at hs
  split at hs
  · rename_i c ho
    unfold closeStep at hs
    split at hs
    · grind
    · rename_i hs'
      repeat' split at hs'
      all_goals (simp at hs'; try (obtain ⟨rfl, rfl⟩ := hs'); simp at hs; try subst hs; constructor <;> grind)
    · rename_i s1 b hs'
      simp at hs; subst hs
      repeat' split at hs'
      · simp at hs'
      · simp at hs'
      · simp at hs'
      · simp at hs'
      · rename_i hv
        simp at hs'; obtain ⟨rfl, rfl⟩ := hs'
        have hv' : s.valid = false := by simpa using hv
        refine ⟨by grind, by grind, by grind, by grind, ?_, by grind⟩
        rcases h5 with h5 | ⟨r, n, k1, k2⟩
        · have := h6 hv' h5; rw [ho] at this; simp at this
        · refine .inr ⟨r, n + 1, k1, ?_⟩
          rw [an_cr, k2]; simp [List.replicate_succ']
      · simp at hs'
      · rename_i r hfr
        simp at hs'; obtain ⟨rfl, rfl⟩ := hs'
        have hv := hget (.inl ho)
        refine ⟨by grind, by grind, by grind, by grind, ?_, by grind⟩
        refine .inr ⟨r, 0, hfr, ?_⟩
        simp only [an_cr, h4 hv]; rfl
  · unfold closeStep at hs
    (repeat' split at hs) <;> simp at hs <;> (try subst hs) <;> constructor <;> grind
  · (repeat' split at hs) <;> simp at hs <;> (try subst hs) <;> constructor <;> grind
  · cases hs

theorem seen_step {s s' : St} {a : Act} (hc : Ctl s) (h : Seen s) (hs : step true d s a = some s') : Seen s' := by
  cases a with
  | w => exact seen_w hc h hs
  | k => exact seen_k hc h hs
  | o => exact seen_o hc h hs
  | _ =>
    have hf := fun x => wInCb_not hc x
    have hf' := fun x => not_free hc x
    obtain ⟨h1,h2,h3,h4,h5,h6⟩ := h
    simp only [step] at hs
    (repeat' split at hs) <;> simp at hs <;> (try subst hs) <;>
    constructor <;> grind [wInCb, kInCb, St.locked]

/-! ### Batches -/

structure Batches (acts : List Act) (s : St) : Prop where
  all : List.Perm (s.taken ++ s.dropped ++ s.entered ++ s.pending) (notified acts)
  order : (∀ i, Act.tryLock i ∈ acts → i = 0) → List.Sublist (s.taken ++ s.entered ++ s.pending) (notified acts)

theorem batches_same {acts : List Act} {a : Act} {s s' : St} (h : Batches acts s) (h1 : s'.taken = s.taken) (h2 : s'.dropped = s.dropped)
    (h3 : s'.entered = s.entered) (h4 : s'.pending = s.pending) (ha : notified [a] = []) : Batches (acts ++ [a]) s' := by
  have hn : notified (acts ++ [a]) = notified acts := by rw [notified_append, ha, List.append_nil]
  refine ⟨by rw [h1, h2, h3, h4, hn]; exact h.all, fun hi => ?_⟩
  rw [h1, h3, h4, hn]
  exact h.order (fun i hi' => hi i (List.mem_append_left _ hi'))

theorem erase_perm {α : Type} : ∀ (l : List α) (i : Nat) (h : i < l.length), List.Perm l (l[i] :: l.eraseIdx i)
  | x :: l, 0, _ => .refl _
  | x :: l, i + 1, h => by
    have := erase_perm l i (by simpa using h)
    exact (this.cons x).trans (.swap ..)

theorem batches_step {s s' : St} {acts : List Act} {a : Act} (h : Batches acts s) (hs : step true d s a = some s') : Batches (acts ++ [a]) s' := by
  cases a with
  | w =>
    refine batches_same h ?_ ?_ ?_ ?_ rfl <;>
    (simp only [step, wStep] at hs
     split at hs <;> (try unfold closeStep at hs) <;> (repeat' split at hs) <;> simp at hs <;> (try subst hs) <;> grind)
  | k =>
    refine batches_same h ?_ ?_ ?_ ?_ rfl <;>
    (simp only [step, kStep] at hs
     split at hs <;> (try unfold closeStep at hs) <;> (repeat' split at hs) <;> simp at hs <;> (try subst hs) <;> grind)
  | o =>
    refine batches_same h ?_ ?_ ?_ ?_ rfl <;>
    (simp only [step, oStep] at hs
     split at hs <;> (try unfold closeStep at hs) <;> (repeat' split at hs) <;> simp at hs <;> (try subst hs) <;> grind)
  | notify b =>
    simp only [step] at hs
    split at hs
    · injection hs with hs; subst hs
      have hn : notified (acts ++ [.notify b]) = notified acts ++ [b] := by rw [notified_append]; rfl
      refine ⟨?_, fun hi => ?_⟩
      · rw [hn]; simp only [← List.append_assoc]; exact h.all.append_right _
      · rw [hn]; simp only [← List.append_assoc]
        exact (h.order (fun i hi' => hi i (List.mem_append_left _ hi'))).append_right _
    · cases hs
  | enter =>
    simp only [step] at hs
    split at hs
    · cases hs
    · rename_i b rest hp
      split at hs
      · injection hs with hs; subst hs
        have hn : notified (acts ++ [.enter]) = notified acts := by rw [notified_append]; simp [notified]
        refine ⟨?_, fun hi => ?_⟩
        · rw [hn]; have := h.all; rw [hp] at this; simpa using this
        · rw [hn]; have := h.order (fun i hi' => hi i (List.mem_append_left _ hi')); rw [hp] at this; simpa using this
      · cases hs
  | tryLock i =>
    simp only [step] at hs
    split at hs
    · cases hs
    · rename_i b hb
      have hlt : i < s.entered.length := by
        rcases Nat.lt_or_ge i s.entered.length with h | h
        · exact h
        · rw [List.getElem?_eq_none h] at hb; cases hb
      have hbe : s.entered[i] = b := by rw [List.getElem?_eq_getElem hlt] at hb; injection hb
      have hperm : List.Perm s.entered (b :: s.entered.eraseIdx i) := by
        rw [← hbe]; exact erase_perm _ i hlt
      have hn : notified (acts ++ [.tryLock i]) = notified acts := by rw [notified_append]; simp [notified]
      have hall := h.all
      -- the batch moves from `entered` to another list
      have pdrop : List.Perm (s.taken ++ (s.dropped ++ [b]) ++ s.entered.eraseIdx i ++ s.pending) (notified acts) := by
        refine .trans ?_ hall
        apply List.Perm.append_right
        simp only [List.append_assoc]
        apply List.Perm.append_left
        apply List.Perm.append_left
        exact hperm.symm
      have ptake : List.Perm (s.taken ++ [b] ++ s.dropped ++ s.entered.eraseIdx i ++ s.pending) (notified acts) := by
        refine .trans ?_ pdrop
        simp only [List.append_assoc]
        apply List.Perm.append_left
        rw [← List.append_assoc, ← List.append_assoc [b], ← List.append_assoc, ← List.append_assoc]
        rw [← List.append_assoc s.dropped]
        apply List.Perm.append_right
        apply List.Perm.append_right
        exact List.perm_append_comm
      have h0 : (∀ j, Act.tryLock j ∈ acts ++ [.tryLock i] → j = 0) → s.entered = b :: s.entered.eraseIdx i ∧
          List.Sublist (s.taken ++ s.entered ++ s.pending) (notified acts) := by
        intro hi
        have e0 := hi i (by simp)
        refine ⟨?_, h.order (fun i hi' => hi i (List.mem_append_left _ hi'))⟩
        subst e0
        cases he : s.entered with
        | nil => rw [he] at hb; simp at hb
        | cons x l => rw [he] at hb; simp at hb; simp [hb]
      have sdrop : (∀ j, Act.tryLock j ∈ acts ++ [.tryLock i] → j = 0) → List.Sublist (s.taken ++ s.entered.eraseIdx i ++ s.pending) (notified acts) := by
        intro hi
        obtain ⟨e, hsub⟩ := h0 hi
        refine .trans ?_ hsub
        apply List.Sublist.append_right
        apply List.Sublist.append_left
        exact List.eraseIdx_sublist ..
      have stake : (∀ j, Act.tryLock j ∈ acts ++ [.tryLock i] → j = 0) → List.Sublist (s.taken ++ [b] ++ s.entered.eraseIdx i ++ s.pending) (notified acts) := by
        intro hi
        obtain ⟨e, hsub⟩ := h0 hi
        rw [e] at hsub
        simpa using hsub
      split at hs
      · injection hs with hs; subst hs
        exact ⟨by rw [hn]; exact pdrop, by rw [hn]; exact sdrop⟩
      · split at hs
        · injection hs with hs; subst hs
          exact ⟨by rw [hn]; exact pdrop, by rw [hn]; exact sdrop⟩
        · injection hs with hs; subst hs
          exact ⟨by rw [hn]; exact ptake, by rw [hn]; exact stake⟩
  | _ =>
    refine batches_same h ?_ ?_ ?_ ?_ rfl <;>
    (simp only [step] at hs
     (repeat' split at hs) <;> simp at hs <;> (try subst hs) <;> rfl)

theorem batches_init : Batches [] {} := ⟨by simp [notified], by simp [notified]⟩

/-! ### All together -/

structure Inv (d : Bool) (acts : List Act) (s : St) : Prop where
  ctl : Ctl s
  tell : ∃ done handled, Tell d acts s done handled
  seen : Seen s
  bat : Batches acts s

theorem run_append (w d : Bool) (s : St) (a b : List Act) : run w d s (a ++ b) = (run w d s a).bind (fun x => run w d x b) := by
  induction a generalizing s with
  | nil => rfl
  | cons x a ih =>
    simp only [List.cons_append, run]
    cases step w d s x with
    | none => rfl
    | some y => exact ih y

theorem inv_step {s s' : St} {acts : List Act} {a : Act} (h : Inv d acts s) (hs : step true d s a = some s') : Inv d (acts ++ [a]) s' := by
  obtain ⟨done, handled, ht⟩ := h.tell
  exact ⟨ctl_step h.ctl hs, tell_step h.ctl ht hs, seen_step h.ctl h.seen hs, batches_step h.bat hs⟩

theorem inv_run {acts : List Act} : ∀ {s s' : St} {pre : List Act}, Inv d pre s → run true d s acts = some s' → Inv d (pre ++ acts) s' := by
  induction acts with
  | nil => intro s s' pre h hr; injection hr with hr; subst hr; simpa using h
  | cons a as ih =>
    intro s s' pre h hr
    simp only [run] at hr
    split at hr
    · cases hr
    · rename_i x hx
      have := ih (inv_step h hx) hr
      simpa using this

theorem inv_init : Inv d [] {} := ⟨ctl_init, ⟨[], [], tell_init⟩, seen_init, batches_init⟩

theorem inv_reached {acts : List Act} {s : St} (h : run true d {} acts = some s) : Inv d acts s := by
  have := inv_run (pre := []) inv_init h
  simpa using this

theorem reachable_run {s s' : St} {acts : List Act} (h : Reachable true d s) (hr : run true d s acts = some s') : Reachable true d s' := by
  obtain ⟨as, h⟩ := h
  exact ⟨as ++ acts, by rw [run_append, h]; exact hr⟩

theorem run_keeps {w : Bool} {P : St → Prop} (hP : ∀ x a x', P x → step w d x a = some x' → P x') : ∀ (acts : List Act) (s s' : St),
    P s → run w d s acts = some s' → P s' := by
  intro acts
  induction acts with
  | nil => intro s s' h hr; injection hr with hr; subst hr; exact h
  | cons a as ih =>
    intro s s' h hr
    simp only [run] at hr
    split at hr
    · cases hr
    · rename_i x hx
      exact ih x s' (hP s a x h hx) hr

end Verif.Lemmas.DLife
